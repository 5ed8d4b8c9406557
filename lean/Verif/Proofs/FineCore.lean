import Verif.Proofs.FineTree
/-!
# All actors together
-/
namespace Candy
open Spec

theorem Apart.symm {X Y : Actor} {p q : Option Reg} (h : Apart X Y p q) : Apart Y X q p :=
  ⟨fun h' e => h.row h'.symm e.symm, fun h' => h.bg h'.symm, fun e b h1 h2 => h.pen e.symm b h2 h1⟩

/-- Threads and background compactions (by the start of their shard's span). -/
abbrev Who := Nat ⊕ Nat

def setP (pen : Who → Option Reg) (a : Who) (x : Option Reg) : Who → Option Reg := fun b => if b = a then x else pen b
theorem setP_same (pen : Who → Option Reg) (a : Who) (x : Option Reg) : setP pen a x a = x := if_pos rfl
theorem setP_other (pen : Who → Option Reg) {a b : Who} (x : Option Reg) (h : b ≠ a) : setP pen a x b = pen b := if_neg h

theorem spanAll {sel : Nat} (h : sel < END_OF_SHARDS) : inSpan 0 END_OF_SHARDS sel := ⟨Nat.zero_le _, h⟩

/-- What is true of the files of a shard, whoever is at work. `R r`: a background compaction is at work on row `r`. -/
structure ShardOK (cfg : Cfg) (R : Nat → Prop) (s : Shard) : Prop where
  files : ∀ sd, FileOK cfg s.lo s.hi (s.file sd)
  fresh : s.tgt.isSome = true → ∀ r, (s.file .tgt).compactedUpTo ≤ r → r < NUM_ROWS → ¬ R r → ∀ c, c < ROW_WIDTH →
    ((s.file .tgt).slot r c).sig = INVALID_SIG
  cu : (s.file .tgt).compactedUpTo ≤ NUM_ROWS

/-- The row of a background compaction on this shard. -/
def BgRow (t : Tree) (W : Who → Actor → Nat → Prop) (lo r : Nat) : Prop := ∃ a X sel, W a X sel ∧ X.bg = true ∧ (t.find sel).lo = lo ∧ X.row = r

/-- The actors `W` (with the selector of their shard) and their reserved regions. -/
structure Core (cfg : Cfg) (t : Tree) (W : Who → Actor → Nat → Prop) (pen : Who → Option Reg) : Prop where
  shape : Tree.Shape 0 END_OF_SHARDS t
  act : ∀ a X sel, W a X sel → sel < END_OF_SHARDS ∧ X.cfg = cfg ∧ OKs X (pen a) (t.find sel)
  uniq : ∀ a X Y sel sel', W a X sel → W a Y sel' → X = Y ∧ t.find sel = t.find sel'
  apart : ∀ a b X Y sel sel', a ≠ b → W a X sel → W b Y sel' → (t.find sel).lo = (t.find sel').lo → Apart X Y (pen a) (pen b)
  shard : ∀ sel, sel < END_OF_SHARDS → ShardOK cfg (BgRow t W (t.find sel).lo) (t.find sel)

theorem Core.congr {cfg : Cfg} {t : Tree} {W W' : Who → Actor → Nat → Prop} {pen : Who → Option Reg} (h : Core cfg t W pen)
    (e : ∀ a X sel, W' a X sel ↔ W a X sel) : Core cfg t W' pen := by
  have : W' = W := funext fun a => funext fun X => funext fun sel => propext (e a X sel)
  rw [this]; exact h

/-- Some actors leave; a background compaction only after it has finished its row. -/
theorem Core.drop {cfg : Cfg} {t : Tree} {W W' : Who → Actor → Nat → Prop} {pen : Who → Option Reg} (h : Core cfg t W pen)
    (h1 : ∀ a X sel, W' a X sel → W a X sel)
    (h2 : ∀ a X sel, W a X sel → X.bg = true → W' a X sel ∨ ((t.find sel).file .tgt).compactedUpTo = X.row + 1) : Core cfg t W' pen := by
  refine ⟨h.shape, fun a X sel hw => h.act a X sel (h1 _ _ _ hw), fun a X Y sel sel' hw hw' => h.uniq a X Y sel sel' (h1 _ _ _ hw) (h1 _ _ _ hw'),
    fun a b X Y sel sel' hne hw hw' => h.apart a b X Y sel sel' hne (h1 _ _ _ hw) (h1 _ _ _ hw'), fun sel hsel => ⟨(h.shard sel hsel).files, ?_, (h.shard sel hsel).cu⟩⟩
  intro ht r hr hr' hn c hc
  refine (h.shard sel hsel).fresh ht r hr hr' (fun hbg => ?_) c hc
  obtain ⟨a, X, sel', hw, hb, hlo, hrow⟩ := hbg
  rcases h2 a X sel' hw hb with hw' | hcu
  · exact hn ⟨a, X, sel', hw', hb, hlo, hrow⟩
  · have e : t.find sel' = t.find sel := h.shape.find_lo (spanAll (h.act a X sel' hw).1) (spanAll hsel) hlo
    rw [e, hrow] at hcu
    omega

/-- An actor enters. -/
theorem Core.add {cfg : Cfg} {t : Tree} {W W' : Who → Actor → Nat → Prop} {pen : Who → Option Reg} (h : Core cfg t W pen) {a0 : Who} {X0 : Actor} {sel0 : Nat}
    (hsel0 : sel0 < END_OF_SHARDS) (hcfg : X0.cfg = cfg) (h1 : ∀ a X sel, W a X sel → W' a X sel)
    (h2 : ∀ a X sel, W' a X sel → W a X sel ∨ (a = a0 ∧ X = X0 ∧ sel < END_OF_SHARDS ∧ (t.find sel).lo = (t.find sel0).lo))
    (hno : ∀ X sel, ¬ W a0 X sel) (hok : OKs X0 none (t.find sel0))
    (hrow : ∀ a X sel, W a X sel → (t.find sel).lo = (t.find sel0).lo → (X0.wr = true ∨ X.wr = true) → X0.row ≠ X.row)
    (hbg : ∀ a X sel, W a X sel → (t.find sel).lo = (t.find sel0).lo → ¬ (X0.bg = true ∧ X.bg = true)) : Core cfg t W' (setP pen a0 none) := by
  have hfind : ∀ sel, sel < END_OF_SHARDS → (t.find sel).lo = (t.find sel0).lo → t.find sel = t.find sel0 := fun sel hs e =>
    h.shape.find_lo (spanAll hs) (spanAll hsel0) e
  have hne : ∀ a X sel, W a X sel → a ≠ a0 := fun a X sel hw e => hno X sel (e ▸ hw)
  have hap : ∀ a X sel, W a X sel → (t.find sel).lo = (t.find sel0).lo → Apart X0 X none (pen a) := fun a X sel hw e =>
    ⟨hrow a X sel hw e, hbg a X sel hw e, fun _ b hb => by obtain ⟨_, e, _⟩ := hb; cases e⟩
  refine ⟨h.shape, fun a X sel hw => ?_, fun a X Y sel sel' hw hw' => ?_, fun a b X Y sel sel' hab hw hw' hlo => ?_, fun sel hsel => ⟨(h.shard sel hsel).files, ?_, (h.shard sel hsel).cu⟩⟩
  · rcases h2 a X sel hw with hw | ⟨rfl, rfl, hs, hlo⟩
    · rw [setP_other _ _ (hne _ _ _ hw)]; exact h.act a X sel hw
    · rw [setP_same]; exact ⟨hs, hcfg, by rw [hfind sel hs hlo]; exact hok⟩
  · rcases h2 a X sel hw with hw | ⟨rfl, rfl, hs, hlo⟩ <;> rcases h2 _ Y sel' hw' with hw' | ⟨e, rfl, hs', hlo'⟩
    · exact h.uniq a X Y sel sel' hw hw'
    · exact absurd e (hne _ _ _ hw)
    · exact absurd rfl (hne _ _ _ hw')
    · exact ⟨rfl, by rw [hfind sel hs hlo, hfind sel' hs' hlo']⟩
  · rcases h2 a X sel hw with hw | ⟨rfl, rfl, hs, hlo1⟩ <;> rcases h2 b Y sel' hw' with hw' | ⟨rfl, rfl, hs', hlo2⟩
    · rw [setP_other _ _ (hne _ _ _ hw), setP_other _ _ (hne _ _ _ hw')]; exact h.apart a b X Y sel sel' hab hw hw' hlo
    · rw [setP_other _ _ (hne _ _ _ hw), setP_same]; exact (hap a X sel hw (hlo.trans hlo2)).symm
    · rw [setP_same, setP_other _ _ (hne _ _ _ hw')]; exact hap b Y sel' hw' (hlo.symm.trans hlo1)
    · exact absurd rfl hab
  · intro ht r hr hr' hn c hc
    refine (h.shard sel hsel).fresh ht r hr hr' (fun hbg => ?_) c hc
    obtain ⟨a, X, sel', hw, hb, hlo, hrow⟩ := hbg
    exact hn ⟨a, X, sel', h1 _ _ _ hw, hb, hlo, hrow⟩

/-- A shard on which nobody is at work is replaced. -/
theorem Core.replace {cfg : Cfg} {t t' : Tree} {W : Who → Actor → Nat → Prop} {pen : Who → Option Reg} (h : Core cfg t W pen) {sel0 : Nat}
    (hsel0 : sel0 < END_OF_SHARDS) (hshape : Tree.Shape 0 END_OF_SHARDS t')
    (hno : ∀ a X sel, W a X sel → (t.find sel).lo ≠ (t.find sel0).lo)
    (hout : ∀ sel, sel < END_OF_SHARDS → ¬ ((t.find sel0).lo ≤ sel ∧ sel < (t.find sel0).hi) → t'.find sel = t.find sel)
    (hin : ∀ sel, (t.find sel0).lo ≤ sel → sel < (t.find sel0).hi → ShardOK cfg (fun _ => False) (t'.find sel)) : Core cfg t' W pen := by
  have hsame : ∀ a X sel, W a X sel → t'.find sel = t.find sel := by
    intro a X sel hw
    have hs := (h.act a X sel hw).1
    refine hout sel hs (fun hin => hno a X sel hw ?_)
    exact congrArg Shard.lo (h.shape.find_same (spanAll hsel0) hin)
  refine ⟨hshape, fun a X sel hw => ?_, fun a X Y sel sel' hw hw' => ?_, fun a b X Y sel sel' hab hw hw' hlo => ?_, fun sel hsel => ?_⟩
  · rw [hsame a X sel hw]; exact h.act a X sel hw
  · rw [hsame a X sel hw, hsame a Y sel' hw']; exact h.uniq a X Y sel sel' hw hw'
  · rw [hsame a X sel hw, hsame b Y sel' hw'] at hlo; exact h.apart a b X Y sel sel' hab hw hw' hlo
  · by_cases e : (t.find sel0).lo ≤ sel ∧ sel < (t.find sel0).hi
    · have := hin sel e.1 e.2
      exact ⟨this.files, fun ht r hr hr' _ c hc => this.fresh ht r hr hr' (fun h => h) c hc, this.cu⟩
    · rw [hout sel hsel e]
      refine ⟨(h.shard sel hsel).files, fun ht r hr hr' hn c hc => (h.shard sel hsel).fresh ht r hr hr' (fun hbg => ?_) c hc, (h.shard sel hsel).cu⟩
      obtain ⟨a, X, sel', hw, hb, hlo, hrow⟩ := hbg
      exact hn ⟨a, X, sel', hw, hb, by rw [hsame a X sel' hw]; exact hlo, hrow⟩

/-- An access. -/
theorem Core.step {cfg : Cfg} {t : Tree} {W : Who → Actor → Nat → Prop} {pen : Who → Option Reg} (h : Core cfg t W pen) {a : Who} {X : Actor} {sel : Nat}
    (hw : W a X sel) {pen' : Option Reg} {sh' : Shard} (hwr : X.wr = true) (g : Guar X (pen a) pen' (t.find sel) sh') :
    Core cfg (t.modify sel (fun _ => sh')) W (setP pen a pen') ∧ (t.modify sel (fun _ => sh')).find sel = sh' ∧
    (∀ sel', sel' < END_OF_SHARDS → ((t.modify sel (fun _ => sh')).find sel').lo = (t.find sel').lo ∧
      ((t.modify sel (fun _ => sh')).find sel').hi = (t.find sel').hi ∧ ((t.modify sel (fun _ => sh')).find sel').tgt.isSome = (t.find sel').tgt.isSome) ∧
    (∀ sel', sel' < END_OF_SHARDS → (t.modify sel (fun _ => sh')).find sel' = t.find sel' ∨ (t.find sel' = t.find sel ∧ (t.modify sel (fun _ => sh')).find sel' = sh')) ∧
    (∀ b Y sel', b ≠ a → W b Y sel' → Rely Y (pen b) (t.find sel') ((t.modify sel (fun _ => sh')).find sel')) := by
  obtain ⟨hsel, hcfg, hok⟩ := h.act a X sel hw
  obtain ⟨sp1, sp2, sp3⟩ := g.span
  obtain ⟨hshape, hfind⟩ := h.shape.modify (spanAll hsel) (f := fun _ => sh') sp1 sp2
  have hself : (t.modify sel (fun _ => sh')).find sel = sh' := by
    rw [hfind sel (spanAll hsel)]; exact if_pos ((h.shape.find (spanAll hsel)).1)
  have hcase : ∀ sel', sel' < END_OF_SHARDS → (((t.find sel').lo ≠ (t.find sel).lo) ∧ (t.modify sel (fun _ => sh')).find sel' = t.find sel') ∨
      (t.find sel' = t.find sel ∧ (t.modify sel (fun _ => sh')).find sel' = sh') := by
    intro sel' hs'
    rw [hfind sel' (spanAll hs')]
    by_cases e : (t.find sel).lo ≤ sel' ∧ sel' < (t.find sel).hi
    · rw [if_pos e]
      exact .inr ⟨h.shape.find_same (spanAll hsel) e, rfl⟩
    · rw [if_neg e]
      refine .inl ⟨fun e' => e ?_, rfl⟩
      have := h.shape.find_lo (spanAll hs') (spanAll hsel) e'
      rw [← this]; exact (h.shape.find (spanAll hs')).1
  have hoth : ∀ b Y sel', b ≠ a → W b Y sel' → t.find sel' = t.find sel →
      Rely Y (pen b) (t.find sel) sh' ∧ OKs Y (pen b) sh' ∧ Apart X Y pen' (pen b) := by
    intro b Y sel' hne hb e
    obtain ⟨hs', hc', hok'⟩ := h.act b Y sel' hb
    rw [e] at hok'
    exact g.others hok hwr hok' (h.apart a b X Y sel sel' (Ne.symm hne) hw hb (by rw [e])) (hc'.trans hcfg.symm)
  have hspan : ∀ sel', sel' < END_OF_SHARDS → ((t.modify sel (fun _ => sh')).find sel').lo = (t.find sel').lo ∧
      ((t.modify sel (fun _ => sh')).find sel').hi = (t.find sel').hi ∧ ((t.modify sel (fun _ => sh')).find sel').tgt.isSome = (t.find sel').tgt.isSome := by
    intro sel' hs'
    rcases hcase sel' hs' with ⟨_, e⟩ | ⟨e, e'⟩
    · rw [e]; exact ⟨rfl, rfl, rfl⟩
    · rw [e, e']; exact ⟨sp1, sp2, sp3⟩
  refine ⟨⟨hshape, fun b Y sel' hb => ?_, fun b Y Z s1 s2 h1 h2 => ?_, fun b c Y Z s1 s2 hbc h1 h2 hlo => ?_, fun sel' hs' => ?_⟩, hself, hspan, ?_, ?_⟩
  · obtain ⟨hs', hc', hok'⟩ := h.act b Y sel' hb
    refine ⟨hs', hc', ?_⟩
    by_cases e : b = a
    · subst e
      obtain ⟨rfl, e2⟩ := h.uniq b X Y sel sel' hw hb
      rw [setP_same]
      rcases hcase sel' hs' with ⟨e3, _⟩ | ⟨_, e3⟩
      · exact absurd (congrArg Shard.lo e2.symm) e3
      · rw [e3]; exact g.self hok
    · rw [setP_other _ _ e]
      rcases hcase sel' hs' with ⟨_, e3⟩ | ⟨e2, e3⟩
      · rw [e3]; exact hok'
      · rw [e3]; exact (hoth b Y sel' e hb e2).2.1
  · obtain ⟨e1, e2⟩ := h.uniq b Y Z s1 s2 h1 h2
    refine ⟨e1, ?_⟩
    rcases hcase s1 (h.act _ _ _ h1).1 with ⟨n1, f1⟩ | ⟨n1, f1⟩ <;> rcases hcase s2 (h.act _ _ _ h2).1 with ⟨n2, f2⟩ | ⟨n2, f2⟩
    · rw [f1, f2]; exact e2
    · exact absurd (congrArg Shard.lo (e2.trans n2)) n1
    · exact absurd (congrArg Shard.lo (e2.symm.trans n1)) n2
    · rw [f1, f2]
  · have q1 := (h.act _ _ _ h1).1
    have q2 := (h.act _ _ _ h2).1
    rw [(hspan s1 q1).1, (hspan s2 q2).1] at hlo
    have hold := h.apart b c Y Z s1 s2 hbc h1 h2 hlo
    by_cases eb : b = a
    · subst eb
      have ec : c ≠ b := Ne.symm hbc
      obtain ⟨rfl, e2⟩ := h.uniq b X Y sel s1 hw h1
      rw [setP_same, setP_other _ _ ec]
      exact (hoth c Z s2 ec h2 (h.shape.find_lo (spanAll q2) (spanAll hsel) (by rw [← hlo, ← e2]))).2.2
    · by_cases ec : c = a
      · subst ec
        obtain ⟨rfl, e2⟩ := h.uniq c X Z sel s2 hw h2
        rw [setP_same, setP_other _ _ eb]
        exact (hoth b Y s1 eb h1 (h.shape.find_lo (spanAll q1) (spanAll hsel) (by rw [hlo, ← e2]))).2.2.symm
      · rw [setP_other _ _ eb, setP_other _ _ ec]; exact hold
  · have hR : ∀ lo r, BgRow (t.modify sel (fun _ => sh')) W lo r ↔ BgRow t W lo r := by
      intro lo r
      constructor
      · rintro ⟨b, Y, s1, h1, h2, h3, h4⟩; exact ⟨b, Y, s1, h1, h2, by rw [← (hspan s1 (h.act _ _ _ h1).1).1]; exact h3, h4⟩
      · rintro ⟨b, Y, s1, h1, h2, h3, h4⟩; exact ⟨b, Y, s1, h1, h2, by rw [(hspan s1 (h.act _ _ _ h1).1).1]; exact h3, h4⟩
    rcases hcase sel' hs' with ⟨_, e⟩ | ⟨e2, e⟩
    · rw [e]
      exact ⟨(h.shard sel' hs').files, fun ht r hr hr' hn c hc => (h.shard sel' hs').fresh ht r hr hr' (fun hx => hn ((hR _ _).2 hx)) c hc, (h.shard sel' hs').cu⟩
    · rw [e]
      have hs0 := h.shard sel hsel
      refine ⟨fun sd => by rw [sp1, sp2, ← hok.lo.symm, ← hok.hi.symm, ← hcfg]; exact g.files hok sd, fun ht r hr hr' hn c hc => ?_, by
        rcases g.cu_tgt hok with e | ⟨_, _, e⟩
        · rw [e]; exact hs0.cu
        · rw [e]; exact hok.row⟩
      rw [sp3] at ht
      rw [sp1] at hn
      have hn' : ¬ BgRow t W (t.find sel).lo r := fun hx => hn ((hR _ _).2 hx)
      by_cases er : r = X.row
      · -- the actor's own row
        subst er
        cases hb : X.bg with
        | true => exact absurd ⟨a, X, sel, hw, hb, rfl, rfl⟩ hn'
        | false =>
          have hcu : (sh'.file .tgt).compactedUpTo = ((t.find sel).file .tgt).compactedUpTo := by
            rcases g.cu_tgt hok with e | ⟨e, _⟩
            · exact e
            · rw [hb] at e; cases e
          rw [hcu] at hr
          have hsd : X.sd = .src := by
            rw [← hok.side hb, Shard.sideOf_eq, if_neg]
            exact fun h' => absurd h'.2 (by omega)
          have : Side.tgt = X.sd.other := by rw [hsd]; rfl
          rw [this, g.other, ← this]
          exact hs0.fresh ht _ hr hr' hn' c hc
      · have hrs := (g.rowSame hok hr' er .tgt).slot c
        rw [hrs]
        refine hs0.fresh ht r ?_ hr' hn' c hc
        rcases g.cu_tgt hok with e | ⟨_, e1, e2⟩
        · rw [e] at hr; exact hr
        · omega
  · intro sel' hs'
    rcases hcase sel' hs' with ⟨_, e⟩ | e
    · exact .inl e
    · exact .inr e
  · intro b Y sel' hne hb
    rcases hcase sel' (h.act _ _ _ hb).1 with ⟨_, e⟩ | ⟨e, e'⟩
    · rw [e]; exact .refl _ _ _
    · rw [e', e]; exact (hoth b Y sel' hne hb e).1

end Candy
