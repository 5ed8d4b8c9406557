import Verif.Proofs.Recover
/-!
# Traces of one shard, in the directory of a whole store
-/
namespace Candy

/-! ## Changing the files of one shard -/

theorem Tiles.single {s : Shard} (hd : Dyadic s.lo s.hi) : Tiles s.lo s.hi [s] := .cons rfl hd .nil

theorem Tiles.dyadic {lo hi : Nat} {l : List Shard} (h : Tiles lo hi l) {s : Shard} (hs : s ∈ l) : Dyadic s.lo s.hi := by
  induction h with
  | nil => simp at hs
  | cons a b c ih =>
    rcases List.mem_cons.1 hs with rfl | hs
    · exact b
    · exact ih hs

section
variable {cfg : Cfg} {F : FS} {pre post : List Shard} {s : Shard}

theorem mem_mid {pre post : List Shard} {s : Shard} : s ∈ pre ++ [s] ++ post := by simp

theorem RecF.dy (h : RecF cfg F (pre ++ [s] ++ post)) : Dyadic s.lo s.hi := h.tiles.dyadic mem_mid

/-- The general step: the files of one shard change. -/
theorem RecF.change {s' : Shard} {G : FS} (h : RecF cfg F (pre ++ [s] ++ post)) (hlo : s'.lo = s.lo) (hhi : s'.hi = s.hi)
    (hok : ROK cfg s') (hsame : ∀ n, n ≠ s.srcName → n ≠ s.tgtName → G n = F n)
    (hsrc : G s.srcName = some (.good s'.src)) (htgt : (G s.tgtName).map DFile.asFile = s'.tgt) :
    RecF cfg G (pre ++ [s'] ++ post) := by
  have hd := h.dy
  have hlt := hd.lt
  have en : s'.srcName = s.srcName := by simp [Shard.srcName, hlo, hhi]
  have en' : s'.tgtName = s.tgtName := by simp [Shard.tgtName, hlo, hhi]
  have hd' : Dyadic s'.lo s'.hi := by rw [hlo, hhi]; exact hd
  refine RecF.local h (Tiles.single hd) hlt (by rw [← hlo, ← hhi]; exact Tiles.single hd') ?_ ?_ ?_ ?_ ?_ ?_
  · intro x hx; simp only [List.mem_singleton] at hx; subst hx; exact hok
  · intro n _ hn
    refine hsame n ?_ ?_ <;> rintro rfl <;> exact hn ⟨Nat.le_refl _, Nat.le_refl _⟩
  · intro x hx; simp only [List.mem_singleton] at hx; subst hx; rw [en]; exact hsrc
  · intro x hx; simp only [List.mem_singleton] at hx; subst hx; rw [en']; exact htgt
  · intro a b ha hb hn
    by_cases e : (⟨.shard, a, b⟩ : FName) = s.srcName
    · simp only [Shard.srcName, FName.mk.injEq, true_and] at e
      exact ⟨by omega, s', by simp, by omega, by omega⟩
    · rw [hsame _ e (by simp [Shard.tgtName])] at hn
      obtain ⟨h1, _⟩ := h.shards a b hn
      exact ⟨h1, s', by simp, by omega, by omega⟩
  · intro a b ha hb hn
    by_cases e : (⟨.compact, a, b⟩ : FName) = s.tgtName
    · simp only [Shard.tgtName, FName.mk.injEq, true_and] at e
      exact ⟨s', by simp, by omega, by omega⟩
    · rw [hsame _ (by simp [Shard.srcName]) e] at hn
      obtain ⟨x, h1, h2, h3⟩ := h.compacts a b hn
      by_cases e' : x = s
      · subst e'; exact absurd (by simp [Shard.tgtName, h2, h3]) e
      · exfalso
        obtain ⟨m1, t1, t2⟩ := h.tiles.split
        obtain ⟨m2, t3, t4⟩ := t1.split
        obtain ⟨rfl, rfl⟩ := t4.unique (Tiles.single hd) (by simp)
        have hlt' := (h.tiles.mem h1).2.1
        simp only [List.mem_append, List.mem_singleton] at h1
        rcases h1 with (h1 | h1) | h1
        · have := t3.mem h1; omega
        · exact e' h1
        · have := t2.mem h1; omega

theorem DirF.change {s' : Shard} {G : FS} (h : DirF F (pre ++ [s] ++ post)) (ht : Tiles 0 65536 (pre ++ [s] ++ post))
    (hlo : s'.lo = s.lo) (hhi : s'.hi = s.hi) (hsame : ∀ n, n ≠ s.srcName → n ≠ s.tgtName → G n = F n)
    (hsrc : G s.srcName = some (.good s'.src)) (htgt : G s.tgtName = s'.tgt.map .good) :
    DirF G (pre ++ [s'] ++ post) := by
  have hd := ht.dyadic (s := s) mem_mid
  have en : s'.srcName = s.srcName := by simp [Shard.srcName, hlo, hhi]
  have en' : s'.tgtName = s.tgtName := by simp [Shard.tgtName, hlo, hhi]
  refine ⟨?_, ?_, ?_⟩
  · intro x hx
    by_cases e : x.srcName = s.srcName
    · obtain ⟨m1, t1, t2⟩ := ht.split
      obtain ⟨m2, t3, t4⟩ := t1.split
      obtain ⟨rfl, rfl⟩ := t4.unique (Tiles.single hd) (by simp)
      simp only [Shard.srcName, FName.mk.injEq, true_and] at e
      have := hd.lt
      simp only [List.mem_append, List.mem_singleton] at hx
      rcases hx with (hx | hx) | hx
      · have := t3.mem hx; omega
      · subst hx; rw [en]; exact hsrc
      · have := t2.mem hx; omega
    · rw [hsame _ e (by simp [Shard.tgtName, Shard.srcName])]
      simp only [List.mem_append, List.mem_singleton] at hx
      rcases hx with (hx | hx) | hx
      · exact h.src x (by simp [hx])
      · subst hx; exact absurd en e
      · exact h.src x (by simp [hx])
  · intro x hx
    by_cases e : x.tgtName = s.tgtName
    · obtain ⟨m1, t1, t2⟩ := ht.split
      obtain ⟨m2, t3, t4⟩ := t1.split
      obtain ⟨rfl, rfl⟩ := t4.unique (Tiles.single hd) (by simp)
      simp only [Shard.tgtName, FName.mk.injEq, true_and] at e
      have := hd.lt
      simp only [List.mem_append, List.mem_singleton] at hx
      rcases hx with (hx | hx) | hx
      · have := t3.mem hx; omega
      · subst hx; rw [en']; exact htgt
      · have := t2.mem hx; omega
    · rw [hsame _ (by simp [Shard.tgtName, Shard.srcName]) e]
      simp only [List.mem_append, List.mem_singleton] at hx
      rcases hx with (hx | hx) | hx
      · exact h.tgt x (by simp [hx])
      · subst hx; exact absurd en' e
      · exact h.tgt x (by simp [hx])
  · intro n hn
    by_cases e : n = s.srcName
    · exact ⟨s', by simp, Or.inl (by rw [en, e])⟩
    by_cases e' : n = s.tgtName
    · exact ⟨s', by simp, Or.inr (by rw [en', e'])⟩
    rw [hsame n e e'] at hn
    obtain ⟨x, h1, h2⟩ := h.only n hn
    simp only [List.mem_append, List.mem_singleton] at h1
    rcases h1 with (h1 | h1) | h1
    · exact ⟨x, by simp [h1], h2⟩
    · subst h1; rcases h2 with h2 | h2
      · exact absurd h2 e
      · exact absurd h2 e'
    · exact ⟨x, by simp [h1], h2⟩

end

/-! ## The context of a trace -/

/-- The directory `F` belongs to the shards `pre ++ l ++ post`. -/
structure Ctx (cfg : Cfg) (F : FS) (pre l post : List Shard) : Prop where
  dir : DirF F (pre ++ l ++ post)
  tiles : Tiles 0 65536 (pre ++ l ++ post)
  ok : ∀ s ∈ pre ++ l ++ post, ROK cfg s

/-- The directory can be recovered into the shards `pre`, some shards holding exactly `M`, and `post`. -/
def Loc (cfg : Cfg) (pre post : List Shard) (M : Bytes → Bytes → Prop) (G : FS) : Prop :=
  ∃ l, RecF cfg G (pre ++ l ++ post) ∧ ∀ k v, Holds cfg l k v ↔ M k v

theorem Ctx.recF {cfg : Cfg} {F : FS} {pre l post : List Shard} (h : Ctx cfg F pre l post) : RecF cfg F (pre ++ l ++ post) :=
  h.dir.recF h.tiles h.ok

theorem Ctx.loc {cfg : Cfg} {F : FS} {pre l post : List Shard} {M} (h : Ctx cfg F pre l post) (hM : ∀ k v, Holds cfg l k v ↔ M k v) :
    Loc cfg pre post M F := ⟨l, h.recF, hM⟩

theorem Ctx.change {cfg : Cfg} {F G : FS} {pre post : List Shard} {s s' : Shard} (h : Ctx cfg F pre [s] post)
    (hlo : s'.lo = s.lo) (hhi : s'.hi = s.hi) (hok : ROK cfg s') (hsame : ∀ n, n ≠ s.srcName → n ≠ s.tgtName → G n = F n)
    (hsrc : G s.srcName = some (.good s'.src)) (htgt : G s.tgtName = s'.tgt.map .good) : Ctx cfg G pre [s'] post := by
  have hr := RecF.change h.recF hlo hhi hok hsame hsrc (by rw [htgt]; cases s'.tgt <;> rfl)
  exact ⟨h.dir.change h.tiles hlo hhi hsame hsrc htgt, hr.tiles, hr.ok⟩

theorem Ctx.rok {cfg : Cfg} {F : FS} {pre post : List Shard} {s : Shard} (h : Ctx cfg F pre [s] post) : ROK cfg s := h.ok s mem_mid
theorem Ctx.srcF {cfg : Cfg} {F : FS} {pre post : List Shard} {s : Shard} (h : Ctx cfg F pre [s] post) : F s.srcName = some (.good s.src) :=
  h.dir.src s mem_mid
theorem Ctx.tgtF {cfg : Cfg} {F : FS} {pre post : List Shard} {s : Shard} (h : Ctx cfg F pre [s] post) : F s.tgtName = s.tgt.map .good :=
  h.dir.tgt s mem_mid

theorem srcName_ne_tgtName (s : Shard) : s.srcName ≠ s.tgtName := by simp [Shard.srcName, Shard.tgtName]

/-! ## Effects of client operations -/

/-- Replace the file selected for a row. -/
def Shard.setActive (s : Shard) (row : Nat) (g : MFile) : Shard :=
  match s.tgt with
  | some t => if row < t.compactedUpTo then { s with tgt := some g } else { s with src := g }
  | none => { s with src := g }

theorem Shard.setActive_cases (s : Shard) (row : Nat) :
    (∃ t, s.tgt = some t ∧ row < t.compactedUpTo ∧ s.active row = t ∧ s.activeName row = s.tgtName ∧
      (∀ g, s.setActive row g = { s with tgt := some g }) ∧ ∀ ps, s.runActive row ps = { s with tgt := some (t.run ps) }) ∨
    ((∀ t, s.tgt = some t → t.compactedUpTo ≤ row) ∧ s.active row = s.src ∧ s.activeName row = s.srcName ∧
      (∀ g, s.setActive row g = { s with src := g }) ∧ ∀ ps, s.runActive row ps = { s with src := s.src.run ps }) := by
  unfold Shard.active Shard.activeName Shard.setActive Shard.runActive
  cases ht : s.tgt with
  | none => right; exact ⟨by simp, rfl, rfl, fun _ => rfl, fun _ => rfl⟩
  | some t =>
    by_cases e : row < t.compactedUpTo
    · left; refine ⟨t, rfl, e, ?_⟩; simp [e]
    · right; simp only [e]; exact ⟨fun t' h => by simp at h; subst h; omega, rfl, rfl, fun _ => rfl, fun _ => rfl⟩

theorem Shard.runActive_eq (s : Shard) (row : Nat) (ps : List Prim) : s.runActive row ps = s.setActive row ((s.active row).run ps) := by
  rcases s.setActive_cases row with ⟨t, h1, h2, h3, h4, h5, h6⟩ | ⟨h1, h3, h4, h5, h6⟩
  · rw [h5, h6, h3]
  · rw [h5, h6, h3]

theorem Shard.setActive_self (s : Shard) (row : Nat) : s.setActive row (s.active row) = s := by
  rcases s.setActive_cases row with ⟨t, h1, h2, h3, h4, h5, h6⟩ | ⟨h1, h3, h4, h5, h6⟩
  · rw [h5, h3, ← h1]
  · rw [h5, h3]

theorem Shard.setActive_lo (s : Shard) (row : Nat) (g : MFile) : (s.setActive row g).lo = s.lo ∧ (s.setActive row g).hi = s.hi := by
  rcases s.setActive_cases row with ⟨t, h1, h2, h3, h4, h5, h6⟩ | ⟨h1, h3, h4, h5, h6⟩ <;> rw [h5] <;> exact ⟨rfl, rfl⟩

theorem Shard.setActive_rows (s : Shard) (row : Nat) {g g' : MFile} (hl : ∀ r c, r < NUM_ROWS → c < ROW_WIDTH → g.live r c = g'.live r c)
    (hcu : g.compactedUpTo = g'.compactedUpTo) (r : Nat) (hr : r < NUM_ROWS) :
    ((s.setActive row g).active r).liveRow r = ((s.setActive row g').active r).liveRow r := by
  have hl' : g.liveRow r = g'.liveRow r := liveRow_congr (fun c hc => hl r c hr hc)
  rcases s.setActive_cases row with ⟨t, h1, h2, h3, h4, h5, h6⟩ | ⟨h1, h3, h4, h5, h6⟩
  · rw [h5, h5]
    unfold Shard.active
    simp only [hcu]
    split
    · exact hl'
    · rfl
  · rw [h5, h5]
    unfold Shard.active
    simp only
    cases s.tgt with
    | none => exact hl'
    | some t => simp only; split
                · rfl
                · exact hl'

/-- A file that has the pairs of one before or after an effect fits the shard. -/
theorem OneOf.shard {cfg : Cfg} {s : Shard} {row : Nat} {f' g : MFile} (h : s.Inv cfg) (ha : s.AcctInv false)
    (h' : Shard.Inv cfg (s.setActive row f')) (hcu : f'.compactedUpTo = (s.active row).compactedUpTo) (ho : OneOf cfg s.lo s.hi (s.active row) f' g) : (s.setActive row g).Inv cfg ∧ (s.setActive row g).AcctInv false := by
  rcases s.setActive_cases row with ⟨t, h1, h2, h3, h4, h5, h6⟩ | ⟨h1, h3, h4, h5, h6⟩
  · rw [h5] at h' ⊢
    rw [h3] at ho
    constructor
    · refine ⟨h.src, ?_, ?_, ?_⟩
      · intro x hx; simp only [Option.some.injEq] at hx; subst hx; exact ho.ok
      · intro x hx; simp only [Option.some.injEq] at hx; subst hx; rw [ho.cu]; exact h.cu t h1
      · intro x hx r c hr hr' hc; simp only [Option.some.injEq] at hx; subst hx
        rw [ho.cu] at hr
        have hz := live_eq_none.2 (h.fresh t h1 r c hr hr' hc)
        apply live_eq_none.1
        rcases ho.live with hl | hl
        · rw [hl r c hr' hc]; exact hz
        · rw [hl r c hr' hc]
          have hcu' := h'.fresh f' rfl r c
          apply live_eq_none.2
          apply hcu' _ hr' hc
          rw [hcu, h3]; exact hr
    · refine ⟨ha.1, ?_⟩
      intro x hx; simp only [Option.some.injEq] at hx; subst hx; exact ho.acct (ha.2 t h1)
  · rw [h5] at h' ⊢
    rw [h3] at ho
    constructor
    · exact ⟨ho.ok, h.tgt, h.cu, h.fresh⟩
    · exact ⟨ho.acct ha.1, ha.2⟩

/-- A crash inside an effect leaves the pairs before or after it. -/
theorem Ctx.effect {cfg : Cfg} {F : FS} {pre post : List Shard} {s : Shard} {k : Bytes} {ps new} (h : Ctx cfg F pre [s] post) (hi : s.Inv cfg)
    (he : Effect cfg (s.active (cfg.ph k).rowSel) (cfg.ph k).rowSel k (s.val cfg k) ps new)
    (hlo : s.lo ≤ (cfg.ph k).shardSel) (hhi : (cfg.ph k).shardSel < s.hi) :
    ∃ F', Tr F (onFile (s.activeName (cfg.ph k).rowSel) ps) F' (fun G => Loc cfg pre post (fun k v => s.val cfg k = some v) G ∨
        Loc cfg pre post (fun k' v => (s.runActive (cfg.ph k).rowSel ps).val cfg k' = some v) G) ∧
      Ctx cfg F' pre [s.runActive (cfg.ph k).rowSel ps] post := by
  have ha := h.rok.acct
  obtain ⟨hi', hv'⟩ := hi.effect he hlo hhi
  have ha' := ha.effect hi he
  rw [Shard.runActive_eq] at hi' ha'
  have hcur := hi.val k
  have hcu := he.cu
  have hcr : ∀ g, (s.active (cfg.ph k).rowSel).Crash ps g → OneOf cfg s.lo s.hi (s.active (cfg.ph k).rowSel) ((s.active (cfg.ph k).rowSel).run ps) g :=
    fun g hg => he.crash (hi.active _) hcur hlo hhi hg
  have hgood : F (s.activeName (cfg.ph k).rowSel) = some (.good (s.active (cfg.ph k).rowSel)) := by
    rcases s.setActive_cases (cfg.ph k).rowSel with ⟨t, h1, h2, h3, h4, h5, h6⟩ | ⟨h1, h3, h4, h5, h6⟩
    · rw [h3, h4, h.tgtF, h1]; rfl
    · rw [h3, h4, h.srcF]
  have hset : ∀ g, (F.upd (s.activeName (cfg.ph k).rowSel) (some (.good g))) s.srcName = some (.good (s.setActive (cfg.ph k).rowSel g).src) ∧
      (F.upd (s.activeName (cfg.ph k).rowSel) (some (.good g))) s.tgtName = (s.setActive (cfg.ph k).rowSel g).tgt.map .good ∧
      ∀ n, n ≠ s.srcName → n ≠ s.tgtName → (F.upd (s.activeName (cfg.ph k).rowSel) (some (.good g))) n = F n := by
    intro g
    rcases s.setActive_cases (cfg.ph k).rowSel with ⟨t, h1, h2, h3, h4, h5, h6⟩ | ⟨h1, h3, h4, h5, h6⟩
    · rw [h4, h5]
      exact ⟨by rw [FS.upd_other _ _ (srcName_ne_tgtName s)]; exact h.srcF, FS.upd_same _ _ _, fun n _ hn => FS.upd_other _ _ hn⟩
    · rw [h4, h5]
      exact ⟨FS.upd_same _ _ _, by rw [FS.upd_other _ _ (srcName_ne_tgtName s).symm]; exact h.tgtF, fun n hn _ => FS.upd_other _ _ hn⟩
  have hlohi := s.setActive_lo (cfg.ph k).rowSel
  have hstep : ∀ g, OneOf cfg s.lo s.hi (s.active (cfg.ph k).rowSel) ((s.active (cfg.ph k).rowSel).run ps) g →
      ROK cfg (s.setActive (cfg.ph k).rowSel g) := by
    intro g hg
    obtain ⟨a, b⟩ := hg.shard hi ha hi' hcu
    exact a.rok b
  refine ⟨_, Tr.onFile ps hgood ?_, ?_⟩
  · intro g hg
    have ho := hcr g hg
    have hr := hstep g ho
    obtain ⟨e1, e2, e3⟩ := hset g
    have hrec := RecF.change h.recF (hlohi g).1 (hlohi g).2 hr e3 e1 (by rw [e2]; cases (s.setActive (cfg.ph k).rowSel g).tgt <;> rfl)
    rcases ho.live with hl | hl
    · left
      refine ⟨_, hrec, fun k' v => ?_⟩
      rw [Holds.single, ROK.val_eq h.rok hr]
      intro r hr'
      rw [Shard.setActive_rows s _ hl ho.cu r hr', Shard.setActive_self]
    · right
      refine ⟨_, hrec, fun k' v => ?_⟩
      rw [Holds.single, Shard.runActive_eq, ROK.val_eq (hi'.rok ha') hr]
      intro r hr'
      exact Shard.setActive_rows s _ hl (by rw [ho.cu, hcu]) r hr'
  · obtain ⟨e1, e2, e3⟩ := hset ((s.active (cfg.ph k).rowSel).run ps)
    rw [Shard.runActive_eq]
    exact h.change (hlohi _).1 (hlohi _).2 (hi'.rok ha') e3 e1 e2

/-! ## Compaction -/

theorem TgtOK.empty {cfg : Cfg} {lo hi : Nat} {src : MFile} (h : FileOK cfg lo hi src) : TgtOK cfg lo hi src MFile.empty := by
  have h1 : Shard.Inv cfg ⟨lo, hi, src, some MFile.empty⟩ := by
    refine ⟨h, ?_, ?_, ?_⟩
    · intro t e; simp at e; subst e; exact FileOK.empty ..
    · intro t e; simp at e; subst e; simp [MFile.empty]
    · intro t e; simp at e; subst e; intros; rfl
  exact h1.tgtOK rfl

theorem Ctx.begin {cfg : Cfg} {F : FS} {pre post : List Shard} {s : Shard} (h : Ctx cfg F pre [s] post) (hi : s.Inv cfg) (off : Nat) :
    ∃ F', Tr F (s.beginOps off) F' (Loc cfg pre post (fun k v => s.val cfg k = some v)) ∧ Ctx cfg F' pre [s.beginCompaction off] post := by
  have hl : Loc cfg pre post (fun k v => s.val cfg k = some v) F := h.loc (fun k v => Holds.single)
  unfold Shard.beginOps Shard.beginCompaction
  split
  · exact ⟨F, Tr.nil hl, h⟩
  · cases ht : s.tgt with
    | some t => exact ⟨F, Tr.nil hl, h⟩
    | none =>
      simp only
      have hrok : ROK cfg { s with tgt := some MFile.empty } := by
        refine ⟨hi.src, ?_, h.rok.acct.1, ?_⟩
        · intro t e; simp at e; subst e; exact TgtOK.empty hi.src
        · intro t e; simp at e; subst e; exact FileAcct.empty _
      refine ⟨_, Tr.create hl ?_, ?_⟩
      · intro x hx
        refine ⟨[{ s with tgt := some MFile.empty }], ?_, ?_⟩
        · refine RecF.change h.recF rfl rfl hrok (fun n _ hn => FS.upd_other _ _ hn) ?_ ?_
          · rw [FS.upd_other _ _ (srcName_ne_tgtName s)]; exact h.srcF
          · rw [FS.upd_same]; simp [hx]
        · intro k v
          rw [Holds.single, ROK.val_eq h.rok hrok]
          intro r _
          unfold Shard.active
          simp [ht, MFile.empty]
      · refine h.change rfl rfl hrok (fun n _ hn => FS.upd_other _ _ hn) ?_ ?_
        · rw [FS.upd_other _ _ (srcName_ne_tgtName s)]; exact h.srcF
        · rw [FS.upd_same]; rfl

/-- The target has advanced, perhaps into the middle of a row. -/
theorem RecF.advance {cfg : Cfg} {F : FS} {pre post : List Shard} {s : Shard} {t : MFile} {x : DFile} (h : RecF cfg F (pre ++ [s] ++ post))
    (ht : s.tgt = some t) (hx : TgtOK cfg s.lo s.hi s.src x.asFile) (hs : SameDone s.src t x.asFile)
    (ha : FileAcct false t → FileAcct false x.asFile) :
    RecF cfg (F.upd s.tgtName (some x)) (pre ++ [{ s with tgt := some x.asFile }] ++ post) ∧
      ∀ k, Shard.val cfg { s with tgt := some x.asFile } k = s.val cfg k := by
  have hr := h.ok s mem_mid
  have hrok : ROK cfg { s with tgt := some x.asFile } := by
    refine ⟨hr.src, ?_, hr.acct.1, ?_⟩
    · intro t e; simp at e; subst e; exact hx
    · intro t' e; simp at e; subst e; exact ha (hr.acct.2 t ht)
  refine ⟨?_, ?_⟩
  · refine RecF.change h rfl rfl hrok (fun n _ hn => FS.upd_other _ _ hn) ?_ ?_
    · rw [FS.upd_other _ _ (srcName_ne_tgtName s)]; exact h.src s mem_mid
    · rw [FS.upd_same]; rfl
  · intro k
    rw [ROK.val_eq hr hrok]
    intro r hr
    unfold Shard.active
    simp only [ht]
    obtain ⟨h1, h2, h3⟩ := hs
    by_cases e : r < t.compactedUpTo
    · rw [if_pos (by omega), if_pos e]; exact h2 r hr e
    · rw [if_neg e]
      split
      · rename_i e'; exact h3 r hr (by omega) e'
      · rfl

theorem RecF.advance_loc {cfg : Cfg} {F : FS} {pre post : List Shard} {s : Shard} {t : MFile} {x : DFile} (h : RecF cfg F (pre ++ [s] ++ post))
    (ht : s.tgt = some t) (hx : TgtOK cfg s.lo s.hi s.src x.asFile) (hs : SameDone s.src t x.asFile)
    (ha : FileAcct false t → FileAcct false x.asFile) :
    Loc cfg pre post (fun k v => s.val cfg k = some v) (F.upd s.tgtName (some x)) := by
  obtain ⟨h1, h2⟩ := h.advance ht hx hs ha
  exact ⟨_, h1, fun k v => by rw [Holds.single, h2]⟩

/-- The target replaces the source. -/
theorem RecF.swap {cfg : Cfg} {F : FS} {pre post : List Shard} {s : Shard} {t : MFile} (h : RecF cfg F (pre ++ [s] ++ post))
    (ht : s.tgt = some t) (hcu : t.compactedUpTo = NUM_ROWS) :
    RecF cfg ((F.upd s.tgtName none).upd s.srcName (some (.good t))) (pre ++ [{ s with src := t, tgt := none }] ++ post) ∧
      ∀ k, Shard.val cfg { s with src := t, tgt := none } k = s.val cfg k := by
  have hr := h.ok s mem_mid
  have hrok : ROK cfg { s with src := t, tgt := none } := ⟨(hr.tgt t ht).ok, by simp, hr.acct.2 t ht, by simp⟩
  refine ⟨?_, ?_⟩
  · refine RecF.change h rfl rfl hrok (fun n h1 h2 => ?_) (FS.upd_same _ _ _) ?_
    · rw [FS.upd_other _ _ h1, FS.upd_other _ _ h2]
    · rw [FS.upd_other _ _ (srcName_ne_tgtName s).symm, FS.upd_same]; rfl
  · intro k
    rw [ROK.val_eq hr hrok]
    intro r hr
    unfold Shard.active
    simp only [ht]
    rw [if_pos (by omega)]

theorem Ctx.swap {cfg : Cfg} {F : FS} {pre post : List Shard} {s : Shard} {t : MFile} (h : Ctx cfg F pre [s] post)
    (ht : s.tgt = some t) : Ctx cfg ((F.upd s.tgtName none).upd s.srcName (some (.good t))) pre [{ s with src := t, tgt := none }] post := by
  have hr := h.rok
  have hrok : ROK cfg { s with src := t, tgt := none } := ⟨(hr.tgt t ht).ok, by simp, hr.acct.2 t ht, by simp⟩
  refine h.change rfl rfl hrok (fun n h1 h2 => ?_) (FS.upd_same _ _ _) ?_
  · rw [FS.upd_other _ _ h1, FS.upd_other _ _ h2]
  · rw [FS.upd_other _ _ (srcName_ne_tgtName s).symm, FS.upd_same]; rfl

/-- Completing a compaction that may have been interrupted in the middle of a row. -/
theorem RecF.complete {cfg : Cfg} {F : FS} {pre post : List Shard} {s : Shard} {t : MFile} {first : Bool} (h : RecF cfg F (pre ++ [s] ++ post))
    (ht : s.tgt = some t) (hF : F s.tgtName = some (.good t)) (hsmall : s.Small)
    (hfirst : first = true ∨ (t.compactedUpTo < NUM_ROWS → ∀ c, c < ROW_WIDTH → t.live t.compactedUpTo c = none)) :
    ∃ ps, compactPrims cfg s.src (NUM_ROWS - t.compactedUpTo) first t = some ps ∧
      Tr F (onFile s.tgtName ps ++ [.rename s.tgtName s.srcName]) ((F.upd s.tgtName none).upd s.srcName (some (.good (t.run ps))))
        (Loc cfg pre post (fun k v => s.val cfg k = some v)) ∧
      RecF cfg ((F.upd s.tgtName none).upd s.srcName (some (.good (t.run ps)))) (pre ++ [{ s with src := t.run ps, tgt := none }] ++ post) ∧
      (∀ k, Shard.val cfg { s with src := t.run ps, tgt := none } k = s.val cfg k) ∧ Shard.Small { s with src := t.run ps, tgt := none } ∧
      (t.run ps).writeOff = t.writeOff + remW kvSize s.src t.compactedUpTo := by
  have hr := h.ok s mem_mid
  have hT := hr.tgt t ht
  obtain ⟨t', h1, h2, h3⟩ := compactRows_spec hr.src _ t first rfl hT hfirst (hsmall.2 t ht)
  rw [compactRows_eq] at h1
  cases hps : compactPrims cfg s.src (NUM_ROWS - t.compactedUpTo) first t with
  | none => rw [hps] at h1; simp at h1
  | some ps =>
    rw [hps] at h1
    simp only [Option.map_some, Option.some.injEq] at h1
    have hcr : ∀ g, t.Crash ps g → TgtOK cfg s.lo s.hi s.src g ∧ SameDone s.src t g ∧ (FileAcct false t → FileAcct false g) ∧ t.writeOff ≤ g.writeOff :=
      fun g hg => compactPrims_crash hr.src _ t g first ps (by have := hT.cu; omega) hT (hsmall.2 t ht) hps hg
    obtain ⟨d1, d2, d3, _⟩ := hcr _ (MFile.Crash.done t ps)
    have hadv := h.advance (x := .good (t.run ps)) ht d1 d2 d3
    have hcu : (t.run ps).compactedUpTo = NUM_ROWS := by rw [h1]; exact h3.cu
    have hsw := hadv.1.swap (s := { s with tgt := some (t.run ps) }) (t := t.run ps) rfl hcu
    have e : ((F.upd s.tgtName (some (.good (t.run ps)))).upd s.tgtName none) = F.upd s.tgtName none := FS.upd_upd _ _ _ _
    have hsw1 : RecF cfg ((F.upd s.tgtName none).upd s.srcName (some (.good (t.run ps)))) (pre ++ [{ s with src := t.run ps, tgt := none }] ++ post) := by
      rw [← e]; exact hsw.1
    have hval : ∀ k, Shard.val cfg { s with src := t.run ps, tgt := none } k = s.val cfg k := fun k => by
      rw [← hadv.2 k]; exact hsw.2 k
    refine ⟨ps, rfl, ?_, hsw1, hval, ?_, by rw [h1, h3.off]⟩
    · refine Tr.append (Tr.onFile ps hF ?_) (Tr.single ?_ (by simp) ?_ ?_)
      · intro g hg
        obtain ⟨a, b, c, _⟩ := hcr g hg
        exact h.advance_loc (x := .good g) ht a b c
      · simp only [FOp.appF, FS.upd_same, FS.upd_upd]
      · exact h.advance_loc (x := .good (t.run ps)) ht d1 d2 d3
      · exact ⟨_, hsw1, fun k v => by rw [Holds.single, hval]⟩
    · refine ⟨?_, by simp⟩
      show (t.run ps).writeOff < _
      rw [h1, h3.off]; exact hsmall.2 t ht

theorem Ctx.finish {cfg : Cfg} {F : FS} {pre post : List Shard} {s : Shard} (h : Ctx cfg F pre [s] post) (hi : s.Inv cfg) (hsmall : s.Small) :
    ∃ F' s', s.finish cfg = some s' ∧ Tr F (s.finishOps cfg) F' (Loc cfg pre post (fun k v => s.val cfg k = some v)) ∧ Ctx cfg F' pre [s'] post := by
  unfold Shard.finish Shard.finishOps
  cases ht : s.tgt with
  | none => exact ⟨F, s, rfl, Tr.nil (h.loc (fun k v => Holds.single)), h⟩
  | some t =>
    simp only
    have hfresh : t.compactedUpTo < NUM_ROWS → ∀ c, c < ROW_WIDTH → t.live t.compactedUpTo c = none := fun e c hc =>
      live_eq_none.2 (hi.fresh t ht _ c (Nat.le_refl _) e hc)
    have hF : F s.tgtName = some (.good t) := by rw [h.tgtF, ht]; rfl
    obtain ⟨ps, h1, h2, h3, h4, _⟩ := h.recF.complete ht hF hsmall (Or.inr hfresh)
    refine ⟨_, { s with src := t.run ps, tgt := none }, ?_, by rw [h1]; exact h2, ?_⟩
    · rw [compactRows_eq, h1]; rfl
    · have hrok := h3.ok { s with src := t.run ps, tgt := none } (by simp)
      refine h.change rfl rfl hrok (fun n h1 h2 => ?_) (FS.upd_same _ _ _) ?_
      · rw [FS.upd_other _ _ h1, FS.upd_other _ _ h2]
      · rw [FS.upd_other _ _ (srcName_ne_tgtName s).symm, FS.upd_same]; rfl

/-- Whatever the background thread of a shard has done when the process dies. -/
theorem RecF.bgCrash {cfg : Cfg} {F G : FS} {pre post : List Shard} {s : Shard} {t : MFile} (h : RecF cfg F (pre ++ [s] ++ post))
    (ht : s.tgt = some t) (hF : F s.tgtName = some (.good t)) (hsmall : s.Small) (hc : FS.Crash F (s.bgOps cfg) G) :
    Loc cfg pre post (fun k v => s.val cfg k = some v) G := by
  have hr := h.ok s mem_mid
  have hT := hr.tgt t ht
  have h0 : Loc cfg pre post (fun k v => s.val cfg k = some v) F := ⟨_, h, fun k v => Holds.single⟩
  unfold Shard.bgOps at hc
  rw [ht] at hc
  simp only at hc
  split at hc
  · rename_i hlt
    cases hps : compactRowPrims cfg (t.compactedUpTo == 0) s.src t with
    | none => rw [hps] at hc; cases hc; exact h0
    | some ps =>
      rw [hps] at hc
      have hsm : t.writeOff + rowW kvSize s.src t.compactedUpTo < 4294967296 := by
        have := hsmall.2 t ht
        rw [remW_step _ _ hlt] at this; omega
      refine (Tr.onFile (I := Loc cfg pre post (fun k v => s.val cfg k = some v)) ps hF ?_).2 G hc
      intro g hg
      obtain ⟨a, b, c, _⟩ := compactRow_crash hr.src hT hlt hsm hps hg
      exact h.advance_loc (x := .good g) ht a b c
  · rename_i hge
    have hcu : t.compactedUpTo = NUM_ROWS := by have := hT.cu; omega
    obtain ⟨h1, h2⟩ := h.swap ht hcu
    refine (Tr.single (I := Loc cfg pre post (fun k v => s.val cfg k = some v))
      (F' := (F.upd s.tgtName none).upd s.srcName (some (.good t))) ?_ (by simp) h0 ?_).2 G hc
    · simp [FOp.appF, hF]
    · exact ⟨_, h1, fun k v => by rw [Holds.single, h2]⟩

end Candy
