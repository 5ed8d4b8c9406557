import Verif.Model.Crash
import Verif.Proofs.Prog
import Verif.Proofs.Load
import Verif.Proofs.CrashTree
/-!
# What a crash leaves behind, and what opening makes of it
-/
namespace Candy
open Spec

/-- Opening the directory would give the contents `m`. -/
def Recov (cfg : Cfg) (d : Dir) (m : Map) : Prop := d.Nodup ∧ ∃ l, RecF cfg d.find l ∧ ∀ k v, Holds cfg l k v ↔ m k = some v

theorem shard_eta {s s' : Shard} (h1 : s.lo = s'.lo) (h2 : s.hi = s'.hi) (h3 : s.src = s'.src) (h4 : s.tgt = s'.tgt) : s = s' := by
  cases s; cases s'; simp_all

/-- The background threads do not change what will be recovered. -/
theorem Recov.bg {cfg : Cfg} {d d' : Dir} (h : BgCrash cfg d d') : ∀ {m : Map}, Recov cfg d m → Recov cfg d' m := by
  induction h with
  | refl d => exact fun h => h
  | @step d d1 d2 s f hs ht hf hsm hc _ ih =>
    intro m h
    obtain ⟨hn, l, hl, hm⟩ := h
    apply ih
    obtain ⟨hn', hc'⟩ := hc.find hn
    obtain ⟨s0, hs0, e1, e2⟩ := hl.compacts s.lo s.hi (by rw [show (⟨.compact, s.lo, s.hi⟩ : FName) = s.tgtName from rfl, hf]; simp)
    have e3 := hl.src s0 hs0
    have e4 := hl.tgt s0 hs0
    rw [show s0.srcName = s.srcName by simp [Shard.srcName, e1, e2], hs] at e3
    rw [show s0.tgtName = s.tgtName by simp [Shard.tgtName, e1, e2], hf] at e4
    simp only [Option.some.injEq, DFile.good.injEq] at e3
    have e5 : s0.tgt = s.tgt := by rw [← e4, ht]; rfl
    have e : s0 = s := shard_eta e1 e2 e3.symm e5
    subst e
    obtain ⟨pre, post, rfl⟩ := List.append_of_mem hs0
    rw [show pre ++ s0 :: post = pre ++ [s0] ++ post by simp] at hl hm
    obtain ⟨mid, h1, h2⟩ := hl.bgCrash ht hf hsm hc'
    refine ⟨hn', _, h1, fun k v => ?_⟩
    rw [← hm, Holds.append, Holds.append, Holds.append, Holds.append, h2]
    simp [Holds]

theorem Tree.OK.holds_get {cfg ex t} (h : Tree.OK cfg ex 0 END_OF_SHARDS t) (k v : Bytes) : Holds cfg t.leaves k v ↔ t.get cfg k = some v :=
  (h.get_iff (inSpan_full _)).symm

theorem Tree.OK.ctx {cfg ex t} (h : Tree.OK cfg ex 0 END_OF_SHARDS t) (hn : t.NonDegenerate) {F : FS} (hd : DirF F t.leaves) :
    Ctx cfg F [] t.leaves [] := by
  have ht := h.tiling hn dyadic_full
  refine ⟨by simpa using hd, by simpa using ht.tiles, ?_⟩
  intro s hs
  simp only [List.nil_append, List.append_nil] at hs
  exact (ht.mem hs).2.2.2.1.rok (ht.mem hs).2.2.2.2

theorem Loc.recov {cfg : Cfg} {d : Dir} {M : Bytes → Bytes → Prop} {m : Map} (hn : d.Nodup) (h : Loc cfg [] [] M d.find)
    (hm : ∀ k v, M k v ↔ m k = some v) : Recov cfg d m := by
  obtain ⟨l, h1, h2⟩ := h
  exact ⟨hn, l, by simpa using h1, fun k v => (h2 k v).trans (hm k v)⟩

/-- A directory in use holds the contents of the tree. -/
theorem DirOf.recov {cfg ex t} {d : Dir} (h : DirOf d t.leaves) (hok : Tree.OK cfg ex 0 END_OF_SHARDS t) (hn : t.NonDegenerate) :
    Recov cfg d (t.get cfg) := by
  obtain ⟨h1, h2⟩ := h.dirF
  have hc := hok.ctx hn h2
  exact Loc.recov h1 (hc.loc (fun _ _ => Iff.rfl)) hok.holds_get

/-- A crash inside a raw operation leaves the contents before or after it. -/
theorem OpCrash.recov {cfg ex} {t : Tree} {α : Type} {p : Prog α} {d d' : Dir} (h : OpCrash cfg t p d d') (hd : DirOf d t.leaves)
    (hok : Tree.OK cfg ex 0 END_OF_SHARDS t) (hsm : t.Small) (hn : t.NonDegenerate) :
    ∃ m' p', AExec cfg (t.get cfg) p m' p' ∧ Recov cfg d' m' := by
  obtain ⟨hd1, hd2⟩ := hd.dirF
  have hc := hok.ctx hn hd2
  cases h with
  | idle => exact ⟨_, _, .refl _ _, hd.recov hok hn⟩
  | ins k v mode c n t' st d d' hs h hnd hcr =>
    have hz := sizeErr_lt hs
    obtain ⟨F', h1, h2⟩ := Ctx.insert hz.1 hz.2 n t 0 END_OF_SHARDS d.find [] [] t' st hc hok hsm (inSpan_full _) h hnd
    obtain ⟨hn', hcr'⟩ := hcr.find hd1
    rcases Tree.insert_spec (mode := mode) (k := k) (v := v) hz.1 hz.2 n t 0 END_OF_SHARDS hok hsm (inSpan_full _) with
      e | ⟨t2, e1, e2, e3⟩
    · rw [e] at h; simp at h
    · rw [e1] at h
      simp only [Out.ok.injEq, Prod.mk.injEq] at h
      obtain ⟨rfl, rfl⟩ := h
      have eg : t2.get cfg = (Map.upd (t.get cfg) k (insertAt (t.get cfg k) v mode).1) := by
        funext k'; exact e3 k' (inSpan_full _)
      rcases h1.2 _ hcr' with hL | hL
      · exact ⟨_, _, .refl _ _, hL.recov hn' hok.holds_get⟩
      · refine ⟨_, _, .step (.ins _ _ _ _ _ hs) (.refl _ _), hL.recov hn' ?_⟩
        rw [← eg]; exact e2.holds_get
  | rem k c d d' hcr =>
    obtain ⟨F', h1, h2⟩ := hc.remove hok (k := k) (inSpan_full _)
    obtain ⟨hn', hcr'⟩ := hcr.find hd1
    obtain ⟨e1, e2, e3⟩ := Tree.remove_spec hok (k := k) (inSpan_full _)
    have eg : (t.remove cfg k).1.get cfg = Map.upd (t.get cfg) k none := by
      funext k'; exact e3 k' (inSpan_full _)
    rcases h1.2 _ hcr' with hL | hL
    · exact ⟨_, _, .refl _ _, hL.recov hn' hok.holds_get⟩
    · refine ⟨_, _, .step (.rem _ _ _) (.refl _ _), hL.recov hn' ?_⟩
      rw [← eg]; exact e1.holds_get

theorem CrashDir.recov {cfg ex} {t : Tree} {α : Type} {p : Prog α} {d : Dir} (h : CrashDir cfg t p d)
    (hok : Tree.OK cfg ex 0 END_OF_SHARDS t) (hsm : t.Small) (hn : t.NonDegenerate) :
    ∃ m' p', AExec cfg (t.get cfg) p m' p' ∧ Recov cfg d m' := by
  obtain ⟨d0, d1, h0, h1, h2⟩ := h
  obtain ⟨m', p', h3, h4⟩ := h1.recov h0 hok hsm hn
  exact ⟨m', p', h3, Recov.bg h2 h4⟩

/-- Waiting for all compactions keeps the ranges and the fill condition of a merge. -/
theorem finished_fits {cfg : Cfg} {ex : Bool} {maxFill : Nat} {t u : Tree} (hok : Tree.OK cfg ex 0 65536 t) (hn : t.NonDegenerate)
    (hsm : t.Small) (hfit : (ex = true ∧ maxFill ≤ 14745) ∨ t.pot < 4294967296) (e : t.finishAll cfg = some u) :
    Tree.OK cfg ex 0 65536 u ∧ u.Small ∧ u.Quiet ∧ u.NonDegenerate ∧ (∀ k, u.get cfg k = t.get cfg k) ∧ Fits ex maxFill u.leaves := by
  obtain ⟨u', e', uok, usm, uq, uspan, uval⟩ := Tree.finishAll_spec hok hsm
  rw [e] at e'; simp only [Option.some.injEq] at e'; subst e'
  have upot := Tree.pot_finishAll hok hsm e
  have un : u.NonDegenerate := by
    intro s hs
    have : (s.lo, s.hi) ∈ u.leaves.map (fun s => (s.lo, s.hi)) := List.mem_map.2 ⟨s, hs, rfl⟩
    rw [uspan, List.mem_map] at this
    obtain ⟨x, hx, hxe⟩ := this
    have := hn x hx
    simp only [Prod.mk.injEq] at hxe
    omega
  have usel : ∀ k, u.get cfg k = t.get cfg k := fun k => uval k ⟨Nat.zero_le _, (cfg.ph k).shardSel_lt⟩
  refine ⟨uok, usm, uq, un, usel, ?_⟩
  have hb : totW kvSize u.leaves ≤ totOff u.leaves := by
    have : ∀ l : List Shard, (∀ s ∈ l, s.AcctInv ex) → totW kvSize l ≤ totOff l := by
      intro l
      induction l with
      | nil => intro _; exact Nat.le_refl _
      | cons a l ih =>
        intro h
        rw [totW_cons, totOff_cons]
        have h1 := (h a List.mem_cons_self).1.bytes
        have h2 := ih (fun s hs => h s (List.mem_cons_of_mem _ hs))
        unfold liveBytes at h1; omega
    have ut := uok.tiling un dyadic_full
    exact this _ (fun s hs => (ut.mem hs).2.2.2.2)
  rcases hfit with h | h
  · exact Or.inl h
  · right
    have := uq.pot
    omega

/-- A crash in `merge_small_shards` changes nothing, even if it has deadlocked. -/
theorem MergeCrashDir.recov {cfg ex} {maxFill : Nat} {t : Tree} {d : Dir} (h : MergeCrashDir cfg maxFill t d)
    (hok : Tree.OK cfg ex 0 END_OF_SHARDS t) (hsm : t.Small) (hn : t.NonDegenerate)
    (hfit : (ex = true ∧ maxFill ≤ 14745) ∨ t.pot < 4294967296) : Recov cfg d (t.get cfg) := by
  obtain ⟨d0, d1, h0, h1, h2⟩ := h
  refine Recov.bg h2 ?_
  obtain ⟨hd1, hd2⟩ := h0.dirF
  have hc := hok.ctx hn hd2
  obtain ⟨hn', hcr⟩ := h1.find hd1
  have ht := hok.tiling hn dyadic_full
  obtain ⟨F', u, e, htr, hc', hh⟩ := Ctx.finishTree t d0.find [] [] hc (fun s hs => ⟨(ht.mem hs).2.2.2.1, hsm s hs⟩)
  obtain ⟨uok, usm, uq, un, ug, uf⟩ := finished_fits (maxFill := maxFill) hok hn hsm hfit e
  unfold Tree.mergeSmallOps at hcr
  rw [e] at hcr
  rcases hcr.append with hcr | ⟨F1, hrun, hcr⟩
  · exact (htr.2 _ hcr).recov hn' hok.holds_get
  · rw [htr.1] at hrun
    simp only [Option.some.injEq] at hrun
    subst hrun
    have base : Loc cfg [] [] (Holds cfg t.leaves) d1.find := by
      dsimp only at hcr
      split at hcr
      · generalize d1.find = G at *
        cases hcr
        exact htr.finish
      · split at hcr
        · generalize d1.find = G at *
          cases hcr
          exact htr.finish
        · rename_i needed _ _
          obtain ⟨F2, htr2, _⟩ := Ctx.mergeRec (ex := ex) (maxFill := maxFill) u (u.leaves.length - needed) 0 65536 F' [] [] hc' uok uq un dyadic_full
            (uq.small_iff.1 usm) uf
          exact (htr2.2 _ hcr).congr (fun k v => hh k v)
    exact base.recov hn' hok.holds_get

/-! ## Opening -/

theorem Tiles.nonDegenerate {l : List Shard} {t : Tree} (h : Tiles 0 65536 l) (ht : t.leaves = l) : t.NonDegenerate := by
  intro s hs; rw [ht] at hs; exact (h.mem hs).2.1

theorem RecF.sized {cfg : Cfg} {d : Dir} {l : List Shard} (h : RecF cfg d.find l) (hs : d.Sized) : ∀ s ∈ l, s.Small := by
  intro s hs'
  have h1 := hs s.lo s.hi s.src (h.src s hs')
  have h2 := h.tgt s hs'
  rw [show (⟨.compact, s.lo, s.hi⟩ : FName) = s.tgtName from rfl, h2] at h1
  exact h1

theorem FileOK_inv {cfg : Cfg} {s : Shard} (h : ROK cfg s) (hq : s.tgt = none) : s.Inv cfg ∧ s.AcctInv false :=
  ⟨⟨h.src, by simp [hq], by simp [hq], by simp [hq]⟩, h.acct⟩

/-- **Recovery**: opening a crash directory succeeds and gives the recovered contents; a crash while opening leaves a directory with the same
contents. -/
theorem Recov.openStore {cfg : Cfg} {clearBad : Bool} {d : Dir} {m : Map} (h : Recov cfg d m) (hs : d.Sized) :
    ∃ ops d' t, Candy.openStore cfg clearBad d = (ops, .ok t) ∧ d.run ops = some d' ∧ DirOf d' t.leaves ∧ Tree.OK cfg false 0 END_OF_SHARDS t ∧
      t.NonDegenerate ∧ t.Small ∧ t.Quiet ∧ t.get cfg = m ∧ ∀ d'', Dir.Crash d ops d'' → Recov cfg d'' m := by
  obtain ⟨hn, l, hl, hm⟩ := h
  obtain ⟨ops, d', l', h1, h2, h3, h4, h5, h6⟩ := hl.load (clearBad := clearBad) hn (hl.sized hs)
  have hq : ∀ s ∈ l', s.tgt = none := fun s hs => by obtain ⟨a, _, ha⟩ := h5.mem hs; exact ha.quiet
  have htl := h4.tiles.tiling (cfg := cfg) (ex := false) (fun s hs => FileOK_inv (h4.ok s hs) (hq s hs))
  obtain ⟨t, e1, e2, e3, e4⟩ := treeify_spec htl
  have hne : l' ≠ [] := h4.tiles.ne_nil (by decide)
  refine ⟨ops, d', t, ?_, h2, by rw [e4]; exact h3, e2, e3, ?_, ?_, ?_, ?_⟩
  · unfold Candy.openStore
    rw [h1]
    cases hl' : l' with
    | nil => exact absurd hl' hne
    | cons a l => dsimp only; rw [← hl', e1]
  · intro s hs
    rw [e4] at hs
    obtain ⟨a, _, ha⟩ := h5.mem hs
    exact ha.small
  · intro s hs
    rw [e4] at hs
    exact hq s hs
  · funext k
    apply option_ext_some
    intro v
    rw [← hm, ← h5.holds, ← e4]
    exact (e2.holds_get k v).symm
  · intro d'' hc
    obtain ⟨g1, l2, g2, g3⟩ := h6 d'' hc
    exact ⟨g1, l2, g2, fun k v => (g3 k v).trans (hm k v)⟩

/-- **A clean reopen**: opening the directory of a store at rest gives a store with the same shards. -/
theorem DirOf.reopen {cfg : Cfg} {ex : Bool} {clearBad : Bool} {d : Dir} {u : Tree} (h : DirOf d u.leaves) (hok : Tree.OK cfg ex 0 END_OF_SHARDS u)
    (hn : u.NonDegenerate) (hq : u.Quiet) (hsm : u.Small) :
    ∃ ops d' t, Candy.openStore cfg clearBad d = (ops, .ok t) ∧ d.run ops = some d' ∧ DirOf d' t.leaves ∧ t.leaves = u.leaves ∧
      Tree.OK cfg ex 0 END_OF_SHARDS t ∧ t.NonDegenerate ∧ t.Small ∧ t.Quiet ∧ t.get cfg = u.get cfg := by
  obtain ⟨hd1, hd2⟩ := h.dirF
  have ht := hok.tiling hn dyadic_full
  have hl : RecF cfg d.find u.leaves := hd2.recF ht.tiles (fun s hs => (ht.mem hs).2.2.2.1.rok (ht.mem hs).2.2.2.2)
  obtain ⟨ops, d', l', h1, h2, h3, h4, h5, h6⟩ := hl.load (clearBad := clearBad) hd1 (fun s hs => hsm s hs)
  have e := h5.same (fun s hs => hq s hs)
  subst e
  obtain ⟨t, e1, e2, e3, e4⟩ := treeify_spec ht
  have hne : u.leaves ≠ [] := h4.tiles.ne_nil (by decide)
  refine ⟨ops, d', t, ?_, h2, by rw [e4]; exact h3, e4, e2, e3, fun s hs => hsm s (e4 ▸ hs), fun s hs => hq s (e4 ▸ hs), ?_⟩
  · unfold Candy.openStore
    rw [h1]
    cases hl' : u.leaves with
    | nil => exact absurd hl' hne
    | cons a l => dsimp only; rw [← hl', e1]
  · funext k
    apply option_ext_some
    intro v
    rw [← e2.holds_get, e4, hok.holds_get]

/-- However often the process dies while opening, the contents are the same once it is open. -/
theorem Restart.spec {cfg : Cfg} {clearBad : Bool} {d : Dir} {t : Tree} (h : Restart cfg clearBad d t) : ∀ {m : Map}, Recov cfg d m →
    Tree.OK cfg false 0 END_OF_SHARDS t ∧ t.NonDegenerate ∧ t.Small ∧ t.Quiet ∧ t.get cfg = m := by
  induction h with
  | @done d ops t hs h =>
    intro m hr
    obtain ⟨ops', d', t', h1, h2, h3, h4⟩ := hr.openStore (clearBad := clearBad) hs
    rw [h] at h1
    simp only [Prod.mk.injEq, LRes.ok.injEq] at h1
    obtain ⟨rfl, rfl⟩ := h1
    exact ⟨h4.1, h4.2.1, h4.2.2.1, h4.2.2.2.1, h4.2.2.2.2.1⟩
  | @again d d' t hs h _ ih =>
    intro m hr
    obtain ⟨ops', d2, t', h1, h2, h3, h4⟩ := hr.openStore (clearBad := clearBad) hs
    rw [h1] at h
    exact ih (h4.2.2.2.2.2 _ h)

end Candy
