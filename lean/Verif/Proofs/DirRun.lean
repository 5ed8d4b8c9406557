import Verif.Proofs.History
/-!
# The files follow the tree

Every modelled change of the in-memory tree comes with its trace (`Verif.Model.Dir`); running the trace on a directory that holds exactly
the files of the old tree never meets a missing file and gives a directory that holds exactly the files of the new tree.
-/
namespace Candy
open Spec

theorem pairUp_leaves (unit : Nat) : ∀ (n : Nat) (l : List Tree), l.length ≤ n → (pairUp unit l).flatMap Tree.leaves = l.flatMap Tree.leaves := by
  intro n
  induction n with
  | zero => intro l hl; cases l with | nil => rfl | cons a l => simp at hl
  | succ n ih =>
    intro l hl
    match l with
    | [] => rfl
    | [a] => rfl
    | a :: b :: rest =>
      simp only [List.length_cons] at hl
      unfold pairUp
      split
      · simp only [List.flatMap_cons, Tree.leaves, ih rest (by omega), List.append_assoc]
      · rw [List.flatMap_cons, ih (b :: rest) (by simp only [List.length_cons]; omega), List.flatMap_cons (x := a)]

theorem treeLoop_leaves : ∀ (n unit : Nat) (l : List Tree), (treeLoop n unit l).flatMap Tree.leaves = l.flatMap Tree.leaves := by
  intro n
  induction n with
  | zero => intro unit l; rfl
  | succ n ih =>
    intro unit l
    unfold treeLoop
    split
    · rw [ih, pairUp_leaves unit _ l (Nat.le_refl _)]
    · rfl

theorem leaves_leaf (l : List Shard) : (l.map Tree.leaf).flatMap Tree.leaves = l := by
  induction l with
  | nil => rfl
  | cons a l ih => rw [List.map_cons, List.flatMap_cons, ih]; rfl

theorem treeify_leaves {l : List Shard} {t : Tree} (h : treeify l = some t) : t.leaves = l := by
  unfold treeify at h
  dsimp only at h
  split at h
  · cases h
  · split at h
    · rename_i u hu
      cases h
      have := treeLoop_leaves 17 ((List.map Tree.len (List.map Tree.leaf l)).foldl (fun u l => if l < u then l else u) END_OF_SHARDS) (l.map Tree.leaf)
      rw [hu] at this
      simp only [List.flatMap_cons, List.flatMap_nil, List.append_nil] at this
      rw [this]
      exact leaves_leaf l
    · cases h

/-- A change of the store together with the stores to files it makes. -/
inductive RawStep (cfg : Cfg) : Tree → List FOp → Tree → Prop
  | ins {t t' : Tree} {k v : Bytes} {mode : Mode} {n : Nat} {st : InsStatus} (hz : sizeErr cfg k v = none)
      (h : t.insert cfg (cfg.ph k) k v mode n = .ok (t', st)) (hn : t'.NonDegenerate) : RawStep cfg t (t.insertOps cfg (cfg.ph k) k v mode n) t'
  | rem (t : Tree) (k : Bytes) : RawStep cfg t (t.removeOps cfg k) (t.remove cfg k).1
  | bg {t t' : Tree} {sel : Nat} (h : t.bgStep cfg sel = some t') : RawStep cfg t (t.bgOps cfg sel) t'
  | close {t t' : Tree} (h : t.finishAll cfg = some t') : RawStep cfg t (t.finishOps cfg) t'
  | merge {t t' : Tree} {maxFill : Nat} {b : Bool} (hok : MergeOK cfg maxFill t) (h : t.mergeSmall cfg maxFill = .ok (t', b)) :
      RawStep cfg t (t.mergeSmallOps cfg maxFill) t'

theorem Ctx.dirOf {cfg : Cfg} {F F' : FS} {d : Dir} {ops : List FOp} {l : List Shard} {I : FS → Prop} (hn : d.Nodup) (h : Tr d.find ops F' I)
    (hc : Ctx cfg F' [] l []) : ∃ d', d.run ops = some d' ∧ DirOf d' l := by
  obtain ⟨d', h1, h2, h3⟩ := Dir.run_of hn h.1
  have := hc.dir
  simp only [List.nil_append, List.append_nil] at this
  exact ⟨d', h1, DirF.dirOf h2 (h3 ▸ this)⟩

/-- Running the trace of a step on the files of the old tree gives the files of the new tree. -/
theorem RawStep.files {cfg : Cfg} {ex : Bool} {t t' : Tree} {ops : List FOp} (h : RawStep cfg t ops t') {d : Dir} (hd : DirOf d t.leaves)
    (hsane : Sane cfg ex t) (hsm : t.Small) (hn : t.NonDegenerate) : ∃ d', d.run ops = some d' ∧ DirOf d' t'.leaves := by
  obtain ⟨hd1, hd2⟩ := hd.dirF
  have hok := hsane.ok
  have hc := hok.ctx hn hd2
  cases h with
  | ins hz h hn' =>
    have hz := sizeErr_lt hz
    obtain ⟨F', h1, h2⟩ := Ctx.insert hz.1 hz.2 _ t 0 END_OF_SHARDS d.find [] [] t' _ hc hok hsm (inSpan_full _) h hn'
    exact Ctx.dirOf (F := d.find) hd1 h1 h2
  | rem k =>
    obtain ⟨F', h1, h2⟩ := hc.remove hok (k := k) (inSpan_full _)
    exact Ctx.dirOf (F := d.find) hd1 h1 h2
  | bg h =>
    obtain ⟨F', h1, h2⟩ := hc.bgTree hok hsm h
    exact Ctx.dirOf (F := d.find) hd1 h1 h2
  | close h =>
    have ht := hok.tiling hn dyadic_full
    obtain ⟨F', u, e, htr, hc', hh⟩ := Ctx.finishTree t d.find [] [] hc (fun s hs => ⟨(ht.mem hs).2.2.2.1, hsm s hs⟩)
    rw [h] at e; simp only [Option.some.injEq] at e; subst e
    exact Ctx.dirOf (F := d.find) hd1 htr hc'
  | @merge _ maxFill b hmok h =>
    obtain ⟨ex', ho, hfit⟩ := hmok.cases hsane
    have ht := hok.tiling hn dyadic_full
    obtain ⟨F', u, e, htr, hc', hh⟩ := Ctx.finishTree t d.find [] [] hc (fun s hs => ⟨(ht.mem hs).2.2.2.1, hsm s hs⟩)
    obtain ⟨uok, usm, uq, un, ug, uf⟩ := finished_fits (maxFill := maxFill) ho hn hsm hfit e
    have hcnt := Tree.mergeSmall_counted h u e
    unfold Tree.mergeSmall at h
    unfold Tree.mergeSmallOps
    rw [e] at h ⊢
    dsimp only at h ⊢
    rw [hcnt, if_neg (by simp)] at h
    cases hcalc : calcNumShards (Nat.max (u.leaves.map (fun s => s.getStats.numItems)).sum cfg.expectedKeys) with
    | none => rw [hcalc] at h; cases h
    | some needed =>
      rw [hcalc] at h
      dsimp only at h ⊢
      by_cases hle : u.leaves.length ≤ needed
      · rw [if_pos hle] at h ⊢
        simp only [Out.ok.injEq, Prod.mk.injEq] at h
        rw [List.append_nil, ← h.1]
        exact Ctx.dirOf (F := d.find) hd1 htr hc'
      · rw [if_neg hle] at h ⊢
        obtain ⟨F2, htr2, hfin⟩ := Ctx.mergeRec (ex := ex') (maxFill := maxFill) u (u.leaves.length - needed) 0 65536 F' [] [] hc' uok uq un dyadic_full
            (uq.small_iff.1 usm) uf
        cases hr : u.mergeRec cfg maxFill (u.leaves.length - needed) with
        | ok r =>
          rw [hr] at h
          have hc2 := hfin r hr
          have hl : t'.leaves = r.shards := by
            cases hte : treeify r.shards with
            | none => simp only [Out.bind, hte] at h; cases h
            | some t2 =>
              simp only [Out.bind, hte, Out.ok.injEq, Prod.mk.injEq] at h
              rw [← h.1]
              exact treeify_leaves hte
          rw [hl]
          refine Ctx.dirOf (F := d.find) (I := fun _ => True) hd1 ⟨?_, fun _ _ => trivial⟩ hc2
          rw [FS.run_append, htr.1]
          exact htr2.1
        | _ => rw [hr] at h; cases h

/-! ## Creating and clearing -/

/-- The stores of `create_initial_shards`. -/
theorem create_run : ∀ (l : List Shard) (F : FS), (∀ s ∈ l, s.src = MFile.empty ∧ s.tgt = none) → l.Pairwise (fun a b => a.srcName ≠ b.srcName) →
    ∃ F', F.run (l.flatMap createShardOps) = some F' ∧ (∀ s ∈ l, F' s.srcName = some (.good s.src) ∧ F' s.tgtName = none) ∧
      ∀ n, (∀ s ∈ l, n ≠ s.srcName ∧ n ≠ s.tgtName) → F' n = F n := by
  intro l
  induction l with
  | nil => intro F _ _; exact ⟨F, rfl, by simp, fun _ _ => rfl⟩
  | cons a l ih =>
    intro F he hp
    obtain ⟨hp1, hp2⟩ := List.pairwise_cons.1 hp
    have hs : F.run (createShardOps a) = some ((F.upd a.srcName (some (.good MFile.empty))).upd a.tgtName none) := by
      unfold createShardOps createOps
      simp only [List.cons_append, List.nil_append, FS.run, FOp.appF, Option.bind_some, FS.upd_same, FS.upd_upd]
    obtain ⟨F', h1, h2, h3⟩ := ih ((F.upd a.srcName (some (.good MFile.empty))).upd a.tgtName none) (fun s hs => he s (List.mem_cons_of_mem _ hs)) hp2
    have hne : a.srcName ≠ a.tgtName := by simp [Shard.srcName, Shard.tgtName]
    have hout : ∀ s ∈ l, a.srcName ≠ s.srcName ∧ a.srcName ≠ s.tgtName := fun s hs => ⟨hp1 s hs, by simp [Shard.srcName, Shard.tgtName]⟩
    have hout' : ∀ s ∈ l, a.tgtName ≠ s.srcName ∧ a.tgtName ≠ s.tgtName := fun s hs => ⟨by simp [Shard.srcName, Shard.tgtName], fun e => by
      have := hp1 s hs
      simp only [Shard.srcName, Shard.tgtName, ne_eq, FName.mk.injEq, true_and] at this e
      exact this e⟩
    refine ⟨F', ?_, ?_, ?_⟩
    · rw [List.flatMap_cons, FS.run_append, hs]; exact h1
    · intro s hs
      rcases List.mem_cons.1 hs with rfl | hs
      · rw [h3 _ hout, h3 _ hout', FS.upd_other _ _ hne, FS.upd_same, FS.upd_same, (he s List.mem_cons_self).1]
        exact ⟨rfl, rfl⟩
      · exact h2 s hs
    · intro n hn
      have := hn a List.mem_cons_self
      rw [h3 n (fun s hs => hn s (List.mem_cons_of_mem _ hs)), FS.upd_other _ _ this.2, FS.upd_other _ _ this.1]

theorem Tiles.names {lo hi : Nat} {l : List Shard} (h : Tiles lo hi l) : l.Pairwise (fun a b => a.srcName ≠ b.srcName) := by
  have := h.spans_sorted
  rw [List.pairwise_map] at this
  refine this.imp_of_mem (fun {a b} ha hb hab e => ?_)
  have h1 := h.mem ha
  have h2 := h.mem hb
  simp only [Shard.srcName, FName.mk.injEq, true_and] at e
  simp only [Shard.span] at hab
  omega

/-- Creating the initial shards in a directory without files. -/
theorem create_files {cfg : Cfg} {t : Tree} (h : Tree.create cfg = some t) {d : Dir} (hn : d.Nodup) (hd : ∀ n, d.find n = none) :
    ∃ d' l, createInitialShards cfg = some l ∧ treeify l = some t ∧ d.run (l.flatMap createShardOps) = some d' ∧ DirOf d' t.leaves := by
  have hb := create_bound h
  obtain ⟨t', h1, h2, hnd, _, _, hq, hem, _⟩ := Tree.create_spec hb true
  rw [h1] at h; simp only [Option.some.injEq] at h; subst h
  unfold Tree.create at h1
  cases hl : createInitialShards cfg with
  | none => rw [hl] at h1; cases h1
  | some l =>
    rw [hl] at h1
    have hte : treeify l = some t' := h1
    have hle := treeify_leaves hte
    have htl := (h2.tiling hnd dyadic_full).tiles
    rw [hle] at htl
    obtain ⟨F', e1, e2, e3⟩ := create_run l d.find (fun s hs => ⟨hem s (hle ▸ hs), hq s (hle ▸ hs)⟩) htl.names
    obtain ⟨d', g1, g2, g3⟩ := Dir.run_of hn e1
    refine ⟨d', l, rfl, hte, g1, ?_⟩
    rw [hle]
    apply DirF.dirOf g2
    rw [g3]
    refine ⟨fun s hs => (e2 s hs).1, fun s hs => by rw [(e2 s hs).2, hq s (hle ▸ hs)]; rfl, fun n hne => ?_⟩
    by_cases hex : ∃ s ∈ l, n = s.srcName ∨ n = s.tgtName
    · exact hex
    · exfalso
      apply hne
      rw [e3 n (fun s hs => ⟨fun e => hex ⟨s, hs, Or.inl e⟩, fun e => hex ⟨s, hs, Or.inr e⟩⟩), hd]

/-- Opening an empty directory creates the store. -/
theorem openStore_new {cfg : Cfg} {t : Tree} (h : Tree.create cfg = some t) (clearBad : Bool) :
    ∃ ops d, openStore cfg clearBad [] = (ops, .ok t) ∧ Dir.run [] ops = some d ∧ DirOf d t.leaves := by
  obtain ⟨d, l, h1, h2, h3, h4⟩ := create_files h (d := []) List.nodup_nil (fun _ => rfl)
  have hl : load cfg clearBad [] = ([], .ok []) := by
    simp [load, scanDir, consolidate, openAll]
  refine ⟨_, d, ?_, h3, h4⟩
  unfold openStore
  rw [hl]
  dsimp only
  rw [h1]
  dsimp only
  rw [h2]
  rfl

/-- The deletions of `clear`. -/
theorem clearScan_run : ∀ (d : Dir) (F : FS), d.Nodup → (∀ n, n ∈ d.map Prod.fst → F n ≠ none ∧ n.kind ≠ .merge) →
    ∃ F', F.run (clearScan d) = some F' ∧ ∀ n, F' n = if n ∈ d.map Prod.fst then none else F n := by
  intro d
  induction d with
  | nil => intro F _ _; exact ⟨F, rfl, fun n => by simp⟩
  | cons e d ih =>
    obtain ⟨m, x⟩ := e
    intro F hn hF
    have hn' : m ∉ d.map Prod.fst ∧ (d.map Prod.fst).Nodup := List.nodup_cons.1 hn
    have hm := hF m (by simp)
    obtain ⟨F', h1, h2⟩ := ih (F.upd m none) hn'.2 (fun n hn2 => ⟨by
      rw [FS.upd_other]
      · exact (hF n (List.mem_cons_of_mem _ hn2)).1
      · rintro rfl; exact hn'.1 hn2, (hF n (List.mem_cons_of_mem _ hn2)).2⟩)
    have hs : clearScan ((m, x) :: d) = .unlink m :: clearScan d := by
      rw [clearScan]
      split
      · rename_i e; exact absurd e hm.2
      · rfl
    refine ⟨F', ?_, fun n => ?_⟩
    · rw [hs]
      have : FOp.appF F (.unlink m) = some (F.upd m none) := by
        cases hf : F m with
        | none => exact absurd hf hm.1
        | some y => simp only [FOp.appF, hf]
      rw [FS.run, this]
      exact h1
    · rw [h2]
      by_cases e : n = m
      · subst e; simp [FS.upd_same]
      · rw [FS.upd_other _ _ e]; simp only [List.map_cons, List.mem_cons, e, false_or]

/-- `clear` (with no compaction running) leaves exactly the files of a new store. -/
theorem clear_files {cfg : Cfg} {t t' : Tree} {d : Dir} (hd : DirOf d t.leaves) (h : t.clear cfg = some t') :
    ∃ d', d.run (clearOps cfg d) = some d' ∧ DirOf d' t'.leaves := by
  have hmem : ∀ n, n ∈ d.map Prod.fst ↔ d.find n ≠ none := fun n => Dir.mem_names
  obtain ⟨F1, h1, h2⟩ := clearScan_run d d.find hd.nodup (fun n hn => by
    have := (hmem n).1 hn
    refine ⟨this, ?_⟩
    obtain ⟨s, _, e | e⟩ := hd.only n this <;> (rw [e]; simp [Shard.srcName, Shard.tgtName]))
  obtain ⟨d1, g1, g2, g3⟩ := Dir.run_of hd.nodup h1
  have hempty : ∀ n, d1.find n = none := fun n => by
    rw [g3, h2]
    split
    · rfl
    · rename_i hx
      rw [hmem] at hx
      exact Classical.not_not.1 hx
  obtain ⟨d', l, k1, _, k3, k4⟩ := create_files h g2 hempty
  refine ⟨d', ?_, k4⟩
  unfold clearOps
  rw [k1]
  have : ∀ (xs ys : List FOp) (d d1 d' : Dir), d.run xs = some d1 → d1.run ys = some d' → d.run (xs ++ ys) = some d' := by
    intro xs
    induction xs with
    | nil => intro ys d d1 d' a b; cases a; exact b
    | cons o xs ih =>
      intro ys d d1 d' a b
      rw [List.cons_append]
      unfold Dir.run at a ⊢
      cases ho : o.app d with
      | none => rw [ho] at a; cases a
      | some d2 => rw [ho] at a; exact ih ys d2 d1 d' a b
  exact this _ _ _ _ _ g1 k3

end Candy
