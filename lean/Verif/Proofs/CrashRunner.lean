import Verif.Proofs.TreeRunner
import Verif.Proofs.DirRun
/-!
# Running scripts with crashes and reopenings on concrete stores

Also: every state has a directory.
-/
namespace Candy
open Spec

/-- The files of these shards. -/
def filesOf : List Shard → Dir
  | [] => []
  | s :: l => (s.srcName, .good s.src) :: (match s.tgt with | none => filesOf l | some f => (s.tgtName, .good f) :: filesOf l)

theorem filesOf_only : ∀ (l : List Shard) (n : FName), n ∈ (filesOf l).map Prod.fst → ∃ s ∈ l, n = s.srcName ∨ n = s.tgtName := by
  intro l
  induction l with
  | nil => intro n h; simp [filesOf] at h
  | cons s l ih =>
    intro n h
    unfold filesOf at h
    rw [List.map_cons, List.mem_cons] at h
    rcases h with h | h
    · exact ⟨s, List.mem_cons_self, Or.inl h⟩
    · cases ht : s.tgt with
      | none =>
        rw [ht] at h
        obtain ⟨s', h1, h2⟩ := ih n h
        exact ⟨s', List.mem_cons_of_mem _ h1, h2⟩
      | some f =>
        rw [ht] at h
        dsimp only at h
        rw [List.map_cons, List.mem_cons] at h
        rcases h with h | h
        · exact ⟨s, List.mem_cons_self, Or.inr h⟩
        · obtain ⟨s', h1, h2⟩ := ih n h
          exact ⟨s', List.mem_cons_of_mem _ h1, h2⟩

theorem src_ne_tgt (a b : Shard) : a.srcName ≠ b.tgtName := by
  intro h; simp [Shard.srcName, Shard.tgtName] at h

theorem tgtName_eq {a b : Shard} (h : a.tgtName = b.tgtName) : a.srcName = b.srcName := by
  simp only [Shard.tgtName, FName.mk.injEq, true_and] at h
  simp [Shard.srcName, h]

theorem filesOf_dirOf : ∀ (l : List Shard), l.Pairwise (fun a b => a.srcName ≠ b.srcName) → DirOf (filesOf l) l := by
  intro l
  induction l with
  | nil => intro _; exact ⟨List.nodup_nil, by simp, by intro n h; simp [filesOf, Dir.find] at h⟩
  | cons s l ih =>
    intro hp
    obtain ⟨hp1, hp2⟩ := List.pairwise_cons.1 hp
    have h := ih hp2
    have no1 : s.srcName ∉ (filesOf l).map Prod.fst := by
      intro hm
      obtain ⟨s', h1, h2⟩ := filesOf_only l _ hm
      rcases h2 with h2 | h2
      · exact hp1 s' h1 h2
      · exact src_ne_tgt _ _ h2
    have no2 : s.tgtName ∉ (filesOf l).map Prod.fst := by
      intro hm
      obtain ⟨s', h1, h2⟩ := filesOf_only l _ hm
      rcases h2 with h2 | h2
      · exact src_ne_tgt _ _ h2.symm
      · exact hp1 s' h1 (tgtName_eq h2)
    have f1 : ∀ n, n ≠ s.srcName → n ≠ s.tgtName → (filesOf (s :: l)).find n = Dir.find (filesOf l) n := by
      intro n n1 n2
      rw [filesOf, Dir.find, if_neg (Ne.symm n1)]
      cases s.tgt with
      | none => rfl
      | some f => dsimp only; rw [Dir.find, if_neg (Ne.symm n2)]
    have f2 : Dir.find (filesOf (s :: l)) s.srcName = some (.good s.src) := by
      unfold filesOf; rw [Dir.find, if_pos rfl]
    have f3 : Dir.find (filesOf (s :: l)) s.tgtName = s.tgt.map .good := by
      unfold filesOf
      rw [Dir.find, if_neg (src_ne_tgt _ _)]
      cases s.tgt with
      | none => dsimp only; exact Classical.byContradiction (fun hc => no2 (Dir.mem_names.2 hc))
      | some f => dsimp only; rw [Dir.find, if_pos rfl]; rfl
    refine ⟨?_, ?_, ?_⟩
    · unfold filesOf
      rw [List.map_cons, List.nodup_cons]
      cases s.tgt with
      | none => exact ⟨no1, h.nodup⟩
      | some f =>
        dsimp only
        rw [List.map_cons, List.nodup_cons, List.mem_cons]
        refine ⟨?_, no2, h.nodup⟩
        intro hc
        rcases hc with hc | hc
        · exact src_ne_tgt _ _ hc
        · exact no1 hc
    · intro s' hs'
      rcases List.mem_cons.1 hs' with rfl | hs'
      · exact ⟨f2, f3⟩
      · have n1 : s'.srcName ≠ s.srcName := fun e => hp1 s' hs' e.symm
        have n2 : s'.tgtName ≠ s.tgtName := fun e => n1 (tgtName_eq e)
        rw [f1 _ n1 (src_ne_tgt _ _), f1 _ (Ne.symm (src_ne_tgt _ _)) n2]
        exact h.files s' hs'
    · intro n hn
      have := filesOf_only (s :: l) n (Dir.mem_names.2 hn)
      exact this

/-- Every well-formed state has a directory. -/
theorem Tree.OK.exists_dir {cfg ex t} (h : Tree.OK cfg ex 0 END_OF_SHARDS t) (hn : t.NonDegenerate) : ∃ d, DirOf d t.leaves :=
  ⟨_, filesOf_dirOf _ (h.tiling hn dyadic_full).tiles.names⟩

/-- The files of small shards are small. -/
theorem DirOf.sized {d : Dir} {t : Tree} (h : DirOf d t.leaves) (hs : t.Small) : d.Sized := by
  intro a b f hf
  obtain ⟨s, h1, h2⟩ := h.only ⟨.shard, a, b⟩ (by rw [hf]; simp)
  have e : s.lo = a ∧ s.hi = b := by
    rcases h2 with h2 | h2
    · simp only [Shard.srcName, FName.mk.injEq, true_and] at h2; exact ⟨h2.1.symm, h2.2.symm⟩
    · simp [Shard.tgtName] at h2
  obtain ⟨rfl, rfl⟩ := e
  obtain ⟨g1, g2⟩ := h.files s h1
  have e1 : f = s.src := by
    have : d.find s.srcName = some (.good f) := hf
    rw [g1] at this; simpa using this.symm
  have e2 : (d.find ⟨.compact, s.lo, s.hi⟩).map DFile.asFile = s.tgt := by
    have : d.find ⟨.compact, s.lo, s.hi⟩ = s.tgt.map .good := g2
    rw [this]
    cases s.tgt <;> rfl
  rw [e2, e1]
  exact hs s h1

/-- A store with no compaction running can be closed or die, and be opened again. -/
theorem Tree.OK.openSame {cfg ex t} (h : Tree.OK cfg ex 0 END_OF_SHARDS t) (hn : t.NonDegenerate) (hq : t.Quiet) (hsm : t.Small) :
    ∃ d ops t', DirOf d t.leaves ∧ d.Sized ∧ openStore cfg false d = (ops, .ok t') ∧ treeify t.leaves = some t' ∧
      Tree.OK cfg ex 0 END_OF_SHARDS t' ∧ t'.leaves = t.leaves ∧ t'.get cfg = t.get cfg := by
  obtain ⟨d, hd⟩ := h.exists_dir hn
  obtain ⟨ops, d', t', e1, e2, e3, e4, e5, e6, e7, e8, e9⟩ := hd.reopen (clearBad := false) h hn hq hsm
  obtain ⟨t2, q1, q2, q3, q4⟩ := treeify_spec (h.tiling hn dyadic_full)
  refine ⟨d, ops, t', hd, hd.sized hsm, e1, ?_, e5, e4, e9⟩
  obtain ⟨hd1, hd2⟩ := hd.dirF
  have ht := h.tiling hn dyadic_full
  have hl : RecF cfg d.find t.leaves := hd2.recF ht.tiles (fun s hs => (ht.mem hs).2.2.2.1.rok (ht.mem hs).2.2.2.2)
  obtain ⟨ops', d'', l', h1, h2, h3, h4, h5, h6⟩ := hl.load (clearBad := false) hd1 (fun s hs => hsm s hs)
  have e := h5.same (fun s hs => hq s hs)
  subst e
  have hne : t.leaves ≠ [] := h4.tiles.ne_nil (by decide)
  have e1' := e1
  unfold openStore at e1'
  rw [h1] at e1'
  cases hl' : t.leaves with
  | nil => exact absurd hl' hne
  | cons a l =>
    rw [hl'] at e1'
    dsimp only at e1'
    simp only [Prod.mk.injEq] at e1'
    rw [← hl', q1] at e1' ⊢
    simpa using e1'.2

/-! ## Scripts -/

/-- Run some raw steps of a program, without background steps. -/
def Prog.stepsT (cfg : Cfg) {α : Type} : Nat → Prog α → Nat → Tree → Option (Nat × Tree × Prog α)
  | 0, p, n, t => some (n, t, p)
  | i + 1, p, n, t =>
    match p with
    | .get k c => (c (t.get cfg k)).stepsT cfg i n t
    | .ins k v mode c =>
      match sizeErr cfg k v with
      | some _ => none
      | none => match t.insert cfg (cfg.ph k) k v mode 40 with
        | .ok (t', st) => (c st).stepsT cfg i (n + (k.length + v.length)) t'
        | _ => none
    | .rem k c => (c (t.remove cfg k).2).stepsT cfg i n (t.remove cfg k).1
    | .byHash ph suf c => (c ((t.getByHash ph).filter (fun kv => endsWith kv.1 suf))).stepsT cfg i n t
    | .lock _ c => c.stepsT cfg i n t
    | .unlock c => c.stepsT cfg i n t
    | _ => none

theorem Prog.stepsT_sound {cfg : Cfg} {α : Type} : ∀ (i : Nat) (p : Prog α) (n : Nat) (t : Tree) {n' t' p'},
    p.stepsT cfg i n t = some (n', t', p') → CExecB cfg n t p n' t' p' := by
  intro i
  induction i with
  | zero =>
    intro p n t n' t' p' h
    unfold Prog.stepsT at h
    simp only [Option.some.injEq, Prod.mk.injEq] at h
    obtain ⟨rfl, rfl, rfl⟩ := h
    exact .refl _ _ _
  | succ i ih =>
    intro p n t n' t' p' h
    cases p with
    | ret a => simp [Prog.stepsT] at h
    | err a => simp [Prog.stepsT] at h
    | panic => simp [Prog.stepsT] at h
    | exhausted => simp [Prog.stepsT] at h
    | get k c => exact .step (.get _ _ _) (ih _ _ _ h)
    | rem k c => exact .step (.rem _ _ _) (ih _ _ _ h)
    | byHash ph suf c => exact .step (.byHash _ _ _ _) (ih _ _ _ h)
    | lock a c => exact .step (.lock _ _ _) (ih _ _ _ h)
    | unlock c => exact .step (.unlock _ _) (ih _ _ _ h)
    | ins k v mode c =>
      unfold Prog.stepsT at h
      dsimp only at h
      cases hs : sizeErr cfg k v with
      | some e => rw [hs] at h; cases h
      | none =>
        rw [hs] at h
        dsimp only at h
        cases hi : t.insert cfg (cfg.ph k) k v mode 40 with
        | ok x =>
          obtain ⟨t1, st⟩ := x
          rw [hi] at h
          exact .step (.ins _ _ _ _ _ _ _ _ hs hi) (ih _ _ _ h)
        | panic => rw [hi] at h; cases h
        | diverge => rw [hi] at h; cases h
        | deadlock => rw [hi] at h; cases h

/-- Commands of a script. -/
inductive XCmd where
  | call (c : Call) (r : Res Resp)
  | bg (sel : Nat)
  /-- close and open again (with no compaction running) -/
  | reopen
  /-- die after so many raw steps of the call (with no compaction running), and open again -/
  | crash (c : Call) (steps : Nat)

/-- The events of a script. -/
def XCmd.events : List XCmd → List Event
  | [] => []
  | .call c r :: cs => .call c r :: XCmd.events cs
  | .bg _ :: cs => XCmd.events cs
  | .reopen :: cs => .reopen :: XCmd.events cs
  | .crash c _ :: cs => .crash (some c) :: XCmd.events cs

/-- No compaction is running, and no shard has an empty span. -/
def Tree.calm (t : Tree) : Bool := t.leaves.all (fun s => s.tgt.isNone && decide (s.lo < s.hi))

theorem Tree.calm_spec {t : Tree} (h : t.calm = true) : t.Quiet ∧ t.NonDegenerate := by
  unfold Tree.calm at h
  rw [List.all_eq_true] at h
  refine ⟨fun s hs => ?_, fun s hs => ?_⟩
  · have := h s hs
    rw [Bool.and_eq_true, Option.isNone_iff_eq_none] at this
    exact this.1
  · have := h s hs
    simp only [Bool.and_eq_true, decide_eq_true_eq] at this
    exact this.2

/-- Run a script; the calls must have the given results. -/
def runX (cfg : Cfg) : List XCmd → Nat → Tree → Option (Nat × Tree)
  | [], n, t => some (n, t)
  | .call c r :: cs, n, t => match (c.prog cfg).execT cfg n t with
    | none => none
    | some (n', t', r') => if r' = r ∧ r ≠ .exhausted then runX cfg cs n' t' else none
  | .bg sel :: cs, n, t => match t.bgStep cfg sel with
    | none => none
    | some t' => runX cfg cs n t'
  | .reopen :: cs, n, t =>
    if t.calm then match treeify t.leaves with
      | none => none
      | some t' => runX cfg cs n t'
    else none
  | .crash c i :: cs, n, t => match (c.prog cfg).stepsT cfg i n t with
    | none => none
    | some (n', t1, _) =>
      if t1.calm then match treeify t1.leaves with
        | none => none
        | some t' => runX cfg cs n' t'
      else none

theorem finishAll_quiet : ∀ {t : Tree} {cfg : Cfg}, t.Quiet → t.finishAll cfg = some t := by
  intro t cfg
  induction t with
  | leaf s =>
    intro h
    have := h s (by simp [Tree.leaves])
    simp [Tree.finishAll, Shard.finish, this]
  | vertex b t ihb iht =>
    intro h
    have h1 : b.Quiet := fun s hs => h s (by simp only [Tree.leaves, List.mem_append]; exact Or.inl hs)
    have h2 : t.Quiet := fun s hs => h s (by simp only [Tree.leaves, List.mem_append]; exact Or.inr hs)
    simp [Tree.finishAll, ihb h1, iht h2]

theorem runX_mono {cfg : Cfg} : ∀ (cs : List XCmd) (n : Nat) (t : Tree) {n' t'}, runX cfg cs n t = some (n', t') → n ≤ n' := by
  intro cs
  induction cs with
  | nil => intro n t n' t' h; cases h; exact Nat.le_refl _
  | cons x cs ih =>
    intro n t n' t' h
    cases x with
    | call c r =>
      unfold runX at h
      split at h
      · cases h
      · rename_i n1 t1 r he
        obtain ⟨p, h1, _⟩ := Prog.execT_sound _ _ _ he
        split at h
        · exact Nat.le_trans h1.mono (ih _ _ h)
        · cases h
    | bg sel =>
      unfold runX at h
      split at h
      · cases h
      · exact ih _ _ h
    | reopen =>
      unfold runX at h
      split at h
      · split at h
        · cases h
        · exact ih _ _ h
      · cases h
    | crash c i =>
      unfold runX at h
      split at h
      · cases h
      · rename_i n1 t1 p he
        have h1 := Prog.stepsT_sound _ _ _ _ he
        split at h
        · split at h
          · cases h
          · exact Nat.le_trans h1.mono (ih _ _ h)
        · cases h

theorem runX_sound {cfg : Cfg} : ∀ (cs : List XCmd) (n : Nat) (t : Tree) {n' t'}, runX cfg cs n t = some (n', t') →
    ∀ ex, Tree.OK cfg ex 0 END_OF_SHARDS t → t.pot ≤ n → n' < 4294967296 → Run cfg t (XCmd.events cs) t' := by
  intro cs
  induction cs with
  | nil => intro n t n' t' h; cases h; intros; exact .nil _
  | cons x cs ih =>
    intro n t n' t' h ex hok hpot hn'
    cases x with
    | call c r =>
      unfold runX at h
      split at h
      · cases h
      · rename_i n1 t1 r he
        obtain ⟨p, h1, h2⟩ := Prog.execT_sound _ _ _ he
        split at h
        · rename_i hr
          obtain ⟨rfl, hne⟩ := hr
          obtain ⟨g1, g2, g3⟩ := h1.toExec hok hpot (Nat.lt_of_le_of_lt (runX_mono _ _ _ h) hn')
          exact .call g1 h2 hne (ih _ _ h _ g2 g3 hn')
        · cases h
    | bg sel =>
      unfold runX at h
      split at h
      · cases h
      · rename_i t1 he
        have hsm := Tree.small_of_pot (t := t) (Nat.lt_of_le_of_lt hpot (Nat.lt_of_le_of_lt (runX_mono _ _ _ h) hn'))
        obtain ⟨t2, q1, q2, _⟩ := Tree.bgStep_spec hok hsm sel
        rw [he] at q1; cases q1
        exact .bg sel hsm he (ih _ _ h _ q2 (Nat.le_trans (Tree.pot_bg hok hsm sel he) hpot) hn')
    | reopen =>
      unfold runX at h
      split at h
      · rename_i hcalm
        obtain ⟨hq, hn⟩ := Tree.calm_spec hcalm
        split at h
        · cases h
        · rename_i t1 ht1
          have hsm := Tree.small_of_pot (t := t) (Nat.lt_of_le_of_lt hpot (Nat.lt_of_le_of_lt (runX_mono _ _ _ h) hn'))
          obtain ⟨d, ops, t', e1, e2, e3, e4, e5, e6, e7⟩ := hok.openSame hn hq hsm
          rw [ht1] at e4; cases e4
          exact .reopen hsm hn (finishAll_quiet hq) e1 e3 (ih _ _ h _ e5 (by unfold Tree.pot; rw [e6]; exact hpot) hn')
      · cases h
    | crash c i =>
      unfold runX at h
      split at h
      · cases h
      · rename_i n1 t1 p he
        have h1 := Prog.stepsT_sound _ _ _ _ he
        split at h
        · rename_i hcalm
          obtain ⟨hq, hn⟩ := Tree.calm_spec hcalm
          split at h
          · cases h
          · rename_i t2 ht2
            have hlt := Nat.lt_of_le_of_lt (runX_mono _ _ _ h) hn'
            obtain ⟨g1, g2, g3⟩ := h1.toExec hok hpot hlt
            have hsm := Tree.small_of_pot (t := t1) (Nat.lt_of_le_of_lt g3 hlt)
            obtain ⟨d, ops, t', e1, e2, e3, e4, e5, e6, e7⟩ := g2.openSame hn hq hsm
            rw [ht2] at e4; cases e4
            exact .crash (.call g1 hsm hn ⟨d, d, e1, .idle _ _, .refl _⟩) (.done (clearBad := false) e2 e3)
              (ih _ _ h _ e5 (by unfold Tree.pot; rw [e6]; exact g3) hn')
        · cases h

/-- The script can be run on a new store, with the given results. -/
def checkX (cfg : Cfg) (cs : List XCmd) : Bool :=
  match Tree.create cfg with
  | none => false
  | some t0 => match runX cfg cs 0 t0 with
    | none => false
    | some (n, _) => decide (n < 4294967296)

theorem checkX_sound {cfg : Cfg} {cs : List XCmd} (h : checkX cfg cs = true) : ∃ t, Reachable cfg (XCmd.events cs) t := by
  unfold checkX at h
  split at h
  · cases h
  · rename_i t0 hc
    split at h
    · cases h
    · rename_i n t hr
      simp only [decide_eq_true_eq] at h
      obtain ⟨t0', q1, _, q2, _, q3, _, _, _⟩ := Tree.create_spec (cfg := cfg) (create_bound hc) true
      obtain ⟨hs, _⟩ := create_sane hc
      rw [hc] at q1; cases q1
      exact ⟨t, t0, hc, runX_sound cs 0 t0 hr true hs.ok (by omega) h⟩

end Candy
