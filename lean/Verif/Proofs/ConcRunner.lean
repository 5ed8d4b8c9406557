import Verif.Proofs.Conc
import Verif.Proofs.TreeRunner
import Verif.Proofs.Runner
/-!
# Running concrete schedules

An evaluator for concurrent histories: a script says which thread makes the next step. A run of the evaluator (checked by the
kernel) yields a concurrent execution (`ConcRun`).
-/
namespace Candy
open Spec

/-- A line of a script: thread `i` begins a call; thread `i` makes its next step (a raw operation or a lock step);
the call of thread `i` returns with this result. -/
inductive SCmd where
  | go (i : Nat) (c : Call)
  | step (i : Nat)
  | fin (i : Nat) (r : Res Resp)

/-- The next step of thread `i`. -/
def stepC (cfg : Cfg) (i : Nat) (n : Nat) (s : CState) : Option (Nat × CState × List CEvent) :=
  match s.thr i with
  | none => none
  | some (c, p) => match p with
    | .ret a => some (n, { s with locks := dropLocks s.locks i, thr := setN s.thr i none }, [.ret i c (.ok a)])
    | .err e => some (n, { s with locks := dropLocks s.locks i, thr := setN s.thr i none }, [.ret i c (.err e)])
    | .panic => none
    | .exhausted => none
    | .get k f => some (n, { s with thr := setN s.thr i (some (c, f (s.tree.get cfg k))) }, [])
    | .ins k v mode f => match sizeErr cfg k v with
      | some _ => none
      | none => match s.tree.insert cfg (cfg.ph k) k v mode 40 with
        | .ok (t', st) => some (n + (k.length + v.length), { s with tree := t', thr := setN s.thr i (some (c, f st)) }, [])
        | _ => none
    | .rem k f => some (n, { s with tree := (s.tree.remove cfg k).1, thr := setN s.thr i (some (c, f (s.tree.remove cfg k).2)) }, [])
    | .byHash ph suf f =>
      some (n, { s with thr := setN s.thr i (some (c, f ((s.tree.getByHash ph).filter (fun kv => endsWith kv.1 suf)))) }, [])
    | .lock l p => match s.locks l with
      | none => some (n, { s with locks := setN s.locks l (some i), thr := setN s.thr i (some (c, p)) }, [])
      | some _ => none
    | .unlock p => some (n, { s with locks := dropLocks s.locks i, thr := setN s.thr i (some (c, p)) }, [])

/-- What is observed of a script, given the calls in progress. -/
def traceOf : List SCmd → (Nat → Option Call) → List CEvent
  | [], _ => []
  | .go i c :: cs, pend => .inv i c :: traceOf cs (setN pend i (some c))
  | .step _ :: cs, pend => traceOf cs pend
  | .fin i r :: cs, pend => match pend i with
    | none => traceOf cs pend
    | some c => .ret i c r :: traceOf cs (setN pend i none)

/-- Run a script. -/
def runC (cfg : Cfg) : List SCmd → Nat → CState → Option (Nat × CState)
  | [], n, s => some (n, s)
  | .go i c :: cs, n, s => match s.thr i with
    | some _ => none
    | none => runC cfg cs n { s with thr := setN s.thr i (some (c, c.prog cfg)) }
  | .step i :: cs, n, s => match stepC cfg i n s with
    | some (n1, s1, []) => runC cfg cs n1 s1
    | _ => none
  | .fin i r :: cs, n, s => match stepC cfg i n s with
    | some (n1, s1, [.ret _ _ r']) => if r' = r then runC cfg cs n1 s1 else none
    | _ => none

theorem stepC_mono {cfg : Cfg} {i n s n1 s1 e} (h : stepC cfg i n s = some (n1, s1, e)) : n ≤ n1 := by
  unfold stepC at h
  cases ht : s.thr i with
  | none => rw [ht] at h; cases h
  | some x =>
    obtain ⟨c, p⟩ := x
    rw [ht] at h
    dsimp only at h
    cases p with
    | ins k v mode f =>
      dsimp only at h
      cases hs : sizeErr cfg k v with
      | some e => rw [hs] at h; cases h
      | none =>
        rw [hs] at h
        dsimp only at h
        cases hi : s.tree.insert cfg (cfg.ph k) k v mode 40 with
        | ok x => rw [hi] at h; cases h; omega
        | panic => rw [hi] at h; cases h
        | diverge => rw [hi] at h; cases h
        | deadlock => rw [hi] at h; cases h
    | lock l p =>
      dsimp only at h
      cases hl : s.locks l with
      | none => rw [hl] at h; cases h; omega
      | some j => rw [hl] at h; cases h
    | panic => cases h
    | exhausted => cases h
    | ret a => cases h; exact Nat.le_refl _
    | err a => cases h; exact Nat.le_refl _
    | get k f => cases h; exact Nat.le_refl _
    | rem k f => cases h; exact Nat.le_refl _
    | byHash ph suf f => cases h; exact Nat.le_refl _
    | unlock p => cases h; exact Nat.le_refl _

theorem stepC_sound {cfg : Cfg} {ex : Bool} {i n s n1 s1 e} (h : stepC cfg i n s = some (n1, s1, e)) (hok : Tree.OK cfg ex 0 END_OF_SHARDS s.tree)
    (hp : s.tree.pot ≤ n) (hn : n < 4294967296) :
    Tree.OK cfg ex 0 END_OF_SHARDS s1.tree ∧ (n1 < 4294967296 → s1.tree.pot ≤ n1) ∧
    (∃ c p, s.thr i = some (c, p) ∧ ((e = [] ∧ ∃ p', s1.thr = setN s.thr i (some (c, p'))) ∨ (∃ r, e = [.ret i c r] ∧ s1.thr = setN s.thr i none))) ∧
    ∀ tr s2, ConcRun cfg s1 tr s2 → ConcRun cfg s (e ++ tr) s2 := by
  have hsm : s.tree.Small := Tree.small_of_pot (Nat.lt_of_le_of_lt hp hn)
  unfold stepC at h
  cases ht : s.thr i with
  | none => rw [ht] at h; cases h
  | some x =>
    obtain ⟨c, p⟩ := x
    rw [ht] at h
    dsimp only at h
    have raw : ∀ (t' : Tree) (p' : Prog Resp) (m : Nat), p.onLock = false → CStep cfg s.tree p t' p' → p.cost = m →
        some (n + m, ({ s with tree := t', thr := setN s.thr i (some (c, p')) } : CState), ([] : List CEvent)) = some (n1, s1, e) →
        Tree.OK cfg ex 0 END_OF_SHARDS s1.tree ∧ (n1 < 4294967296 → s1.tree.pot ≤ n1) ∧ 
          (∃ c1 p1, some (c, p) = some (c1, p1) ∧
            ((e = [] ∧ ∃ p', s1.thr = setN s.thr i (some (c1, p'))) ∨ (∃ r, e = [.ret i c1 r] ∧ s1.thr = setN s.thr i none))) ∧
          ∀ tr s2, ConcRun cfg s1 tr s2 → ConcRun cfg s (e ++ tr) s2 := by
      intro t' p' m hl hc hm he
      cases he
      have hpot := hc.pot hok hsm
      exact ⟨(hc.sim hok hsm).1, fun _ => by show t'.pot ≤ _; omega, ⟨c, p, rfl, Or.inl ⟨rfl, _, rfl⟩⟩, fun tr s2 hr => .raw ht hl hsm hc hr⟩
    cases p with
    | ins k v mode f =>
      dsimp only at h
      cases hs : sizeErr cfg k v with
      | some e => rw [hs] at h; cases h
      | none =>
        rw [hs] at h
        dsimp only at h
        cases hi : s.tree.insert cfg (cfg.ph k) k v mode 40 with
        | ok x => obtain ⟨t1, st⟩ := x; rw [hi] at h; exact raw _ _ _ rfl (.ins _ _ _ _ _ _ _ _ hs hi) rfl h
        | panic => rw [hi] at h; cases h
        | diverge => rw [hi] at h; cases h
        | deadlock => rw [hi] at h; cases h
    | lock l p =>
      dsimp only at h
      cases hl : s.locks l with
      | none => rw [hl] at h; cases h; exact ⟨hok, fun _ => hp, ⟨c, _, rfl, Or.inl ⟨rfl, _, rfl⟩⟩, fun tr s2 hr => .lock ht hl hr⟩
      | some j => rw [hl] at h; cases h
    | panic => cases h
    | exhausted => cases h
    | ret a => cases h; exact ⟨hok, fun _ => hp, ⟨c, _, rfl, Or.inr ⟨_, rfl, rfl⟩⟩, fun tr s2 hr => .ret ht rfl (by simp) hr⟩
    | err a => cases h; exact ⟨hok, fun _ => hp, ⟨c, _, rfl, Or.inr ⟨_, rfl, rfl⟩⟩, fun tr s2 hr => .ret ht rfl (by simp) hr⟩
    | get k f => exact raw s.tree _ 0 rfl (.get _ _ _) rfl h
    | rem k f => exact raw _ _ 0 rfl (.rem _ _ _) rfl h
    | byHash ph suf f => exact raw s.tree _ 0 rfl (.byHash _ _ _ _) rfl h
    | unlock p => cases h; exact ⟨hok, fun _ => hp, ⟨c, _, rfl, Or.inl ⟨rfl, _, rfl⟩⟩, fun tr s2 hr => .unlock ht hr⟩


/-- The calls in progress. -/
def CState.pend (s : CState) : Nat → Option Call := fun i => (s.thr i).map Prod.fst

theorem pend_go {s : CState} {i : Nat} {c : Call} {p : Prog Resp} : CState.pend { s with thr := setN s.thr i (some (c, p)) } = setN s.pend i (some c) := by
  funext j; simp only [CState.pend, setN]; split <;> rfl

theorem pend_same {thr : Nat → Option (Call × Prog Resp)} {i : Nat} {c : Call} {p p' : Prog Resp} (h : thr i = some (c, p)) :
    (fun j => (setN thr i (some (c, p')) j).map Prod.fst) = fun j => (thr j).map Prod.fst := by
  funext j; simp only [setN]; split
  · rename_i e; subst e; rw [h]; rfl
  · rfl

theorem pend_fin {thr : Nat → Option (Call × Prog Resp)} {i : Nat} :
    (fun j => (setN thr i none j).map Prod.fst) = setN (fun j => (thr j).map Prod.fst) i none := by
  funext j; simp only [setN]; split <;> rfl

theorem runC_sound {cfg : Cfg} {ex : Bool} : ∀ (cs : List SCmd) (n : Nat) (s : CState) {n' s'}, runC cfg cs n s = some (n', s') →
    n ≤ n' ∧ (Tree.OK cfg ex 0 END_OF_SHARDS s.tree → s.tree.pot ≤ n → n' < 4294967296 →
      ConcRun cfg s (traceOf cs s.pend) s' ∧ Tree.OK cfg ex 0 END_OF_SHARDS s'.tree ∧ s'.tree.pot ≤ n')
  | [], n, s, n', s', h => by cases h; exact ⟨Nat.le_refl _, fun h1 h2 _ => ⟨.nil _, h1, h2⟩⟩
  | .go i c :: cs, n, s, n', s', h => by
    unfold runC at h
    cases ht : s.thr i with
    | some x => rw [ht] at h; cases h
    | none =>
      rw [ht] at h
      dsimp only at h
      obtain ⟨hm, this⟩ := runC_sound cs _ _ h
      refine ⟨hm, fun h1 h2 h3 => ?_⟩
      obtain ⟨q1, q2⟩ := this h1 h2 h3
      rw [pend_go] at q1
      exact ⟨.inv i c ht q1, q2⟩
  | .step i :: cs, n, s, n', s', h => by
    unfold runC at h
    cases ht : stepC cfg i n s with
    | none => rw [ht] at h; cases h
    | some x =>
      obtain ⟨n1, s1, e⟩ := x
      rw [ht] at h
      cases e with
      | cons a b => cases h
      | nil =>
        dsimp only at h
        have hm1 := stepC_mono ht
        obtain ⟨hm, this⟩ := runC_sound cs _ _ h
        refine ⟨by omega, fun h1 h2 h3 => ?_⟩
        obtain ⟨q1, q2, ⟨c, p, g1, g2⟩, q3⟩ := stepC_sound (ex := ex) ht h1 h2 (by omega)
        obtain ⟨r1, r2⟩ := this q1 (q2 (by omega)) h3
        have hpend : s1.pend = s.pend := by
          rcases g2 with ⟨_, p', e⟩ | ⟨r, e, _⟩
          · unfold CState.pend; rw [e]; exact pend_same g1
          · cases e
        rw [hpend] at r1
        exact ⟨q3 _ _ r1, r2⟩
  | .fin i r :: cs, n, s, n', s', h => by
    unfold runC at h
    cases ht : stepC cfg i n s with
    | none => rw [ht] at h; cases h
    | some x =>
      obtain ⟨n1, s1, e⟩ := x
      rw [ht] at h
      cases e with
      | nil => cases h
      | cons a b =>
        cases a with
        | inv => cases b <;> cases h
        | ret j c' r' =>
          cases b with
          | cons => cases h
          | nil =>
            dsimp only at h
            split at h
            · rename_i er
              subst er
              have hm1 := stepC_mono ht
              obtain ⟨hm, this⟩ := runC_sound cs _ _ h
              refine ⟨by omega, fun h1 h2 h3 => ?_⟩
              obtain ⟨q1, q2, ⟨c, p, g1, g2⟩, q3⟩ := stepC_sound (ex := ex) ht h1 h2 (by omega)
              obtain ⟨r1, r2⟩ := this q1 (q2 (by omega)) h3
              rcases g2 with ⟨e, _⟩ | ⟨r0, e, g3⟩
              · cases e
              · cases e
                have hp : s.pend i = some c' := by unfold CState.pend; rw [g1]; rfl
                have hpend : s1.pend = setN s.pend i none := by unfold CState.pend; rw [g3]; exact pend_fin
                unfold traceOf
                rw [hp]
                rw [hpend] at r1
                exact ⟨q3 _ _ r1, r2⟩
            · cases h

def SCmd.thread : SCmd → Nat
  | .go i _ => i
  | .step i => i
  | .fin i _ => i

theorem stepC_thr {cfg : Cfg} {i n s n1 s1 e j} (h : stepC cfg i n s = some (n1, s1, e)) (hj : j ≠ i) : s1.thr j = s.thr j := by
  unfold stepC at h
  cases ht : s.thr i with
  | none => rw [ht] at h; cases h
  | some x =>
    obtain ⟨c, p⟩ := x
    rw [ht] at h
    dsimp only at h
    cases p with
    | ins k v mode f =>
      dsimp only at h
      cases hs : sizeErr cfg k v with
      | some e => rw [hs] at h; cases h
      | none =>
        rw [hs] at h
        dsimp only at h
        cases hi : s.tree.insert cfg (cfg.ph k) k v mode 40 with
        | ok x => rw [hi] at h; cases h; exact setN_other _ _ hj
        | panic => rw [hi] at h; cases h
        | diverge => rw [hi] at h; cases h
        | deadlock => rw [hi] at h; cases h
    | lock l p =>
      dsimp only at h
      cases hl : s.locks l with
      | none => rw [hl] at h; cases h; exact setN_other _ _ hj
      | some j => rw [hl] at h; cases h
    | panic => cases h
    | exhausted => cases h
    | ret a => cases h; exact setN_other _ _ hj
    | err a => cases h; exact setN_other _ _ hj
    | get k f => cases h; exact setN_other _ _ hj
    | rem k f => cases h; exact setN_other _ _ hj
    | byHash ph suf f => cases h; exact setN_other _ _ hj
    | unlock p => cases h; exact setN_other _ _ hj

/-- Threads not in the script have no call in progress. -/
theorem runC_thr {cfg : Cfg} {j : Nat} : ∀ (cs : List SCmd) (n : Nat) (s : CState) {n' s'}, runC cfg cs n s = some (n', s') →
    (∀ c ∈ cs, c.thread ≠ j) → s'.thr j = s.thr j
  | [], n, s, n', s', h, _ => by cases h; rfl
  | .go i c :: cs, n, s, n', s', h, hj => by
    unfold runC at h
    cases ht : s.thr i with
    | some x => rw [ht] at h; cases h
    | none =>
      rw [ht] at h
      rw [runC_thr cs _ _ h (fun c hc => hj c (List.mem_cons_of_mem _ hc))]
      exact setN_other _ _ (Ne.symm (hj _ List.mem_cons_self))
  | .step i :: cs, n, s, n', s', h, hj => by
    unfold runC at h
    split at h
    · rename_i ht
      rw [runC_thr cs _ _ h (fun c hc => hj c (List.mem_cons_of_mem _ hc))]
      exact stepC_thr ht (Ne.symm (hj _ List.mem_cons_self))
    · cases h
  | .fin i r :: cs, n, s, n', s', h, hj => by
    unfold runC at h
    split at h
    · rename_i ht
      split at h
      · rw [runC_thr cs _ _ h (fun c hc => hj c (List.mem_cons_of_mem _ hc))]
        exact stepC_thr ht (Ne.symm (hj _ List.mem_cons_self))
      · cases h
    · cases h

/-- Calls one at a time, with these results. -/
def runSeq (cfg : Cfg) : List (Call × Res Resp) → Nat → Tree → Option (Nat × Tree)
  | [], n, t => some (n, t)
  | (c, r) :: cs, n, t => match (c.prog cfg).execT cfg n t with
    | some (n', t', r') => if r' = r ∧ r ≠ .exhausted then runSeq cfg cs n' t' else none
    | none => none

theorem runSeq_sound {cfg : Cfg} : ∀ (cs : List (Call × Res Resp)) (n : Nat) (t : Tree) {n' t'}, runSeq cfg cs n t = some (n', t') → RunB cfg n t (hist cs) n' t'
  | [], n, t, n', t', h => by cases h; exact .nil _ _
  | (c, r) :: cs, n, t, n', t', h => by
    unfold runSeq at h
    cases he : (c.prog cfg).execT cfg n t with
    | none => rw [he] at h; cases h
    | some x =>
      obtain ⟨n1, t1, r'⟩ := x
      rw [he] at h
      dsimp only at h
      split at h
      · rename_i e
        obtain ⟨rfl, hne⟩ := e
        obtain ⟨p, h1, h2⟩ := Prog.execT_sound _ _ _ he
        exact .call h1 h2 hne (runSeq_sound cs _ _ h)
      · cases h

/-- Calls one at a time, then a schedule of concurrent calls by threads 0, …, N-1, all of which return, then calls one at a time. -/
def checkC (cfg : Cfg) (cs : List (Call × Res Resp)) (N : Nat) (sch : List SCmd) (ds : List (Call × Res Resp)) : Bool :=
  match Tree.create cfg with
  | none => false
  | some t0 => match runSeq cfg cs 0 t0 with
    | none => false
    | some (n, t) => match runC cfg sch n (CState.idle t) with
      | none => false
      | some (n', s) => match runSeq cfg ds n' s.tree with
        | none => false
        | some (n'', _) => decide (n'' < 4294967296) && sch.all (fun c => decide (c.thread < N)) && (List.range N).all (fun j => (s.thr j).isNone)

theorem checkC_sound {cfg : Cfg} {cs : List (Call × Res Resp)} {N : Nat} {sch : List SCmd} {ds : List (Call × Res Resp)}
    (h : checkC cfg cs N sch ds = true) :
    ∃ t s t', Reachable cfg (hist cs) t ∧ ConcRun cfg (CState.idle t) (traceOf sch (fun _ => none)) s ∧ (∀ i, s.thr i = none) ∧
      Run cfg s.tree (hist ds) t' := by
  unfold checkC at h
  cases hc : Tree.create cfg with
  | none => rw [hc] at h; cases h
  | some t0 =>
    rw [hc] at h
    dsimp only at h
    cases hr : runSeq cfg cs 0 t0 with
    | none => rw [hr] at h; cases h
    | some x =>
      obtain ⟨n, t⟩ := x
      rw [hr] at h
      dsimp only at h
      cases hr' : runC cfg sch n (CState.idle t) with
      | none => rw [hr'] at h; cases h
      | some x =>
        obtain ⟨n', s⟩ := x
        rw [hr'] at h
        dsimp only at h
        cases hr2 : runSeq cfg ds n' s.tree with
        | none => rw [hr2] at h; cases h
        | some x =>
          obtain ⟨n'', t'⟩ := x
          rw [hr2] at h
          simp only [Bool.and_eq_true, decide_eq_true_eq, List.all_eq_true, List.mem_range] at h
          obtain ⟨⟨h1, h2⟩, h3⟩ := h
          have hb := runSeq_sound cs _ _ hr
          have hb2 := runSeq_sound ds _ _ hr2
          have hm2 := hb2.mono
          obtain ⟨hm, hrun⟩ := runC_sound (ex := false) sch _ _ hr'
          have hlt : n < 4294967296 := by omega
          have hreach := Reachable.of_budget hc hb hlt
          obtain ⟨w, _, hs, _⟩ := hreach.world
          have hpot : t.pot ≤ n := RunB.pot_le hc hb hlt
          obtain ⟨g1, g2, g3⟩ := hrun hs.ok hpot (by omega)
          refine ⟨t, s, t', hreach, g1, fun i => ?_, hb2.toRun ⟨hs.bound, g2⟩ g3 h1⟩
          by_cases hi : i < N
          · have := h3 i hi
            revert this; cases s.thr i <;> simp
          · rw [runC_thr sch _ _ hr' (fun c hc' => by have := h2 c hc'; omega)]; rfl

end Candy
