import Verif.Proofs.Counters
import Verif.Props.Parts
/-!
# C81: the activity counters
-/
namespace Candy.Props
open Candy.Spec

/-- The counters that count answers of each kind. -/
def own (kind : KvOp → Resp → Bool) : Option (Call × Prog Resp) → Nat
  | none => 0
  | some (c, p) => match p.result with
    | some r => answers kind c r
    | none => 0

theorem is_any {kind : KvOp → Resp → Bool} (i : Nat) (c : Call) (r : Res Resp) :
    (if SEvent.is kind (.call (.ret i c r)) then 1 else 0) = answers kind c r := by
  unfold answers
  cases r <;> rfl

/-- A thread is at the beginning of its call or at its end. -/
def Fresh (cfg : Cfg) (x : Option (Call × Prog Resp)) : Prop :=
  ∀ c p, x = some (c, p) → (kvOf c).isSome ∧ (p = c.prog cfg ∨ ∃ r, p.result = some r)

theorem not_step_of_result {cfg : Cfg} {p p' : Prog Resp} {t t' : Tree} {m : Counters} {r : Res Resp} (h : p.result = some r) :
    ¬ CountStep cfg t p t' p' m := by
  intro hc
  cases hc <;> cases h

/-- The run between two `clear`s: each counter grows by what the answers tell. -/
theorem count_run {cfg : Cfg} {s s' : CState} {n n' : Counters} {tr : List SEvent} (h : CountRun cfg s n tr s' n')
    (hk : ∀ i c, SEvent.call (.inv i c) ∈ tr → (kvOf c).isSome) (hcl : SEvent.clear ∉ tr) (hf : ∀ i, Fresh cfg (s.thr i)) (N : Nat)
    (hN : ∀ i c, SEvent.call (.inv i c) ∈ tr → i < N) (hN' : ∀ i, s.thr i ≠ none → i < N) :
    n'.pos + sumTo N (fun i => own isHit (s.thr i)) = n.pos + tr.countP (SEvent.is isHit) + sumTo N (fun i => own isHit (s'.thr i)) ∧
    n'.neg + sumTo N (fun i => own isMiss (s.thr i)) = n.neg + tr.countP (SEvent.is isMiss) + sumTo N (fun i => own isMiss (s'.thr i)) ∧
    n'.upd + sumTo N (fun i => own isUpdate (s.thr i)) = n.upd + tr.countP (SEvent.is isUpdate) + sumTo N (fun i => own isUpdate (s'.thr i)) ∧
    n'.coll + sumTo N (fun i => own isCreation (s.thr i)) ≤ n.coll + tr.countP (SEvent.is isCreation) + sumTo N (fun i => own isCreation (s'.thr i)) := by
  induction h with
  | nil s n => simp
  | @inv s s' n n' tr i c h rest ih =>
    have hc := hk i c (List.mem_cons_self ..)
    have hi := hN i c (List.mem_cons_self ..)
    have ih := ih (fun i c hm => hk i c (List.mem_cons_of_mem _ hm)) (fun hm => hcl (List.mem_cons_of_mem _ hm)) (by
        intro j c' p' e
        dsimp only at e
        by_cases hj : j = i
        · subst hj
          rw [setN_same, Option.some.injEq, Prod.mk.injEq] at e
          obtain ⟨rfl, rfl⟩ := e
          exact ⟨hc, Or.inl rfl⟩
        · rw [setN_other _ _ hj] at e
          exact hf j c' p' e) (fun i c hm => hN i c (List.mem_cons_of_mem _ hm)) (by
        intro j hj
        by_cases e : j = i
        · subst e; exact hi
        · dsimp only at hj
          rw [setN_other _ _ e] at hj
          exact hN' j hj)
    have z : ∀ kind, own kind (some (c, c.prog cfg)) = 0 := by
      intro kind
      unfold own
      dsimp only
      cases hr : (c.prog cfg).result with
      | none => rfl
      | some r => exact kv_begin hc hr kind
    have u : ∀ kind, sumTo N (fun j => own kind (setN s.thr i (some (c, c.prog cfg)) j)) = sumTo N (fun j => own kind (s.thr j)) := by
      intro kind
      have := sumTo_upd (own kind) s.thr i (some (c, c.prog cfg)) hi
      rw [z, h] at this
      simpa [own] using this
    dsimp only at ih
    simp only [u] at ih
    simpa [List.countP_cons, SEvent.is] using ih
  | @raw s s' n m n' tr i c p p' t' h hs hc rest ih =>
    have hi := hN' i (by rw [h]; simp)
    obtain ⟨hk', hp⟩ := hf i c p h
    have hp : p = c.prog cfg := by
      rcases hp with hp | ⟨r, hr⟩
      · exact hp
      · exact absurd hc (not_step_of_result hr)
    subst hp
    obtain ⟨r, hr, ht⟩ := kv_step hk' hc
    have ih := ih hk hcl (by
        intro j c' q e
        dsimp only at e
        by_cases hj : j = i
        · subst hj
          rw [setN_same, Option.some.injEq, Prod.mk.injEq] at e
          obtain ⟨rfl, rfl⟩ := e
          exact ⟨hk', Or.inr ⟨r, hr⟩⟩
        · rw [setN_other _ _ hj] at e
          exact hf j c' q e) hN (by
        intro j hj
        by_cases e : j = i
        · subst e; exact hi
        · dsimp only at hj
          rw [setN_other _ _ e] at hj
          exact hN' j hj)
    have u : ∀ kind, sumTo N (fun j => own kind (setN s.thr i (some (c, p')) j)) = sumTo N (fun j => own kind (s.thr j)) + answers kind c r := by
      intro kind
      have := sumTo_upd (own kind) s.thr i (some (c, p')) hi
      have z : own kind (s.thr i) = 0 := by
        rw [h]; unfold own; dsimp only
        cases hr' : (c.prog cfg).result with
        | none => rfl
        | some r' => exact absurd hc (not_step_of_result hr')
      have z' : own kind (some (c, p')) = answers kind c r := by unfold own; dsimp only; rw [hr]
      rw [z, z'] at this
      exact this
    obtain ⟨t1, t2, t3, t4⟩ := ht
    dsimp only at ih
    simp only [u, Counters.add] at ih
    obtain ⟨a, b, d, e⟩ := ih
    refine ⟨by omega, by omega, by omega, by omega⟩
  | @lock s s' n n' tr i l c p h hl rest ih =>
    exfalso
    obtain ⟨hk', hp⟩ := hf i c _ h
    rcases hp with hp | ⟨r, hr⟩
    · exact kv_nolock hk' hp.symm
    · cases hr
  | @unlock s s' n n' tr i c p h rest ih =>
    exfalso
    obtain ⟨hk', hp⟩ := hf i c _ h
    rcases hp with hp | ⟨r, hr⟩
    · exact kv_nounlock hk' hp.symm
    · cases hr
  | @ret s s' n n' tr i c p r h hr hne rest ih =>
    have hi := hN' i (by rw [h]; simp)
    have ih := ih (fun i c hm => hk i c (List.mem_cons_of_mem _ hm)) (fun hm => hcl (List.mem_cons_of_mem _ hm)) (by
        intro j c' q e
        dsimp only at e
        by_cases hj : j = i
        · subst hj
          rw [setN_same] at e
          cases e
        · rw [setN_other _ _ hj] at e
          exact hf j c' q e) (fun i c hm => hN i c (List.mem_cons_of_mem _ hm)) (by
        intro j hj
        by_cases e : j = i
        · subst e; exact hi
        · dsimp only at hj
          rw [setN_other _ _ e] at hj
          exact hN' j hj)
    have u : ∀ kind, sumTo N (fun j => own kind (setN s.thr i none j)) + answers kind c r = sumTo N (fun j => own kind (s.thr j)) := by
      intro kind
      have := sumTo_upd (own kind) s.thr i none hi
      have z : own kind (s.thr i) = answers kind c r := by rw [h]; unfold own; dsimp only; rw [hr]
      rw [z] at this
      exact this
    have v : ∀ kind, (SEvent.call (.ret i c r) :: tr).countP (SEvent.is kind) = tr.countP (SEvent.is kind) + answers kind c r := by
      intro kind
      rw [List.countP_cons, ← is_any i c r]
    have u1 := u isHit
    have u2 := u isMiss
    have u3 := u isUpdate
    have u4 := u isCreation
    dsimp only at ih
    simp only [v]
    obtain ⟨a, b, d, e⟩ := ih
    refine ⟨by omega, by omega, by omega, by omega⟩
  | bg sel hs h rest ih => exact ih hk hcl hf hN hN'
  | merge hi h rest ih =>
    have ih := ih (fun i c hm => hk i c (List.mem_cons_of_mem _ hm)) (fun hm => hcl (List.mem_cons_of_mem _ hm)) hf (fun i c hm => hN i c (List.mem_cons_of_mem _ hm)) hN'
    simpa [List.countP_cons, SEvent.is] using ih
  | clear hi h rest ih => exact absurd (List.mem_cons_self ..) hcl

theorem any_clear (tr : List SEvent) : tr.any (fun | .clear => true | _ => false) = true ↔ SEvent.clear ∈ tr := by
  rw [List.any_eq_true]
  constructor
  · rintro ⟨e, h1, h2⟩
    cases e with
    | call => cases h2
    | merge => cases h2
    | clear => exact h1
  · intro h; exact ⟨_, h, rfl⟩

theorem sinceClear_skip {e : SEvent} {tr : List SEvent} (h : SEvent.clear ∈ tr) : sinceClear (e :: tr) = sinceClear tr := by
  have key : (if tr.any (fun | .clear => true | _ => false) then sinceClear tr else e :: tr) = sinceClear tr := by
    rw [if_pos ((any_clear tr).2 h)]
  cases e with
  | call => exact key
  | merge => exact key
  | clear => rfl

theorem sinceClear_keep {e : SEvent} {tr : List SEvent} (he : e ≠ .clear) (h : SEvent.clear ∉ tr) : sinceClear (e :: tr) = e :: tr := by
  have key : (if tr.any (fun | .clear => true | _ => false) then sinceClear tr else e :: tr) = e :: tr := by
    rw [if_neg (fun h' => h ((any_clear tr).1 h'))]
  cases e with
  | call => exact key
  | merge => exact key
  | clear => exact absurd rfl he

theorem sinceClear_none {tr : List SEvent} (h : SEvent.clear ∉ tr) : sinceClear tr = tr := by
  cases tr with
  | nil => rfl
  | cons e tr =>
    exact sinceClear_keep (fun x => h (x ▸ List.mem_cons_self ..)) (fun hm => h (List.mem_cons_of_mem _ hm))

theorem sinceClear_sub {tr : List SEvent} : ∀ e, e ∈ sinceClear tr → e ∈ tr := by
  induction tr with
  | nil => intro e h; cases h
  | cons a tr ih =>
    intro e h
    by_cases ha : a = .clear
    · subst ha
      exact List.mem_cons_of_mem _ (ih e h)
    · by_cases hm : SEvent.clear ∈ tr
      · rw [sinceClear_skip hm] at h
        exact List.mem_cons_of_mem _ (ih e h)
      · rw [sinceClear_keep ha hm] at h
        exact h

/-- The run since the last `clear` is a run from zero. -/
theorem run_sinceClear {cfg : Cfg} {s s' : CState} {n n' : Counters} {tr : List SEvent} (h : CountRun cfg s n tr s' n') (hm : SEvent.clear ∈ tr) :
    ∃ s1, (∀ i, s1.thr i = none) ∧ CountRun cfg s1 .zero (sinceClear tr) s' n' ∧ SEvent.clear ∉ sinceClear tr := by
  induction h with
  | nil => cases hm
  | inv i c h rest ih =>
    have hm : _ := (List.mem_cons.1 hm).resolve_left (by simp)
    rw [sinceClear_skip hm]
    exact ih hm
  | raw h hs hc rest ih => exact ih hm
  | lock h hf rest ih => exact ih hm
  | unlock h rest ih => exact ih hm
  | ret h hr hne rest ih =>
    have hm : _ := (List.mem_cons.1 hm).resolve_left (by simp)
    rw [sinceClear_skip hm]
    exact ih hm
  | bg sel hs h rest ih => exact ih hm
  | merge hi h rest ih =>
    have hm : _ := (List.mem_cons.1 hm).resolve_left (by simp)
    rw [sinceClear_skip hm]
    exact ih hm
  | @clear s s' n n' tr t' hi h rest ih =>
    show ∃ s1, (∀ i, s1.thr i = none) ∧ CountRun cfg s1 .zero (sinceClear tr) s' n' ∧ SEvent.clear ∉ sinceClear tr
    by_cases hm' : SEvent.clear ∈ tr
    · exact ih hm'
    · rw [sinceClear_none hm']
      exact ⟨{ s with tree := t' }, hi, rest, hm'⟩

theorem sthreads_bounded (tr : List SEvent) : ∃ N, ∀ i c, SEvent.call (.inv i c) ∈ tr → i < N := by
  induction tr with
  | nil => exact ⟨0, fun i c h => by cases h⟩
  | cons e tr ih =>
    obtain ⟨N, hN⟩ := ih
    cases e with
    | call e =>
      cases e with
      | inv j c =>
        refine ⟨N + (j + 1), fun i c' h => ?_⟩
        rcases List.mem_cons.1 h with h | h
        · simp only [SEvent.call.injEq, CEvent.inv.injEq] at h
          omega
        · have := hN i c' h
          omega
      | ret j c r => exact ⟨N, fun i c' h => hN i c' ((List.mem_cons.1 h).resolve_left (by simp))⟩
    | merge => exact ⟨N, fun i c' h => hN i c' ((List.mem_cons.1 h).resolve_left (by simp))⟩
    | clear => exact ⟨N, fun i c' h => hN i c' ((List.mem_cons.1 h).resolve_left (by simp))⟩

/-- **C81.** The activity counters of an open store count what the answers of the key-value calls tell, since the store was opened or last cleared: the number of positive lookups is
the number of `get`, `contains` and `get_or_create` that found their key, that of negative lookups the number of `get` and `contains` that did not, that of updates
the number of `set` and `replace` that changed a value to a different one; collisions are at most the keys created. With any number of threads, and
whatever compactions, splits and merges happen. -/
theorem C81_counters {cfg : Cfg} {t : Tree} {tr : List SEvent} {s : CState} {n : Counters} (h : CountRun cfg (CState.idle t) .zero tr s n)
    (hk : ∀ i c, SEvent.call (.inv i c) ∈ tr → (kvOf c).isSome) (hq : ∀ i, s.thr i = none) :
    n.pos = (sinceClear tr).countP (SEvent.is isHit) ∧ n.neg = (sinceClear tr).countP (SEvent.is isMiss) ∧
    n.upd = (sinceClear tr).countP (SEvent.is isUpdate) ∧ n.coll ≤ (sinceClear tr).countP (SEvent.is isCreation) := by
  suffices H : ∃ s1, (∀ i, s1.thr i = none) ∧ CountRun cfg s1 .zero (sinceClear tr) s n ∧ SEvent.clear ∉ sinceClear tr by
    obtain ⟨s1, h1, h2, h3⟩ := H
    obtain ⟨N, hN⟩ := sthreads_bounded (sinceClear tr)
    have key := count_run h2 (fun i c hm => hk i c (sinceClear_sub _ hm)) h3 (fun i c p e => by rw [h1] at e; cases e) N hN (fun i hi => absurd (h1 i) hi)
    have z1 : ∀ kind, sumTo N (fun i => own kind (s1.thr i)) = 0 := fun kind => sumTo_zero (fun i => by rw [h1]; rfl)
    have z2 : ∀ kind, sumTo N (fun i => own kind (s.thr i)) = 0 := fun kind => sumTo_zero (fun i => by rw [hq]; rfl)
    simpa [z1, z2, Counters.zero] using key
  by_cases hm : SEvent.clear ∈ tr
  · exact run_sinceClear h hm
  · rw [sinceClear_none hm]
    exact ⟨_, fun _ => rfl, h, hm⟩

/-- Every raw operation has its increments. -/
theorem countStep_of {cfg : Cfg} {t t' : Tree} {p p' : Prog Resp} (h : CStep cfg t p t' p') (hl : p.onLock = false) : ∃ m, CountStep cfg t p t' p' m := by
  cases h with
  | get => exact ⟨_, .get ..⟩
  | insErr _ _ _ _ e hs => exact ⟨_, .insErr _ _ _ _ _ e hs⟩
  | ins _ _ _ _ _ st n hs h => exact ⟨_, .ins _ _ _ _ _ _ _ _ hs h⟩
  | rem => exact ⟨_, .rem ..⟩
  | byHash => exact ⟨_, .byHash ..⟩
  | lock => cases hl
  | unlock => cases hl

/-- Every concurrent execution of the store has its counters. -/
theorem C81_total {cfg : Cfg} {s s' : CState} {tr : List CEvent} (h : ConcRun cfg s tr s') (n : Counters) : ∃ n', CountRun cfg s n (tr.map .call) s' n' := by
  induction h generalizing n with
  | nil s => exact ⟨n, .nil s n⟩
  | inv i c h rest ih => obtain ⟨n', hn⟩ := ih n; exact ⟨n', .inv i c h hn⟩
  | raw h hl hs hc rest ih =>
    obtain ⟨m, hm⟩ := countStep_of hc hl
    obtain ⟨n', hn⟩ := ih (n.add m)
    exact ⟨n', .raw h hs hm hn⟩
  | lock h hf rest ih => obtain ⟨n', hn⟩ := ih n; exact ⟨n', .lock h hf hn⟩
  | unlock h rest ih => obtain ⟨n', hn⟩ := ih n; exact ⟨n', .unlock h hn⟩
  | ret h hr hne rest ih => obtain ⟨n', hn⟩ := ih n; exact ⟨n', .ret h hr hne hn⟩
  | bg sel hs h rest ih => obtain ⟨n', hn⟩ := ih n; exact ⟨n', .bg sel hs h hn⟩

/-- Two threads: a key is created, changed, looked up; another one is missed. Steps alternate. -/
def countSched : List SCmd :=
  [.go 0 (.kv [1] (.set [5])), .go 1 (.kv [2] .get), .step 1, .step 0, .fin 0 (.ok (.setStatus .createdNew)), .go 0 (.kv [1] (.set [6])),
   .fin 1 (.ok (.val none)), .go 1 (.typed [1] .contains), .step 0, .step 1, .fin 1 (.ok (.flag false)), .go 1 (.kv [1] (.getOrCreate [7])), .step 1,
   .fin 0 (.ok (.setStatus (.prevValue [5]))), .fin 1 (.ok (.gocStatus (.existingValue [6]))), .go 0 (.kv [1] (.set [6])), .step 0,
   .fin 0 (.ok (.setStatus (.prevValue [6])))]

set_option maxRecDepth 100000 in
theorem count_demo : checkC runCfg [] 2 countSched [] = true := by decide +kernel

/-- The hypotheses of C81 are met: one hit, two misses, one update (setting the same value again is none). -/
example : ∃ t s n, CountRun runCfg (CState.idle t) .zero ((traceOf countSched (fun _ => none)).map .call) s n ∧ (∀ i, s.thr i = none) ∧
    n.pos = 1 ∧ n.neg = 2 ∧ n.upd = 1 := by
  obtain ⟨t, s, _, _, h, hq, _⟩ := checkC_sound count_demo
  obtain ⟨n, hn⟩ := C81_total h .zero
  obtain ⟨h1, h2, h3, _⟩ := C81_counters hn (by
    intro i c hm
    simp [countSched, traceOf, setN] at hm
    rcases hm with ⟨_, rfl⟩ | ⟨_, rfl⟩ | ⟨_, rfl⟩ | ⟨_, rfl⟩ | ⟨_, rfl⟩ | ⟨_, rfl⟩ <;> rfl) hq
  refine ⟨t, s, n, hn, hq, h1.trans ?_, h2.trans ?_, h3.trans ?_⟩ <;> decide

end Candy.Props
