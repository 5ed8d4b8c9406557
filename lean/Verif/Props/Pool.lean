import Verif.Proofs.PoolLog
import Verif.Proofs.PoolRun
/-!
# C84: the compaction threads

For any number of threads that access shards, begin compactions and wait for them, any number of shards and any number of workers.
-/
namespace Candy.Props
open Spec

/-- The assertion `files_guard.1.is_none()` in `begin_compaction` and the `unwrap` in `background_compact` never fail, and no worker ends: neither because it panics nor
because a result cannot be sent. -/
theorem C84_no_panic {W : Nat} {b : Bool} {S : Pool} (h : Pool.Run W b S) : (∀ i, S.threads i ≠ .panicked) ∧ ∀ w, w < W → S.workers w ≠ .gone := by
  have H := PoolInv.of_run h
  exact ⟨H.nopanic, fun w hw e => absurd ((H.alive w).1 e) (Nat.not_le.2 hw)⟩

/-- A compaction of a shard begins only if all earlier ones of the same shard have ended successfully and their results have been received, every one ends at most once,
and its result is received at most once, and is the one it has ended with. -/
theorem C84_history {W : Nat} {b : Bool} {S : Pool} (h : Pool.Run W b S) : PoolHistory S.log := (PoolLog.of_run h).ok

/-- After somebody has been told of a failed compaction, no compaction of the shard ever begins again. -/
theorem C84_dead {W : Nat} {b : Bool} {S : Pool} (h : Pool.Run W b S) {l r : List PoolEv} {s i : Nat} {j j' : Job} (hl : S.log = l ++ .begun s j' :: r)
    (hb : .begun s j ∈ l) : .told i j false ∉ l := by
  intro ht
  obtain ⟨_, i', h2⟩ := (C84_history h l _ r hl).2 j hb
  have H := C84_history h
  rw [hl] at H
  -- the two results of `j` have both been received before
  have key : ∀ (x y : PoolEv), x ∈ l → y ∈ l → (∃ i, x = .told i j false) → (∃ i, y = .told i j true) → False := by
    intro x y hx hy ⟨i1, e1⟩ ⟨i2, e2⟩
    obtain ⟨p, q, e⟩ := List.append_of_mem hx
    have hy' : y ∈ p ∨ y ∈ q := by
      rw [e] at hy
      rcases List.mem_append.1 hy with hy | hy
      · exact Or.inl hy
      · rcases List.mem_cons.1 hy with hy | hy
        · rw [hy, e1] at e2
          cases e2
        · exact Or.inr hy
    rcases hy' with hy | hy
    · have := H p x (q ++ .begun s j' :: r) (by rw [e]; simp)
      rw [e1] at this
      exact this.2 i2 true (e2 ▸ hy)
    · obtain ⟨p', q', e'⟩ := List.append_of_mem hy
      have := H (p ++ x :: p') y (q' ++ .begun s j' :: r) (by rw [e, e']; simp)
      rw [e2] at this
      exact this.2 i1 false (by rw [e1]; simp)
  exact key _ _ ht h2 ⟨i, rfl⟩ ⟨i', rfl⟩

/-- The shard on which a worker works. -/
def shardOf : WPc → Option Nat
  | .got s _ => some s
  | .working s _ _ => some s
  | .renamed s _ => some s
  | .sending s _ _ => some s
  | _ => none

/-- No two workers work on the same shard, and none works on a shard for which a compaction is in the queue; no two queued compactions are for the same shard. -/
theorem C84_one_at_a_time {W : Nat} {b : Bool} {S : Pool} (h : Pool.Run W b S) :
    (∀ w w' s, shardOf (S.workers w) = some s → shardOf (S.workers w') = some s → w = w') ∧
    (∀ w s j, shardOf (S.workers w) = some s → (s, j) ∉ S.queue) ∧ (S.queue.map (·.1)).Nodup := by
  have H := PoolInv.of_run h
  have key : ∀ w s, shardOf (S.workers w) = some s → ∃ j, (S.workers w).job = some (s, j) := by
    intro w s
    cases S.workers w with
    | idle => intro h; cases h
    | gone => intro h; cases h
    | got s' j => intro h; cases h; exact ⟨j, rfl⟩
    | working s' j n => intro h; cases h; exact ⟨j, rfl⟩
    | renamed s' j => intro h; cases h; exact ⟨j, rfl⟩
    | sending s' j ok => intro h; cases h; exact ⟨j, rfl⟩
  refine ⟨?_, ?_, ?_⟩
  · intro w w' s h1 h2
    obtain ⟨j, h1⟩ := key w s h1
    obtain ⟨j', h2⟩ := key w' s h2
    have := H.open_unique (Or.inr ⟨w, h1⟩) (Or.inr ⟨w', h2⟩)
    subst this
    exact H.single w w' _ h1 h2
  · intro w s j h1 h2
    obtain ⟨j', h1⟩ := key w s h1
    have := H.open_unique (Or.inr ⟨w, h1⟩) (Or.inl h2)
    subst this
    exact H.apart w _ h1 h2
  · have hn := H.nodup
    have hu : ∀ x ∈ S.queue, ∀ y ∈ S.queue, x.1 = y.1 → x = y := by
      rintro ⟨s, j⟩ hx ⟨s', j'⟩ hy e
      have e' : s = s' := e
      subst e'
      rw [H.open_unique (Or.inl hx) (Or.inl hy)]
    revert hn hu
    generalize S.queue = q
    intro hn hu
    rw [List.nodup_iff_pairwise_ne, List.pairwise_map]
    exact (List.nodup_iff_pairwise_ne.1 hn).imp_of_mem fun ha hb hne e => hne (hu _ ha _ hb e)

/-- Whenever a call has not returned or a compaction has not ended, something can happen, if there is a compaction thread: there is no deadlock, even if the lock `files` is not
granted to a reader while a writer waits. -/
theorem C84_progress {W : Nat} {b : Bool} {S : Pool} (h : Pool.Run W b S) (hW : 0 < W)
    (hp : (∃ i, S.threads i ≠ .out) ∨ S.queue ≠ [] ∨ ∃ w, w < W ∧ S.workers w ≠ .idle) : ∃ S', S.Step b S' := by
  have H := PoolInv.of_run h
  rcases hp with ⟨i, hi⟩ | hq | ⟨w, hw, hn⟩
  · exact H.thread_step hW hi
  · cases e : S.queue with
    | nil => exact absurd e hq
    | cons x q => exact H.open_step hW (p := x) (Or.inl (by rw [e]; simp))
  · cases e : (S.workers w).job with
    | some x => exact H.worker_step (s := x.1) (j := x.2) e
    | none =>
      have hg := (C84_no_panic h).2 w hw
      revert e hn hg
      cases S.workers w <;> simp [WPc.job]

/-- No call is in progress, and every compaction has ended. -/
def Quiet (W : Nat) (S : Pool) : Prop :=
  (∀ i, S.threads i = .out) ∧ S.queue = [] ∧ (∀ w, w < W → S.workers w = .idle) ∧ ∀ s j, .begun s j ∈ S.log → ∃ ok, .ended j ok ∈ S.log

/-- If no new calls are made, only a bounded number of steps is possible, whatever their order, and when no further one is, all calls have returned and all compactions have ended. -/
theorem C84_finishes {W : Nat} {b : Bool} {S : Pool} (h : Pool.Run W b S) (hW : 0 < W) :
    ∃ B, ∀ n S', Pool.Steps b n S S' → n ≤ B ∧ ((∀ S'', ¬ S'.Step b S'') → Quiet W S') := by
  obtain ⟨N, hN⟩ := h.finite
  refine ⟨S.measure N W, fun n S' hs => ⟨?_, fun hstuck => ?_⟩⟩
  · have := (hs.bound (PoolInv.of_run h) hN).1
    omega
  · have h' : Pool.Run W b S' := by
      clear hstuck hN N
      induction hs with
      | refl => exact h
      | step h1 _ ih => exact ih (h.step h1)
    have hno : ¬ ((∃ i, S'.threads i ≠ .out) ∨ S'.queue ≠ [] ∨ ∃ w, w < W ∧ S'.workers w ≠ .idle) := fun hp => by
      obtain ⟨S'', h2⟩ := C84_progress h' hW hp
      exact hstuck S'' h2
    simp only [not_or, not_exists, not_and, ne_eq, Classical.not_not] at hno
    refine ⟨hno.1, hno.2.1, hno.2.2, fun s j hb => ?_⟩
    have L := PoolLog.of_run h'
    have I := PoolInv.of_run h'
    rcases L.begun s j hb with hr | ⟨i, ht⟩ | ⟨⟨i, ht⟩, _⟩
    · cases hc : S'.chan j with
      | ready ok => exact ⟨ok, L.ended j ok hc⟩
      | closed => exact absurd hc (I.opened _ hr)
      | pending =>
        rcases I.pend _ hr hc with hq | ⟨w, hw⟩
        · rw [hno.2.1] at hq
          cases hq
        · have hlt : w < W := I.worker_lt (fun e => by rw [e] at hw; cases hw)
          rw [hno.2.2 w hlt] at hw
          cases hw
    · exact ⟨true, (L.told i j true ht).1⟩
    · exact ⟨false, (L.told i j false ht).1⟩

/-- With `num_compaction_threads = 0` no compaction ever begins, and a shard that counts as being compacted does so for ever. -/
theorem C84_zero_never {b : Bool} {S : Pool} (h : Pool.Run 0 b S) :
    (∀ s j, .begun s j ∉ S.log) ∧ ∀ s S', S.target s = true → S.Step b S' → S'.target s = true := by
  have hall : ∀ {S}, Pool.Run 0 b S → ∀ w, S.workers w = .gone := fun h w => ((PoolInv.of_run h).alive w).2 (Nat.zero_le w)
  refine ⟨?_, ?_⟩
  · induction h with
    | init => intro s j h; cases h
    | enter hr hs ih => cases hs <;> exact ih
    | step hr hs ih =>
      have hg := hall hr
      cases hs with
      | submit i s w h ht hw => exact absurd (hg w) hw
      | collected i s j ok h hc => intro s' j'; cases ok <;> simp [ih s' j']
      | _ => intro s' j'; simp [ih s' j']
  · intro s S' ht hs
    have hg := hall h
    cases hs with
    | swap w s' j h => rw [hg w] at h; cases h
    | submit i s' w h _ hw => exact absurd (hg w) hw
    | submitFails i s' h _ hw =>
      by_cases e : s = s'
      · simp [fset, e]
      · simp only [fset, e, if_false]
        exact ht
    | _ => exact ht

/-! ## Concrete runs -/

theorem fset_fset {α : Type} (f : Nat → α) (i : Nat) (x y : α) : fset (fset f i x) i y = fset f i y := by
  funext k
  by_cases e : k = i <;> simp [fset, e]

/-- The number of threads does not matter for what one of them does: thread 0 takes these steps if all others are out. -/
theorem run_begin {W : Nat} {b : Bool} {S : Pool} (h : Pool.Run W b S) (hq : ∀ i, S.threads i = .out) (hu : ∀ w s, ¬ (S.workers w).upgradable s) :
    Pool.Run W b { S with threads := fset S.threads 0 (.deciding 0) } := by
  have h1 := h.enter (.begin 0 0 (hq 0))
  have h2 := h1.step (.beginMutex (barge := b) 0 0 (by simp [fset]) (by intro i; by_cases e : i = 0 <;> simp [fset, e, hq, TPc.locks]))
  have h3 := h2.step (.beginFiles (barge := b) 0 0 (by simp [fset]) (by intro i; by_cases e : i = 0 <;> simp [fset, e, hq, TPc.writes])
    (by intro i r; by_cases e : i = 0 <;> simp [fset, e, hq]) (fun w => hu w 0))
  simpa only [fset_fset] using h3

/-- All rows are copied, if nobody accesses one. -/
theorem run_rows {W : Nat} {b : Bool} {S : Pool} {w s : Nat} {j : Job} (hq : ∀ i r, S.threads i ≠ .inRow s r) :
    ∀ n, n ≤ NUM_ROWS → Pool.Run W b { S with workers := fset S.workers w (.working s j 0) } → Pool.Run W b { S with workers := fset S.workers w (.working s j n) }
  | 0, _, h => h
  | n + 1, hn, h => by
    have h1 := run_rows hq n (Nat.le_of_succ_le hn) h
    have h2 := h1.step (.row (barge := b) w s j n (by simp [fset]) hn (fun i => hq i n))
    simpa only [fset_fset] using h2

/-- The history of a store with one compaction thread: a compaction of shard 0 is begun, ends, and somebody waits for it; then another one. -/
def oneCompaction (j : Job) : List PoolEv := [.begun 0 j, .returned 0 true, .ended j true, .told 0 j true, .returned 0 true]

/-- A store with one compaction thread compacts a shard. -/
theorem run_compaction {b : Bool} {S : Pool} (h : Pool.Run 1 b S) (hq : Quiet 1 S) (hh : S.handle 0 = none) (ht : S.target 0 = false) :
    ∃ S', Pool.Run 1 b S' ∧ Quiet 1 S' ∧ S'.handle 0 = none ∧ S'.target 0 = false ∧ S'.log = S.log ++ oneCompaction S.next ∧ S'.next = S.next + 1 := by
  obtain ⟨q1, q2, q3, q4⟩ := hq
  have hw0 : S.workers 0 = .idle := q3 0 (by omega)
  have hwk : ∀ w, w ≠ 0 → S.workers w = .gone := fun w hw => ((PoolInv.of_run h).alive w).2 (by omega)
  have hnu : ∀ w s, ¬ (S.workers w).upgradable s := by
    intro w s
    by_cases e : w = 0
    · rw [e, hw0]; exact id
    · rw [hwk w e]; exact id
  have h1 := run_begin h q1 hnu
  have h2 := h1.step (.noOld (barge := b) 0 0 (by simp [fset]) ht hh)
  have h3 := h2.step (.submit (barge := b) 0 0 0 (by simp [fset]) ht (by rw [hw0]; simp))
  have h4 := h3.step (.next (barge := b) 0 0 S.next [] hw0 (by simp [q2]))
  have h5 := h4.step (.lock (barge := b) 0 0 S.next (by simp [fset]) (by intro i; by_cases e : i = 0 <;> simp [fset, e, q1, TPc.writes])
    (by intro w; by_cases e : w = 0
        · simp [fset, e, WPc.upgradable]
        · simp [fset, e, hwk w e, WPc.upgradable]) (by simp [fset]))
  simp only [fset_fset] at h5
  have h6 := run_rows (S := ⟨S.workers, fset S.threads 0 .out, [], fset S.chan S.next .pending, S.next + 1, fset S.handle 0 (some S.next), fset S.target 0 true,
    S.log ++ [.begun 0 S.next, .returned 0 true]⟩) (w := 0) (s := 0) (j := S.next) (by intro i r; by_cases e : i = 0 <;> simp [fset, e, q1]) NUM_ROWS (Nat.le_refl _) h5
  have h7 := h6.step (.rename (barge := b) 0 0 S.next (by simp [fset]))
  have h8 := h7.step (.swap (barge := b) 0 0 S.next (by simp [fset]) (by intro i r; by_cases e : i = 0 <;> simp [fset, e, q1]))
  have h9 := h8.step (.send (barge := b) 0 0 S.next true (by simp [fset]) (Or.inl ⟨0, by simp [fset]⟩))
  have h10 := h9.enter (.wait 0 0 (by simp [fset]))
  have h11 := h10.step (.waitTake (barge := b) 0 0 S.next (by simp [fset]) (by intro i; by_cases e : i = 0 <;> simp [fset, e, q1, TPc.locks]) (by simp [fset]))
  have h12 := h11.step (.waited (barge := b) 0 0 S.next true (by simp [fset]) (by simp [fset]))
  refine ⟨_, h12, ⟨?_, rfl, ?_, ?_⟩, by simp [fset], by simp [fset], by simp [oneCompaction], rfl⟩
  · intro i
    by_cases e : i = 0 <;> simp [fset, e, q1]
  · intro w hw
    have : w = 0 := by omega
    simp [fset, this]
  · show ∀ s j, .begun s j ∈ S.log ++ _ ++ _ ++ _ → ∃ ok, .ended j ok ∈ S.log ++ _ ++ _ ++ _
    clear h1 h2 h3 h4 h5 h6 h7 h8 h9 h10 h11 h12
    intro s j hb
    simp only [List.mem_append, List.mem_cons, List.not_mem_nil, or_false, reduceCtorEq, PoolEv.begun.injEq, false_or] at hb
    rcases hb with hb | hb
    · obtain ⟨ok, e⟩ := q4 s j hb
      exact ⟨ok, by simp [e]⟩
    · exact ⟨true, by simp [hb.2]⟩

/-- ... and does so twice. -/
theorem C84_example (b : Bool) : ∃ S, Pool.Run 1 b S ∧ Quiet 1 S ∧ S.log = oneCompaction 0 ++ oneCompaction 1 := by
  have hq : Quiet 1 (Pool.init 1) := ⟨fun _ => rfl, rfl, fun w hw => if_pos hw, fun s j h => by cases h⟩
  obtain ⟨S, h1, h2, h3, h4, h5, h6⟩ := run_compaction (b := b) .init hq rfl rfl
  obtain ⟨S', h1', h2', _, _, h5', _⟩ := run_compaction h1 h2 h3 h4
  refine ⟨S', h1', h2', ?_⟩
  rw [h5', h5, h6]
  rfl

/-- With `num_compaction_threads = 0`, the first call of `begin_compaction` returns an error; the later ones return success, and the shard counts as being compacted, although no
compaction has begun. -/
theorem C84_refuted_zero (b : Bool) : ∃ S, Pool.Run 0 b S ∧ (∀ i, S.threads i = .out) ∧ S.queue = [] ∧ S.target 0 = true ∧ S.handle 0 = none ∧
    S.log = [.returned 0 false, .returned 0 true] := by
  have h1 := run_begin (W := 0) (b := b) .init (fun _ => rfl) (fun w s => by simp [Pool.init, WPc.upgradable])
  have h2 := h1.step (.noOld (barge := b) 0 0 (by simp [fset]) rfl rfl)
  have h3 := h2.step (.submitFails (barge := b) 0 0 (by simp [fset]) rfl (fun w => rfl))
  have h4 := run_begin h3 (by intro i; by_cases e : i = 0 <;> simp [fset, e, Pool.init]) (fun w s => by simp [Pool.init, WPc.upgradable])
  have h5 := h4.step (.noHandle (barge := b) 0 0 (by simp [fset]) (by simp [fset]) rfl)
  refine ⟨_, h5, ?_, rfl, by simp [fset], rfl, rfl⟩
  intro i
  by_cases e : i = 0 <;> simp [fset, e, Pool.init]

/-- Readers, begun compactions and a worker can all be busy at the same time: the hypotheses of `C84_progress` are met. -/
example (b : Bool) : ∃ S, Pool.Run 1 b S ∧ S.queue ≠ [] ∧ S.threads 1 = .wantRow 0 5 := by
  have h1 := run_begin (W := 1) (b := b) .init (fun _ => rfl) (fun w s => by
    by_cases e : w = 0 <;> simp [Pool.init, e, WPc.upgradable])
  have h2 := h1.step (.noOld (barge := b) 0 0 (by simp [fset]) rfl rfl)
  have h3 := h2.step (.submit (barge := b) 0 0 0 (by simp [fset]) rfl (by simp [Pool.init]))
  have h4 := h3.enter (.row 1 0 5 (by simp [fset, Pool.init]))
  exact ⟨_, h4, by simp [Pool.init], by simp [fset]⟩

end Candy.Props
