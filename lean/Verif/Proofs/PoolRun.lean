import Verif.Proofs.Pool
import Verif.Proofs.Sum
/-!
# Progress and termination of the compaction threads
-/
namespace Candy

/-! ## Something is always possible -/

section
variable {W : Nat} {b : Bool} {S : Pool}

theorem PoolInv.reader_step {i s r : Nat} (h : S.threads i = .inRow s r) : ∃ S', S.Step b S' := ⟨_, .unlockRow i s r h⟩

theorem PoolInv.noReader_or (s : Nat) : S.NoReader s ∨ ∃ S', S.Step b S' := by
  by_cases h : S.NoReader s
  · exact Or.inl h
  · simp only [Pool.NoReader, Classical.not_forall, ne_eq, Classical.not_not] at h
    obtain ⟨i, r, h⟩ := h
    exact Or.inr (PoolInv.reader_step h)

/-- A worker that has the file lock or is about to send can go on, or a reader can. -/
theorem PoolInv.busy_step (H : PoolInv W S) {w s : Nat} {j : Job} (hj : (S.workers w).job = some (s, j)) (hg : S.workers w ≠ .got s j) : ∃ S', S.Step b S' := by
  have hr : S.Receiver j := H.sender hj
  cases h : S.workers w with
  | idle => rw [h] at hj; cases hj
  | gone => rw [h] at hj; cases hj
  | got s' j' => rw [h] at hj; cases hj; exact absurd h hg
  | working s' j' n =>
    have hn := H.rows w s' j' n h
    rcases Nat.lt_or_eq_of_le hn with hlt | he
    · by_cases hx : ∀ i, S.threads i ≠ .inRow s' n
      · exact ⟨_, .row w s' j' n h hlt hx⟩
      · simp only [Classical.not_forall, ne_eq, Classical.not_not] at hx
        obtain ⟨i, hx⟩ := hx
        exact PoolInv.reader_step hx
    · exact ⟨_, .rename w s' j' (he ▸ h)⟩
  | renamed s' j' =>
    rcases PoolInv.noReader_or (b := b) (S := S) s' with hx | hx
    · exact ⟨_, .swap w s' j' h hx⟩
    · exact hx
  | sending s' j' ok =>
    rw [h] at hj
    cases hj
    exact ⟨_, .send w s j ok h hr⟩

/-- A thread that has the file lock for writing can go on, or another one can. -/
theorem PoolInv.writer_step (H : PoolInv W S) {i s : Nat} (h : (S.threads i).writes s) : ∃ S', S.Step b S' := by
  cases hi : S.threads i with
  | deciding s' => exact ⟨_, .already i s' hi⟩
  | creating s' => exact ⟨_, .createFails i s' hi (H.creat i s' hi).2⟩
  | collects s' j =>
    have hr : S.Rcv (s', j) := Or.inr ⟨i, by rw [hi]; rfl⟩
    cases hc : S.chan j with
    | ready ok => exact ⟨_, .collected i s' j ok hi hc⟩
    | closed => exact absurd hc (H.opened _ hr)
    | pending =>
      have ht : S.target s' = false := (H.coll i s' j hi).resolve_right (fun e => e hc)
      rcases H.pend _ hr hc with hq | ⟨w, hw⟩
      · have := H.tgtq _ hq
        rw [ht] at this
        cases this
      · refine H.busy_step hw fun hg => ?_
        have := H.tgtw w (s', j) (by rw [hg]; rfl)
        rw [ht] at this
        cases this
  | _ => rw [hi] at h; exact h.elim

/-- A worker with a compaction can go on, or something else can. -/
theorem PoolInv.worker_step (H : PoolInv W S) {w s : Nat} {j : Job} (hj : (S.workers w).job = some (s, j)) : ∃ S', S.Step b S' := by
  by_cases hg : S.workers w = .got s j
  · by_cases hw : S.NoWriter s
    · by_cases hu : S.NoUpgradable s
      · exact ⟨_, .lock w s j hg hw hu (H.tgtw w (s, j) (by rw [hg]; rfl))⟩
      · simp only [Pool.NoUpgradable, Classical.not_forall, ne_eq, Classical.not_not] at hu
        obtain ⟨w', hu⟩ := hu
        obtain ⟨j', hj'⟩ := WPc.early_of_upgradable hu
        refine H.busy_step (WPc.job_of_early hj') fun hx => ?_
        rw [hx] at hu
        exact hu
    · simp only [Pool.NoWriter, Classical.not_forall, ne_eq, Classical.not_not] at hw
      obtain ⟨i, hw⟩ := hw
      exact H.writer_step hw
  · exact H.busy_step hj hg

/-- If there is a worker, every compaction whose result has not been sent can go on, or something else can. -/
theorem PoolInv.open_step (H : PoolInv W S) (hW : 0 < W) {p : Nat × Job} (h : S.Open p) : ∃ S', S.Step b S' := by
  rcases h with hq | ⟨w, hw⟩
  · cases h0 : (S.workers 0).job with
    | some x => exact H.worker_step (s := x.1) (j := x.2) h0
    | none =>
      have hi : S.workers 0 = .idle := by
        have hng : S.workers 0 ≠ .gone := fun e => absurd ((H.alive 0).1 e) (Nat.not_le.2 hW)
        revert h0 hng
        cases S.workers 0 <;> simp [WPc.job]
      cases hq' : S.queue with
      | nil => rw [hq'] at hq; cases hq
      | cons x q => exact ⟨_, .next 0 x.1 x.2 q hi (by rw [hq'])⟩
  · exact H.worker_step hw

theorem PoolInv.mutex_step (H : PoolInv W S) (hW : 0 < W) {i s : Nat} (h : (S.threads i).locks s) : ∃ S', S.Step b S' := by
  cases hi : S.threads i with
  | hasMutex s' =>
    by_cases hw : S.NoWriter s'
    · rcases PoolInv.noReader_or (b := b) (S := S) s' with hr | hr
      · by_cases hu : S.NoUpgradable s'
        · exact ⟨_, .beginFiles i s' hi hw hr hu⟩
        · simp only [Pool.NoUpgradable, Classical.not_forall, ne_eq, Classical.not_not] at hu
          obtain ⟨w', hu⟩ := hu
          obtain ⟨j', hj'⟩ := WPc.early_of_upgradable hu
          exact H.worker_step (WPc.job_of_early hj')
      · exact hr
    · simp only [Pool.NoWriter, Classical.not_forall, ne_eq, Classical.not_not] at hw
      obtain ⟨k, hw⟩ := hw
      exact H.writer_step hw
  | deciding s' => exact H.writer_step (i := i) (s := s') (by rw [hi]; rfl)
  | collects s' j => exact H.writer_step (i := i) (s := s') (by rw [hi]; rfl)
  | creating s' => exact H.writer_step (i := i) (s := s') (by rw [hi]; rfl)
  | waits s' j =>
    have hr : S.Rcv (s', j) := Or.inr ⟨i, by rw [hi]; rfl⟩
    cases hc : S.chan j with
    | ready ok => exact ⟨_, .waited i s' j ok hi hc⟩
    | closed => exact absurd hc (H.opened _ hr)
    | pending => exact H.open_step hW (H.pend _ hr hc)
  | _ => rw [hi] at h; exact h.elim

theorem PoolInv.thread_step (H : PoolInv W S) (hW : 0 < W) {i : Nat} (h : S.threads i ≠ .out) : ∃ S', S.Step b S' := by
  have hmx : ∀ s, S.MutexFree s ∨ ∃ S', S.Step b S' := by
    intro s
    by_cases h : S.MutexFree s
    · exact Or.inl h
    · simp only [Pool.MutexFree, Classical.not_forall, ne_eq, Classical.not_not] at h
      obtain ⟨k, h⟩ := h
      exact Or.inr (H.mutex_step hW h)
  cases hi : S.threads i with
  | out => exact absurd hi h
  | panicked => exact absurd hi (H.nopanic i)
  | inRow s r => exact PoolInv.reader_step hi
  | wantRow s r =>
    by_cases hw : S.NoWriter s
    · by_cases hn : S.NoWaiting s
      · exact ⟨_, .lockRow i s r hi hw fun _ => hn⟩
      · rcases Classical.not_and_iff_not_or_not.1 hn with hx | hx
        · simp only [Classical.not_forall, ne_eq, Classical.not_not] at hx
          obtain ⟨k, hx⟩ := hx
          exact H.mutex_step (s := s) hW (i := k) (by rw [hx]; rfl)
        · simp only [Classical.not_forall, ne_eq, Classical.not_not] at hx
          obtain ⟨k, j, hx⟩ := hx
          exact H.worker_step (w := k) (s := s) (j := j) (by rw [hx]; rfl)
    · simp only [Pool.NoWriter, Classical.not_forall, ne_eq, Classical.not_not] at hw
      obtain ⟨k, hw⟩ := hw
      exact H.writer_step hw
  | wantBegin s =>
    rcases hmx s with hm | hm
    · exact ⟨_, .beginMutex i s hi hm⟩
    · exact hm
  | wantWait s =>
    rcases hmx s with hm | hm
    · cases hh : S.handle s with
      | none => exact ⟨_, .waitNone i s hi hm hh⟩
      | some j => exact ⟨_, .waitTake i s j hi hm hh⟩
    · exact hm
  | hasMutex s => exact H.mutex_step (s := s) hW (i := i) (by rw [hi]; rfl)
  | deciding s => exact H.mutex_step (s := s) hW (i := i) (by rw [hi]; rfl)
  | collects s j => exact H.mutex_step (s := s) hW (i := i) (by rw [hi]; rfl)
  | creating s => exact H.mutex_step (s := s) hW (i := i) (by rw [hi]; rfl)
  | waits s j => exact H.mutex_step (s := s) hW (i := i) (by rw [hi]; rfl)

end

/-! ## Nothing goes on for ever -/

def TPc.weight : TPc → Nat
  | .out => 0
  | .wantRow _ _ => 2
  | .inRow _ _ => 1
  | .wantBegin _ => 206
  | .hasMutex _ => 205
  | .deciding _ => 204
  | .collects _ _ => 203
  | .creating _ => 202
  | .wantWait _ => 3
  | .waits _ _ => 2
  | .panicked => 0

def WPc.weight : WPc → Nat
  | .idle => 0
  | .got _ _ => 99
  | .working _ _ n => 98 - n
  | .renamed _ _ => 20
  | .sending _ _ _ => 10
  | .gone => 0

def Pool.measure (N W : Nat) (S : Pool) : Nat :=
  sumTo N (fun i => (S.threads i).weight) + sumTo W (fun w => (S.workers w).weight) + 100 * S.queue.length

theorem sumTo_fset {α : Type} {N : Nat} {f : Nat → α} {g : α → Nat} {i : Nat} {x : α} (hi : i < N) :
    sumTo N (fun k => g (fset f i x k)) + g (f i) = sumTo N (fun k => g (f k)) + g x := by
  have := sumTo_update (g := fun k => g (f k)) (h := fun k => g (fset f i x k)) (c := i) hi (fun k _ hk => by simp [fset, hk])
  simpa [fset] using this

theorem Pool.measure_thread {N W : Nat} {S S' : Pool} {i : Nat} {p : TPc} (hN : ∀ i, N ≤ i → S.threads i = .out) (ho : S.threads i ≠ .out)
    (ht : S'.threads = fset S.threads i p) (hw : S'.workers = S.workers) (hp : p.weight + 100 * S'.queue.length < (S.threads i).weight + 100 * S.queue.length) :
    S'.measure N W < S.measure N W := by
  have hi : i < N := Nat.lt_of_not_le fun h => ho (hN i h)
  have := sumTo_fset (f := S.threads) (g := TPc.weight) (x := p) hi
  simp only [Pool.measure, ht, hw]
  omega

theorem Pool.measure_worker {N W : Nat} {S S' : Pool} {w : Nat} {p : WPc} (hw : w < W)
    (ht : S'.workers = fset S.workers w p) (hs : S'.threads = S.threads) (hp : p.weight + 100 * S'.queue.length < (S.workers w).weight + 100 * S.queue.length) :
    S'.measure N W < S.measure N W := by
  have := sumTo_fset (f := S.workers) (g := WPc.weight) (x := p) hw
  simp only [Pool.measure, ht, hs]
  omega

theorem PoolInv.worker_lt {W : Nat} {S : Pool} (H : PoolInv W S) {w : Nat} (h : S.workers w ≠ .gone) : w < W :=
  Nat.lt_of_not_le fun e => h ((H.alive w).2 e)

theorem PoolInv.measure_step {W N : Nat} {b : Bool} {S S' : Pool} (H : PoolInv W S) (hN : ∀ i, N ≤ i → S.threads i = .out) (hs : S.Step b S') :
    S'.measure N W < S.measure N W := by
  cases hs with
  | collected i s j ok h hc =>
    refine Pool.measure_thread hN (by rw [h]; simp) rfl rfl ?_
    rw [h]
    cases ok <;> simp [TPc.weight]
  | next w s j q h hq =>
    refine Pool.measure_worker (H.worker_lt (by rw [h]; simp)) rfl rfl ?_
    rw [h, hq]
    simp only [WPc.weight, List.length_cons]
    omega
  | lock w s j h => exact Pool.measure_worker (H.worker_lt (by rw [h]; simp)) rfl rfl (by rw [h]; simp [WPc.weight])
  | unwrapFails w s j h => exact Pool.measure_worker (H.worker_lt (by rw [h]; simp)) rfl rfl (by rw [h]; simp [WPc.weight])
  | row w s j n h hn =>
    refine Pool.measure_worker (H.worker_lt (by rw [h]; simp)) rfl rfl ?_
    rw [h]
    have : n < 64 := hn
    simp only [WPc.weight]
    omega
  | fails w s j n h hn =>
    refine Pool.measure_worker (H.worker_lt (by rw [h]; simp)) rfl rfl ?_
    rw [h]
    have : n ≤ 64 := hn
    simp only [WPc.weight]
    omega
  | rename w s j h =>
    refine Pool.measure_worker (H.worker_lt (by rw [h]; simp)) rfl rfl ?_
    rw [h]
    simp only [WPc.weight]
    have : NUM_ROWS = 64 := rfl
    omega
  | swap w s j h => exact Pool.measure_worker (H.worker_lt (by rw [h]; simp)) rfl rfl (by rw [h]; simp [WPc.weight])
  | send w s j ok h => exact Pool.measure_worker (H.worker_lt (by rw [h]; simp)) rfl rfl (by rw [h]; simp [WPc.weight])
  | sendFails w s j ok h => exact Pool.measure_worker (H.worker_lt (by rw [h]; simp)) rfl rfl (by rw [h]; simp [WPc.weight])
  | submit i s w h =>
    refine Pool.measure_thread hN (by rw [h]; simp) rfl rfl ?_
    rw [h]
    simp only [TPc.weight, List.length_append, List.length_singleton]
    omega
  | lockRow i s r h => exact Pool.measure_thread hN (by rw [h]; simp) rfl rfl (by rw [h]; simp [TPc.weight])
  | unlockRow i s r h => exact Pool.measure_thread hN (by rw [h]; simp) rfl rfl (by rw [h]; simp [TPc.weight])
  | beginMutex i s h => exact Pool.measure_thread hN (by rw [h]; simp) rfl rfl (by rw [h]; simp [TPc.weight])
  | beginFiles i s h => exact Pool.measure_thread hN (by rw [h]; simp) rfl rfl (by rw [h]; simp [TPc.weight])
  | already i s h => exact Pool.measure_thread hN (by rw [h]; simp) rfl rfl (by rw [h]; simp [TPc.weight])
  | running i s j h => exact Pool.measure_thread hN (by rw [h]; simp) rfl rfl (by rw [h]; simp [TPc.weight])
  | noHandle i s h => exact Pool.measure_thread hN (by rw [h]; simp) rfl rfl (by rw [h]; simp [TPc.weight])
  | take i s j h => exact Pool.measure_thread hN (by rw [h]; simp) rfl rfl (by rw [h]; simp [TPc.weight])
  | noOld i s h => exact Pool.measure_thread hN (by rw [h]; simp) rfl rfl (by rw [h]; simp [TPc.weight])
  | collectedNone i s j h => exact Pool.measure_thread hN (by rw [h]; simp) rfl rfl (by rw [h]; simp [TPc.weight])
  | assertFails i s h => exact Pool.measure_thread hN (by rw [h]; simp) rfl rfl (by rw [h]; simp [TPc.weight])
  | createFails i s h => exact Pool.measure_thread hN (by rw [h]; simp) rfl rfl (by rw [h]; simp [TPc.weight])
  | submitFails i s h => exact Pool.measure_thread hN (by rw [h]; simp) rfl rfl (by rw [h]; simp [TPc.weight])
  | waitNone i s h => exact Pool.measure_thread hN (by rw [h]; simp) rfl rfl (by rw [h]; simp [TPc.weight])
  | waitTake i s j h => exact Pool.measure_thread hN (by rw [h]; simp) rfl rfl (by rw [h]; simp [TPc.weight])
  | waited i s j ok h => exact Pool.measure_thread hN (by rw [h]; simp) rfl rfl (by rw [h]; simp [TPc.weight])
  | waitedNone i s j h => exact Pool.measure_thread hN (by rw [h]; simp) rfl rfl (by rw [h]; simp [TPc.weight])

/-- Only a thread that is in the code changes. -/
theorem Pool.Step.out {b : Bool} {S S' : Pool} (hs : S.Step b S') {k : Nat} (hk : S.threads k = .out) : S'.threads k = .out := by
  cases hs
  all_goals first
    | exact hk
    | (rename_i i _ h _ _ ; exact hk)
    | skip
  all_goals
    dsimp only [fset]
    split
    · simp_all
    · exact hk

theorem Pool.Run.finite {W : Nat} {b : Bool} {S : Pool} (h : Pool.Run W b S) : ∃ N, ∀ i, N ≤ i → S.threads i = .out := by
  induction h with
  | init => exact ⟨0, fun _ _ => rfl⟩
  | @enter S S' _ hs ih =>
    obtain ⟨N, hN⟩ := ih
    have key : ∀ (i : Nat) (p : TPc), ∃ N, ∀ k, N ≤ k → fset S.threads i p k = .out := by
      intro i p
      refine ⟨max N (i + 1), fun k hk => ?_⟩
      have h1 : N ≤ k := by omega
      have h2 : k ≠ i := by omega
      simp only [fset, h2, if_false]
      exact hN k h1
    cases hs with
    | row i s r h => exact key i _
    | begin i s h => exact key i _
    | wait i s h => exact key i _
  | step _ hs ih =>
    obtain ⟨N, hN⟩ := ih
    exact ⟨N, fun i hi => hs.out (hN i hi)⟩

theorem Pool.Steps.bound {W N : Nat} {b : Bool} {n : Nat} {S S' : Pool} (hs : Pool.Steps b n S S') :
    PoolInv W S → (∀ i, N ≤ i → S.threads i = .out) → n + S'.measure N W ≤ S.measure N W ∧ PoolInv W S' := by
  induction hs with
  | refl S => exact fun H _ => ⟨by omega, H⟩
  | step h _ ih =>
    intro H hN
    obtain ⟨h1, h2⟩ := ih (H.step h) (fun i hi => h.out (hN i hi))
    have := H.measure_step hN h
    exact ⟨by omega, h2⟩

end Candy
