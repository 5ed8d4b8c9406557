import Verif.Model.Pool
/-!
# The invariant of the compaction threads
-/
namespace Candy

/-- The compaction a worker is busy with. -/
def WPc.job : WPc → Option (Nat × Job)
  | .idle => none
  | .got s j => some (s, j)
  | .working s j _ => some (s, j)
  | .renamed s j => some (s, j)
  | .sending s j _ => some (s, j)
  | .gone => none

/-- ... whose target has not become the file of the shard yet. -/
def WPc.early : WPc → Option (Nat × Job)
  | .got s j => some (s, j)
  | .working s j _ => some (s, j)
  | .renamed s j => some (s, j)
  | _ => none

/-- The compaction a thread waits for. -/
def TPc.awaits : TPc → Option (Nat × Job)
  | .collects s j => some (s, j)
  | .waits s j => some (s, j)
  | _ => none

/-- The result of the compaction has not been sent. -/
def Pool.Open (S : Pool) (p : Nat × Job) : Prop := p ∈ S.queue ∨ ∃ w, (S.workers w).job = some p
/-- The result of the compaction has not been received. -/
def Pool.Rcv (S : Pool) (p : Nat × Job) : Prop := S.handle p.1 = some p.2 ∨ ∃ i, (S.threads i).awaits = some p

structure PoolInv (W : Nat) (S : Pool) : Prop where
  mutex : ∀ s i i', (S.threads i).locks s → (S.threads i').locks s → i = i'
  write : ∀ s i, (S.threads i).writes s → S.NoReader s ∧ S.NoUpgradable s
  held : ∀ p, S.Open p → S.Rcv p ∧ S.chan p.2 = .pending
  jobH : ∀ s s' j, S.handle s = some j → S.handle s' = some j → s = s'
  jobHT : ∀ s s' j i, S.handle s = some j → (S.threads i).awaits ≠ some (s', j)
  jobT : ∀ i i' s s' j, (S.threads i).awaits = some (s, j) → (S.threads i').awaits = some (s', j) → i = i'
  free : ∀ s j, S.handle s = some j → ∀ i j', (S.threads i).awaits ≠ some (s, j')
  nodup : S.queue.Nodup
  apart : ∀ w p, (S.workers w).job = some p → p ∉ S.queue
  single : ∀ w w' p, (S.workers w).job = some p → (S.workers w').job = some p → w = w'
  fresh : ∀ p, S.Rcv p → p.2 < S.next
  pend : ∀ p, S.Rcv p → S.chan p.2 = .pending → S.Open p
  tgtq : ∀ p, p ∈ S.queue → S.target p.1 = true
  tgtw : ∀ w p, (S.workers w).early = some p → S.target p.1 = true
  sent : ∀ s w j, S.workers w = .sending s j true → S.target s = false
  done : ∀ p, S.Rcv p → S.chan p.2 = .ready true → S.target p.1 = false
  creat : ∀ i s, S.threads i = .creating s → S.handle s = none ∧ S.target s = false
  coll : ∀ i s j, S.threads i = .collects s j → S.target s = false ∨ S.chan j ≠ .pending
  opened : ∀ p, S.Rcv p → S.chan p.2 ≠ .closed
  nopanic : ∀ i, S.threads i ≠ .panicked
  alive : ∀ w, S.workers w = .gone ↔ W ≤ w
  rows : ∀ w s j n, S.workers w = .working s j n → n ≤ NUM_ROWS

attribute [local grind] fset TPc.locks TPc.writes WPc.upgradable WPc.job WPc.early TPc.awaits

theorem exists_awaits {f : Nat → TPc} {i : Nat} {x : TPc} {p : Nat × Job} :
    (∃ k, (fset f i x k).awaits = some p) ↔ x.awaits = some p ∨ ∃ k, k ≠ i ∧ (f k).awaits = some p := by
  constructor
  · rintro ⟨k, h⟩
    by_cases e : k = i
    · exact Or.inl (by simpa [fset, e] using h)
    · exact Or.inr ⟨k, e, by simpa [fset, e] using h⟩
  · rintro (h | ⟨k, e, h⟩)
    · exact ⟨i, by simpa [fset] using h⟩
    · exact ⟨k, by simpa [fset, e] using h⟩

theorem exists_job {f : Nat → WPc} {i : Nat} {x : WPc} {p : Nat × Job} :
    (∃ k, (fset f i x k).job = some p) ↔ x.job = some p ∨ ∃ k, k ≠ i ∧ (f k).job = some p := by
  constructor
  · rintro ⟨k, h⟩
    by_cases e : k = i
    · exact Or.inl (by simpa [fset, e] using h)
    · exact Or.inr ⟨k, e, by simpa [fset, e] using h⟩
  · rintro (h | ⟨k, e, h⟩)
    · exact ⟨i, by simpa [fset] using h⟩
    · exact ⟨k, by simpa [fset, e] using h⟩

theorem PoolInv.init (W : Nat) : PoolInv W (Pool.init W) := by
  unfold Pool.init
  constructor
  all_goals simp only [Pool.MutexFree, Pool.NoWriter, Pool.NoReader, Pool.NoUpgradable, Pool.Open, Pool.Rcv] at *
  all_goals grind

theorem PoolInv.enter {W : Nat} {S S' : Pool} (H : PoolInv W S) (hs : S.Enter S') : PoolInv W S' := by
  obtain ⟨a1,a2,a3,a4,a5,a6,a7,a8,a9,a10,a11,a12,a13,a14,a15,a16,a17,a18,a19,a20,a21,a22⟩ := H
  obtain ⟨wk, th, q, ch, nx, hd, tg, lg⟩ := S
  cases hs <;> constructor
  all_goals simp only [Pool.MutexFree, Pool.NoWriter, Pool.NoReader, Pool.NoUpgradable, Pool.Open, Pool.Rcv, exists_awaits, exists_job, Pool.Receiver, or_imp, forall_and, forall_exists_index, and_imp] at *
  all_goals grind

/-! ## Consequences -/

theorem TPc.locks_of_awaits {p : TPc} {s : Nat} {j : Job} (h : p.awaits = some (s, j)) : p.locks s := by cases p <;> grind
theorem TPc.locks_of_writes {p : TPc} {s : Nat} (h : p.writes s) : p.locks s := by cases p <;> grind
theorem WPc.job_of_early {p : WPc} {x : Nat × Job} (h : p.early = some x) : p.job = some x := by cases p <;> grind
theorem WPc.early_of_upgradable {p : WPc} {s : Nat} (h : p.upgradable s) : ∃ j, p.early = some (s, j) := by
  cases p with
  | working s' j n => exact ⟨j, by cases (show s' = s from h); rfl⟩
  | renamed s' j => exact ⟨j, by cases (show s' = s from h); rfl⟩
  | _ => exact absurd h (by simp [WPc.upgradable])

theorem PoolInv.one {W : Nat} {S : Pool} (H : PoolInv W S) {s : Nat} {j j' : Job} (h : S.Rcv (s, j)) (h' : S.Rcv (s, j')) : j = j' := by
  rcases h with h | ⟨i, h⟩ <;> rcases h' with h' | ⟨i', h'⟩
  · grind
  · exact absurd h' (H.free s j h i' j')
  · exact absurd h (H.free s j' h' i j)
  · have := H.mutex s i i' (TPc.locks_of_awaits h) (TPc.locks_of_awaits h')
    grind

/-- Nobody but a thread that has taken it, or the handle, has the compaction of a shard whose mutex is held. -/
theorem PoolInv.rcv_locked {W : Nat} {S : Pool} (H : PoolInv W S) {s : Nat} {j : Job} {i : Nat} (hl : (S.threads i).locks s) (h : S.Rcv (s, j)) :
    S.handle s = some j ∨ (S.threads i).awaits = some (s, j) := by
  rcases h with h | ⟨i', h⟩
  · exact Or.inl h
  · have := H.mutex s i i' hl (TPc.locks_of_awaits h)
    exact Or.inr (this ▸ h)

theorem PoolInv.not_rcv_creating {W : Nat} {S : Pool} (H : PoolInv W S) {s : Nat} {j : Job} {i : Nat} (h : S.threads i = .creating s) : ¬ S.Rcv (s, j) := by
  intro hr
  rcases H.rcv_locked (i := i) (by rw [h]; rfl) hr with e | e
  · rw [(H.creat i s h).1] at e; cases e
  · rw [h] at e; cases e

theorem PoolInv.open_unique {W : Nat} {S : Pool} (H : PoolInv W S) {s : Nat} {j j' : Job} (h : S.Open (s, j)) (h' : S.Open (s, j')) : j = j' :=
  H.one (H.held _ h).1 (H.held _ h').1

theorem PoolInv.open_job {W : Nat} {S : Pool} (H : PoolInv W S) {s s' : Nat} {j : Job} (h : S.Rcv (s, j)) (h' : S.Rcv (s', j)) : s = s' := by
  rcases h with h | ⟨i, h⟩ <;> rcases h' with h' | ⟨i', h'⟩
  · exact H.jobH _ _ _ h h'
  · exact absurd h' (H.jobHT _ _ _ _ h)
  · exact absurd h (H.jobHT _ _ _ _ h')
  · have := H.jobT _ _ _ _ _ h h'
    grind

theorem PoolInv.sender {W : Nat} {S : Pool} (H : PoolInv W S) {w s : Nat} {j : Job} (h : (S.workers w).job = some (s, j)) : S.Receiver j := by
  rcases (H.held (s, j) (Or.inr ⟨w, h⟩)).1 with e | ⟨i, e⟩
  · exact Or.inl ⟨s, e⟩
  · refine Or.inr ⟨i, s, ?_⟩
    revert e
    cases S.threads i <;> grind

/-! ## The steps -/

/-- Taking the handle. -/
theorem PoolInv.take {W : Nat} {S : Pool} (H : PoolInv W S) (i s : Nat) (j : Job) (p : TPc) (hp : p.awaits = some (s, j)) (hl : ∀ s', p.locks s' → s' = s)
    (hwr : ∀ s', p.writes s' → (S.threads i).writes s') (hno : (S.threads i).awaits = none) (hm : (S.threads i).locks s ∨ S.MutexFree s)
    (hc : ∀ s' j', p = .collects s' j' → S.target s' = false ∨ S.chan j' ≠ .pending) (hh : S.handle s = some j) :
    PoolInv W { S with threads := fset S.threads i p, handle := fset S.handle s none } := by
  have hR : ∀ x, Pool.Rcv { S with threads := fset S.threads i p, handle := fset S.handle s none } x ↔ S.Rcv x := by
    rintro ⟨s', j'⟩
    simp only [Pool.Rcv, exists_awaits]
    constructor
    · rintro (h | h | ⟨k, _, h⟩)
      · refine Or.inl ?_
        grind
      · rw [hp] at h
        cases h
        exact Or.inl hh
      · exact Or.inr ⟨k, h⟩
    · rintro (h | ⟨k, h⟩)
      · by_cases e : s' = s
        · subst e
          refine Or.inr (Or.inl ?_)
          rw [hp]
          rw [hh] at h
          cases h
          rfl
        · exact Or.inl (by grind)
      · refine Or.inr (Or.inr ⟨k, ?_, h⟩)
        intro e
        rw [e, hno] at h
        cases h
  obtain ⟨a1,a2,a3,a4,a5,a6,a7,a8,a9,a10,a11,a12,a13,a14,a15,a16,a17,a18,a19,a20,a21,a22⟩ := H
  constructor
  case held => exact fun x hx => ⟨(hR x).2 (a3 x hx).1, (a3 x hx).2⟩
  case fresh => exact fun x hx => a11 x ((hR x).1 hx)
  case pend => exact fun x hx => a12 x ((hR x).1 hx)
  case done => exact fun x hx => a16 x ((hR x).1 hx)
  case opened => exact fun x hx => a19 x ((hR x).1 hx)
  all_goals clear hR
  all_goals obtain ⟨wk, th, q, ch, nx, hd, tg, lg⟩ := S
  all_goals simp only [Pool.MutexFree, Pool.NoWriter, Pool.NoReader, Pool.NoUpgradable, Pool.Open, Pool.Rcv, exists_awaits, exists_job, Pool.Receiver, or_imp, forall_and, forall_exists_index, and_imp] at *
  all_goals grind

theorem PoolInv.swap {W : Nat} {S : Pool} (H : PoolInv W S) (w s : Nat) (j : Job) (h : S.workers w = .renamed s j) (hr : S.NoReader s) :
    PoolInv W { S with workers := fset S.workers w (.sending s j true), target := fset S.target s false } := by
  have hj : ∀ k, (fset S.workers w (.sending s j true) k).job = (S.workers k).job := by
    intro k
    by_cases e : k = w
    · simp [fset, e, h, WPc.job]
    · simp [fset, e]
  have hO : ∀ x, Pool.Open { S with workers := fset S.workers w (.sending s j true), target := fset S.target s false } x ↔ S.Open x := by
    intro x
    simp only [Pool.Open, hj]
  have hone : ∀ j', S.Open (s, j') → j' = j := fun j' hx => H.open_unique hx (Or.inr ⟨w, by rw [h]; rfl⟩)
  have ht : ∀ x, S.target x = false → fset S.target s false x = false := by grind
  have hap : ∀ x, x ∈ S.queue → x.1 ≠ s := by
    rintro ⟨s', j'⟩ hx e
    have e' : s' = s := e
    subst e'
    have := hone j' (Or.inl hx)
    subst this
    exact H.apart w (s', j') (by rw [h]; rfl) hx
  have hew : ∀ k x, k ≠ w → (S.workers k).early = some x → x.1 ≠ s := by
    rintro k ⟨s', j'⟩ hk hx e
    have e' : s' = s := e
    subst e'
    have := hone j' (Or.inr ⟨k, WPc.job_of_early hx⟩)
    subst this
    exact hk (H.single k w (s', j') (WPc.job_of_early hx) (by rw [h]; rfl))
  obtain ⟨a1,a2,a3,a4,a5,a6,a7,a8,a9,a10,a11,a12,a13,a14,a15,a16,a17,a18,a19,a20,a21,a22⟩ := H
  constructor
  case held => exact fun x hx => a3 x ((hO x).1 hx)
  case pend => exact fun x hx hc => (hO x).2 (a12 x hx hc)
  case apart => exact fun k x hx => a9 k x (hj k ▸ hx)
  case single => exact fun k k' x hx hx' => a10 k k' x (hj k ▸ hx) (hj k' ▸ hx')
  case fresh => exact a11
  case done => exact fun x hx hc => ht _ (a16 x hx hc)
  case opened => exact a19
  case jobH => exact a4
  case jobHT => exact a5
  case jobT => exact a6
  case free => exact a7
  all_goals clear hO hj
  all_goals obtain ⟨wk, th, q, ch, nx, hd, tg, lg⟩ := S
  all_goals simp only [Pool.MutexFree, Pool.NoWriter, Pool.NoReader, Pool.NoUpgradable, Pool.Open, Pool.Rcv, exists_awaits, exists_job, Pool.Receiver, or_imp, forall_and, forall_exists_index, and_imp] at *
  all_goals grind

theorem PoolInv.send {W : Nat} {S : Pool} (H : PoolInv W S) (w s : Nat) (j : Job) (b : Bool) (h : S.workers w = .sending s j b) :
    PoolInv W { S with workers := fset S.workers w .idle, chan := fset S.chan j (.ready b), log := S.log ++ [.ended j b] } := by
  have hw : (S.workers w).job = some (s, j) := by rw [h]; rfl
  have hop : S.Open (s, j) := Or.inr ⟨w, hw⟩
  have hO : ∀ x, Pool.Open { S with workers := fset S.workers w .idle, chan := fset S.chan j (.ready b), log := S.log ++ [.ended j b] } x ↔
      S.Open x ∧ x ≠ (s, j) := by
    intro x
    simp only [Pool.Open, exists_job]
    constructor
    · rintro (hx | hx | ⟨k, hk, hx⟩)
      · exact ⟨Or.inl hx, fun e => H.apart w (s, j) hw (e ▸ hx)⟩
      · cases hx
      · exact ⟨Or.inr ⟨k, hx⟩, fun e => hk (H.single k w (s, j) (e ▸ hx) hw)⟩
    · rintro ⟨hx | ⟨k, hx⟩, hne⟩
      · exact Or.inl hx
      · refine Or.inr (Or.inr ⟨k, ?_, hx⟩)
        intro e
        rw [e, hw] at hx
        exact hne (Option.some.inj hx).symm
  have hsame : ∀ x, S.Rcv x → x.2 = j → x = (s, j) := by
    rintro ⟨s', j'⟩ hx e
    have e' : j' = j := e
    subst e'
    rw [H.open_job hx (H.held _ hop).1]
  have hsent : b = true → S.target s = false := by
    rintro rfl
    exact H.sent s w j h
  obtain ⟨a1,a2,a3,a4,a5,a6,a7,a8,a9,a10,a11,a12,a13,a14,a15,a16,a17,a18,a19,a20,a21,a22⟩ := H
  constructor
  case held =>
    intro x hx
    obtain ⟨h1, h2⟩ := (hO x).1 hx
    refine ⟨(a3 x h1).1, ?_⟩
    have : x.2 ≠ j := fun e => h2 (hsame x (a3 x h1).1 e)
    have h3 := (a3 x h1).2
    simp only [fset, this, if_false]
    exact h3
  case pend =>
    intro x hx hc
    have : x.2 ≠ j := by
      intro e
      simp [fset, e] at hc
    simp only [fset, this, if_false] at hc
    refine (hO x).2 ⟨a12 x hx hc, fun e => this (by rw [e])⟩
  case done =>
    intro x hx hc
    by_cases e : x.2 = j
    · have hx' := hsame x hx e
      simp only [fset, e, if_true] at hc
      rw [hx']
      exact hsent (by simpa using hc)
    · simp only [fset, e, if_false] at hc
      exact a16 x hx hc
  case opened =>
    intro x hx
    by_cases e : x.2 = j
    · simp [fset, e]
    · simp only [fset, e, if_false]
      exact a19 x hx
  case jobH => exact a4
  case jobHT => exact a5
  case jobT => exact a6
  case free => exact a7
  case fresh => exact a11
  case coll =>
    intro i s' j' hc
    rcases a18 i s' j' hc with e | e
    · exact Or.inl e
    · refine Or.inr ?_
      by_cases e' : j' = j
      · simp [fset, e']
      · simp only [fset, e', if_false]
        exact e
  all_goals clear hO hsame
  all_goals obtain ⟨wk, th, q, ch, nx, hd, tg, lg⟩ := S
  all_goals simp only [Pool.MutexFree, Pool.NoWriter, Pool.NoReader, Pool.NoUpgradable, Pool.Open, Pool.Rcv, exists_awaits, exists_job, Pool.Receiver, or_imp, forall_and, forall_exists_index, and_imp] at *
  all_goals grind

theorem PoolInv.submitFails {W : Nat} {S : Pool} (H : PoolInv W S) (i s : Nat) (l : List PoolEv) (h : S.threads i = .creating s) (hw : ∀ w, S.workers w = .gone) :
    PoolInv W { S with threads := fset S.threads i .out, target := fset S.target s true, log := l } := by
  have hnr : ∀ x, S.Rcv x → x.1 ≠ s := by
    rintro ⟨s', j'⟩ hx e
    have e' : s' = s := e
    subst e'
    exact H.not_rcv_creating h hx
  have hR : ∀ x, Pool.Rcv { S with threads := fset S.threads i .out, target := fset S.target s true, log := l } x ↔ S.Rcv x := by
    intro x
    simp only [Pool.Rcv, exists_awaits]
    constructor
    · rintro (hx | hx | ⟨k, hk, hx⟩)
      · exact Or.inl hx
      · cases hx
      · exact Or.inr ⟨k, hx⟩
    · rintro (hx | ⟨k, hx⟩)
      · exact Or.inl hx
      · refine Or.inr (Or.inr ⟨k, ?_, hx⟩)
        intro e
        rw [e, h] at hx
        cases hx
  have hcr : ∀ k s', S.threads k = .creating s' → k ≠ i → s' ≠ s := by
    rintro k s' hk hne rfl
    exact hne (H.mutex s' k i (by rw [hk]; rfl) (by rw [h]; rfl))
  have hco : ∀ k s' j, S.threads k = .collects s' j → s' ≠ s := by
    rintro k s' j hk rfl
    have := H.mutex s' k i (by rw [hk]; rfl) (by rw [h]; rfl)
    rw [this, h] at hk
    cases hk
  obtain ⟨a1,a2,a3,a4,a5,a6,a7,a8,a9,a10,a11,a12,a13,a14,a15,a16,a17,a18,a19,a20,a21,a22⟩ := H
  constructor
  case held => exact fun x hx => ⟨(hR x).2 (a3 x hx).1, (a3 x hx).2⟩
  case fresh => exact fun x hx => a11 x ((hR x).1 hx)
  case pend => exact fun x hx => a12 x ((hR x).1 hx)
  case done =>
    intro x hx hc
    have h1 := hnr x ((hR x).1 hx)
    simp only [fset, h1, if_false]
    exact a16 x ((hR x).1 hx) hc
  case opened => exact fun x hx => a19 x ((hR x).1 hx)
  all_goals clear hR hnr
  all_goals obtain ⟨wk, th, q, ch, nx, hd, tg, lg⟩ := S
  all_goals simp only [Pool.MutexFree, Pool.NoWriter, Pool.NoReader, Pool.NoUpgradable, Pool.Open, Pool.Rcv, exists_awaits, exists_job, Pool.Receiver, or_imp, forall_and, forall_exists_index, and_imp] at *
  all_goals grind

theorem PoolInv.submit {W : Nat} {S : Pool} (H : PoolInv W S) (i s : Nat) (l : List PoolEv) (h : S.threads i = .creating s) :
    PoolInv W { S with threads := fset S.threads i .out, target := fset S.target s true, queue := S.queue ++ [(s, S.next)], handle := fset S.handle s (some S.next), chan := fset S.chan S.next .pending, next := S.next + 1, log := l } := by
  have hnr : ∀ x, S.Rcv x → x.1 ≠ s := by
    rintro ⟨s', j'⟩ hx e
    have e' : s' = s := e
    subst e'
    exact H.not_rcv_creating h hx
  have hfr : ∀ x, S.Rcv x → x.2 ≠ S.next := fun x hx => Nat.ne_of_lt (H.fresh x hx)
  have hhn : S.handle s = none := (H.creat i s h).1
  have hR : ∀ x, Pool.Rcv { S with threads := fset S.threads i .out, target := fset S.target s true, queue := S.queue ++ [(s, S.next)], handle := fset S.handle s (some S.next), chan := fset S.chan S.next .pending, next := S.next + 1, log := l } x ↔ x = (s, S.next) ∨ S.Rcv x := by
    rintro ⟨s', j'⟩
    simp only [Pool.Rcv, exists_awaits]
    constructor
    · rintro (hx | hx | ⟨k, hk, hx⟩)
      · by_cases e : s' = s
        · simp only [fset, e, if_true] at hx
          exact Or.inl (by cases hx; rw [e])
        · simp only [fset, e, if_false] at hx
          exact Or.inr (Or.inl hx)
      · cases hx
      · exact Or.inr (Or.inr ⟨k, hx⟩)
    · rintro (hx | hx | ⟨k, hx⟩)
      · cases hx
        exact Or.inl (by simp [fset])
      · refine Or.inl ?_
        have e : s' ≠ s := fun e => by rw [e, hhn] at hx; cases hx
        simp only [fset, e, if_false]
        exact hx
      · refine Or.inr (Or.inr ⟨k, ?_, hx⟩)
        intro e
        rw [e, h] at hx
        cases hx
  have hO : ∀ x, Pool.Open { S with threads := fset S.threads i .out, target := fset S.target s true, queue := S.queue ++ [(s, S.next)], handle := fset S.handle s (some S.next), chan := fset S.chan S.next .pending, next := S.next + 1, log := l } x ↔ x = (s, S.next) ∨ S.Open x := by
    intro x
    simp only [Pool.Open, List.mem_append, List.mem_singleton]
    constructor
    · rintro ((hx | hx) | hx)
      · exact Or.inr (Or.inl hx)
      · exact Or.inl hx
      · exact Or.inr (Or.inr hx)
    · rintro (hx | hx | hx)
      · exact Or.inl (Or.inr hx)
      · exact Or.inl (Or.inl hx)
      · exact Or.inr hx
  have hcr : ∀ k s', S.threads k = .creating s' → k ≠ i → s' ≠ s := by
    rintro k s' hk hne rfl
    exact hne (H.mutex s' k i (by rw [hk]; rfl) (by rw [h]; rfl))
  have hco : ∀ k s' j, S.threads k = .collects s' j → s' ≠ s := by
    rintro k s' j hk rfl
    have := H.mutex s' k i (by rw [hk]; rfl) (by rw [h]; rfl)
    rw [this, h] at hk
    cases hk
  have hno : ∀ x, S.Open x → x.1 ≠ s := fun x hx => hnr x (H.held x hx).1
  have hnw : ∀ k x, (S.workers k).job = some x → x ≠ (s, S.next) := fun k x hx e => hno x (Or.inr ⟨k, hx⟩) (by rw [e])
  have hnq : (s, S.next) ∉ S.queue := fun hx => hno _ (Or.inl hx) rfl
  have haw : ∀ k x, (S.threads k).awaits = some x → x.1 ≠ s ∧ x.2 ≠ S.next := fun k x hx => ⟨hnr x (Or.inr ⟨k, hx⟩), hfr x (Or.inr ⟨k, hx⟩)⟩
  have hha : ∀ s' j, S.handle s' = some j → j ≠ S.next := fun s' j hx => hfr (s', j) (Or.inl hx)
  have hse : ∀ w j, S.workers w ≠ .sending s j true := fun w j hx => hno (s, j) (Or.inr ⟨w, by rw [hx]; rfl⟩) rfl
  obtain ⟨a1,a2,a3,a4,a5,a6,a7,a8,a9,a10,a11,a12,a13,a14,a15,a16,a17,a18,a19,a20,a21,a22⟩ := H
  constructor
  case held =>
    intro x hx
    rcases (hO x).1 hx with e | hx
    · exact ⟨(hR x).2 (Or.inl e), by rw [e]; simp [fset]⟩
    · have h1 := hfr x (a3 x hx).1
      refine ⟨(hR x).2 (Or.inr (a3 x hx).1), ?_⟩
      simp only [fset, h1, if_false]
      exact (a3 x hx).2
  case fresh =>
    intro x hx
    rcases (hR x).1 hx with e | hx
    · rw [e]
      exact Nat.lt_succ_self _
    · exact Nat.lt_succ_of_lt (a11 x hx)
  case pend =>
    intro x hx hc
    rcases (hR x).1 hx with e | hx
    · exact (hO x).2 (Or.inl e)
    · have h1 := hfr x hx
      simp only [fset, h1, if_false] at hc
      exact (hO x).2 (Or.inr (a12 x hx hc))
  case done =>
    intro x hx hc
    rcases (hR x).1 hx with e | hx
    · rw [e] at hc
      simp [fset] at hc
    · have h1 := hnr x hx
      have h2 := hfr x hx
      simp only [fset, h1, h2, if_false] at hc ⊢
      exact a16 x hx hc
  case opened =>
    intro x hx
    rcases (hR x).1 hx with e | hx
    · rw [e]
      simp [fset]
    · have h2 := hfr x hx
      simp only [fset, h2, if_false]
      exact a19 x hx
  case nodup => exact List.nodup_append.2 ⟨a8, by simp, by simp only [List.mem_singleton]; rintro a ha b rfl rfl; exact hnq ha⟩
  case apart =>
    intro k x hx hq
    rcases List.mem_append.1 hq with hq | hq
    · exact a9 k x hx hq
    · exact hnw k x hx (List.mem_singleton.1 hq)
  case tgtq =>
    intro x hx
    rcases List.mem_append.1 hx with hx | hx
    · by_cases e : x.1 = s
      · simp [fset, e]
      · simp only [fset, e, if_false]
        exact a13 x hx
    · rw [List.mem_singleton.1 hx]
      simp [fset]
  all_goals clear hR hnr hO hfr hno
  all_goals obtain ⟨wk, th, q, ch, nx, hd, tg, lg⟩ := S
  all_goals simp only [Pool.MutexFree, Pool.NoWriter, Pool.NoReader, Pool.NoUpgradable, Pool.Open, Pool.Rcv, exists_awaits, exists_job, Pool.Receiver, or_imp, forall_and, forall_exists_index, and_imp] at *
  all_goals grind

theorem PoolInv.collected {W : Nat} {S : Pool} (H : PoolInv W S) (i s : Nat) (j : Job) (b : Bool) (l : List PoolEv) (h : S.threads i = .collects s j) (hc : S.chan j = .ready b) :
    PoolInv W { S with threads := fset S.threads i (if b then .creating s else .out), log := l } := by
  have hd : b = true → S.target s = false := fun e => H.done (s, j) (Or.inr ⟨i, by rw [h]; rfl⟩) (by rw [hc, e])
  have hn : S.handle s = none := by
    cases e : S.handle s with
    | none => rfl
    | some j' => exact absurd (by rw [h]; rfl) (H.free s j' e i j)
  obtain ⟨a1,a2,a3,a4,a5,a6,a7,a8,a9,a10,a11,a12,a13,a14,a15,a16,a17,a18,a19,a20,a21,a22⟩ := H
  obtain ⟨wk, th, q, ch, nx, hd, tg, lg⟩ := S
  cases b
  all_goals constructor
  all_goals simp only [Pool.MutexFree, Pool.NoWriter, Pool.NoReader, Pool.NoUpgradable, Pool.Open, Pool.Rcv, exists_awaits, exists_job, Pool.Receiver, or_imp, forall_and, forall_exists_index, and_imp] at *
  all_goals grind

set_option maxHeartbeats 4000000 in
/-- Every step preserves the invariant. -/
theorem PoolInv.step {W : Nat} {S S' : Pool} {b : Bool} (H : PoolInv W S) (hs : S.Step b S') : PoolInv W S' := by
  cases hs with
  | take i s j h ht hh =>
    refine H.take i s j _ rfl (fun s' e => (show s = s' from e).symm) (fun s' e => by rw [h]; exact e) (by rw [h]; rfl) (Or.inl (by rw [h]; rfl)) ?_ hh
    intro s' j' e
    cases e
    exact ht.imp id (fun ⟨b, hb⟩ => by rw [hb]; simp)
  | waitTake i s j h hm hh =>
    exact H.take i s j _ rfl (fun s' e => (show s = s' from e).symm) (fun s' e => e.elim) (by rw [h]; rfl) (Or.inr hm) (fun s' j' e => by cases e) hh
  | collected i s j b h hc => exact H.collected i s j b _ h hc
  | submit i s w h ht hw => exact H.submit i s _ h
  | submitFails i s h ht hw => exact H.submitFails i s _ h hw
  | unwrapFails w s j h hw hu ht =>
    have := H.tgtw w (s, j) (by rw [h]; rfl)
    rw [ht] at this
    cases this
  | sendFails w s j b h hr => exact absurd (H.sender (by rw [h]; rfl)) hr
  | swap w s j h hr => exact H.swap w s j h hr
  | send w s j b h hr => exact H.send w s j b h
  | assertFails i s h ht =>
    have := (H.creat i s h).2
    rw [ht] at this
    cases this
  | _ =>
    obtain ⟨a1,a2,a3,a4,a5,a6,a7,a8,a9,a10,a11,a12,a13,a14,a15,a16,a17,a18,a19,a20,a21,a22⟩ := H
    obtain ⟨wk, th, q, ch, nx, hd, tg, lg⟩ := S
    constructor
    all_goals simp only [Pool.MutexFree, Pool.NoWriter, Pool.NoReader, Pool.NoUpgradable, Pool.Open, Pool.Rcv, exists_awaits, exists_job, Pool.Receiver, or_imp, forall_and, forall_exists_index, and_imp] at *
    all_goals grind

theorem PoolInv.of_run {W : Nat} {b : Bool} {S : Pool} (h : Pool.Run W b S) : PoolInv W S := by
  induction h with
  | init => exact PoolInv.init W
  | enter _ hs ih => exact ih.enter hs
  | step _ hs ih => exact ih.step hs

end Candy
