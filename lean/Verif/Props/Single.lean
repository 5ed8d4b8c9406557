import Verif.Model.Single
import Verif.Model.Names
/-!
# C86: one store at a time
-/
namespace Candy

theorem at_same {α : Type} (f : Nat → α) (i : Nat) (x : α) : at_ f i x i = x := if_pos rfl

theorem at_other {α : Type} (f : Nat → α) {i j : Nat} (x : α) (h : j ≠ i) : at_ f i x j = f j := if_neg h

/-- The store is at work, or may be. -/
def StorePhase.active : StorePhase → Prop
  | .opening | .open | .closing => True
  | _ => False

/-- A store at work holds the lock, its compactions belong to `Shard` objects it still has, and it has these only while it is open or being closed. -/
structure Single.Inv (S : Single) : Prop where
  lock : ∀ i, (S.phase i).active → S.holder = some i
  holds : ∀ i, S.holder = some i → (S.phase i).active
  run : ∀ i s, S.running i s = true → s ∈ S.shards i
  objs : ∀ i, S.shards i ≠ [] → S.phase i = .open ∨ S.phase i = .closing

theorem Single.Inv.init : Single.init.Inv :=
  ⟨fun _ h => h.elim, (fun _ h => by cases h), (fun _ _ h => by cases h), fun _ h => absurd rfl h⟩

theorem Single.Inv.step {S S' : Single} {e : Spec.DirEv} (h : S.Inv) (hs : S.Step e S') : S'.Inv := by
  obtain ⟨h1, h2, h3, h4⟩ := h
  have act : ∀ i, (S.phase i = .opening ∨ S.phase i = .open ∨ S.phase i = .closing) → S.holder = some i := fun i hi => h1 i (by
    rcases hi with hi | hi | hi <;> rw [hi] <;> trivial)
  cases hs with
  | lock i hp hl =>
    have hn : S.shards i = [] := by
      rcases Classical.em (S.shards i = []) with e | e
      · exact e
      · rcases h4 i e with x | x <;> rw [hp] at x <;> cases x
    refine ⟨fun j hj => ?_, fun j hj => ?_, h3, fun j hj => ?_⟩
    · by_cases e : j = i
      · rw [e]
      · dsimp only at hj
        rw [at_other _ _ e] at hj
        have := h1 j hj
        rw [hl] at this; cases this
    · simp only [Option.some.injEq] at hj
      dsimp only
      rw [hj, at_same]; trivial
    · by_cases e : j = i
      · rw [e] at hj; exact absurd hn hj
      · dsimp only; rw [at_other _ _ e]; exact h4 j hj
  | noLock i hp =>
    have hn : S.shards i = [] := by
      rcases Classical.em (S.shards i = []) with e | e
      · exact e
      · rcases h4 i e with x | x <;> rw [hp] at x <;> cases x
    refine ⟨fun j hj => ?_, fun j hj => ?_, h3, fun j hj => ?_⟩
    · by_cases e : j = i
      · dsimp only at hj; rw [e, at_same] at hj; exact hj.elim
      · dsimp only at hj; rw [at_other _ _ e] at hj; exact h1 j hj
    · by_cases e : j = i
      · have := h2 j hj; rw [e, hp] at this; exact this.elim
      · dsimp only; rw [at_other _ _ e]; exact h2 j hj
    · by_cases e : j = i
      · rw [e] at hj; exact absurd hn hj
      · dsimp only; rw [at_other _ _ e]; exact h4 j hj
  | refuse i hp hl =>
    have hn : S.shards i = [] := by
      rcases Classical.em (S.shards i = []) with e | e
      · exact e
      · rcases h4 i e with x | x <;> rw [hp] at x <;> cases x
    refine ⟨fun j hj => ?_, fun j hj => ?_, h3, fun j hj => ?_⟩
    · by_cases e : j = i
      · dsimp only at hj; rw [e, at_same] at hj; exact hj.elim
      · dsimp only at hj; rw [at_other _ _ e] at hj; exact h1 j hj
    · by_cases e : j = i
      · have := h2 j hj; rw [e, hp] at this; exact this.elim
      · dsimp only; rw [at_other _ _ e]; exact h2 j hj
    · by_cases e : j = i
      · rw [e] at hj; exact absurd hn hj
      · dsimp only; rw [at_other _ _ e]; exact h4 j hj
  | load i hp => exact ⟨h1, h2, h3, h4⟩
  | call i hp => exact ⟨h1, h2, h3, h4⟩
  | work i s hr => exact ⟨h1, h2, h3, h4⟩
  | fail i hp =>
    have hh := act i (.inl hp)
    have hn : S.shards i = [] := by
      rcases Classical.em (S.shards i = []) with e | e
      · exact e
      · rcases h4 i e with x | x <;> rw [hp] at x <;> cases x
    refine ⟨fun j hj => ?_, (fun j hj => by cases hj), h3, fun j hj => ?_⟩
    · by_cases e : j = i
      · dsimp only at hj; rw [e, at_same] at hj; exact hj.elim
      · dsimp only at hj; rw [at_other _ _ e] at hj
        have := h1 j hj
        rw [hh] at this
        exact absurd (Option.some.inj this).symm e
    · by_cases e : j = i
      · rw [e] at hj; exact absurd hn hj
      · dsimp only; rw [at_other _ _ e]; exact h4 j hj
  | opened i l hp =>
    have hh := act i (.inl hp)
    have hn : S.shards i = [] := by
      rcases Classical.em (S.shards i = []) with e | e
      · exact e
      · rcases h4 i e with x | x <;> rw [hp] at x <;> cases x
    refine ⟨fun j hj => ?_, fun j hj => ?_, fun j s hj => ?_, fun j hj => ?_⟩
    · by_cases e : j = i
      · rw [e]; exact hh
      · dsimp only at hj; rw [at_other _ _ e] at hj; exact h1 j hj
    · by_cases e : j = i
      · dsimp only; rw [e, at_same]; trivial
      · dsimp only; rw [at_other _ _ e]; exact h2 j hj
    · by_cases e : j = i
      · rw [e] at hj; have := h3 i s hj; rw [hn] at this; cases this
      · dsimp only; rw [at_other _ _ e]; exact h3 j s hj
    · by_cases e : j = i
      · dsimp only; rw [e, at_same]; exact .inl rfl
      · dsimp only at hj ⊢; rw [at_other _ _ e] at hj ⊢; exact h4 j hj
  | submit i s hp hm =>
    refine ⟨h1, h2, fun j x hj => ?_, h4⟩
    dsimp only at hj ⊢
    by_cases e : j = i
    · rw [e, at_same] at hj
      by_cases ex : x = s
      · rw [e, ex]; exact hm
      · rw [at_other _ _ ex] at hj; rw [e]; exact h3 i x hj
    · rw [at_other _ _ e] at hj; exact h3 j x hj
  | sent i s hr =>
    refine ⟨h1, h2, fun j x hj => ?_, h4⟩
    dsimp only at hj ⊢
    by_cases e : j = i
    · rw [e, at_same] at hj
      by_cases ex : x = s
      · rw [ex, at_same] at hj; cases hj
      · rw [at_other _ _ ex] at hj; rw [e]; exact h3 i x hj
    · rw [at_other _ _ e] at hj; exact h3 j x hj
  | create i s hp =>
    refine ⟨h1, h2, fun j x hj => ?_, fun j hj => ?_⟩
    · dsimp only at hj ⊢
      by_cases e : j = i
      · rw [e] at hj ⊢; rw [at_same]; exact List.mem_cons_of_mem _ (h3 i x hj)
      · rw [at_other _ _ e]; exact h3 j x hj
    · dsimp only at hj ⊢
      by_cases e : j = i
      · rw [e]; exact .inl hp
      · rw [at_other _ _ e] at hj; exact h4 j hj
  | drop i s hp hr =>
    refine ⟨h1, h2, fun j x hj => ?_, fun j hj => ?_⟩
    · dsimp only at hj ⊢
      by_cases e : j = i
      · rw [e] at hj ⊢
        rw [at_same, List.mem_filter]
        refine ⟨h3 i x hj, decide_eq_true (fun ex => ?_)⟩
        rw [ex, hr] at hj; cases hj
      · rw [at_other _ _ e]; exact h3 j x hj
    · dsimp only at hj ⊢
      by_cases e : j = i
      · rw [e]; exact hp
      · rw [at_other _ _ e] at hj; exact h4 j hj
  | close i hp =>
    refine ⟨fun j hj => ?_, fun j hj => ?_, h3, fun j hj => ?_⟩
    · dsimp only at hj ⊢
      by_cases e : j = i
      · rw [e]; exact act i (.inr (.inl hp))
      · rw [at_other _ _ e] at hj; exact h1 j hj
    · dsimp only at hj ⊢
      by_cases e : j = i
      · rw [e, at_same]; trivial
      · rw [at_other _ _ e]; exact h2 j hj
    · dsimp only at hj ⊢
      by_cases e : j = i
      · rw [e, at_same]; exact .inr rfl
      · rw [at_other _ _ e]; exact h4 j hj
  | unlock i hp hn =>
    have hh := act i (.inr (.inr hp))
    refine ⟨fun j hj => ?_, (fun j hj => by cases hj), h3, fun j hj => ?_⟩
    · by_cases e : j = i
      · dsimp only at hj; rw [e, at_same] at hj; exact hj.elim
      · dsimp only at hj; rw [at_other _ _ e] at hj
        have := h1 j hj
        rw [hh] at this
        exact absurd (Option.some.inj this).symm e
    · by_cases e : j = i
      · rw [e] at hj; exact absurd hn hj
      · dsimp only; rw [at_other _ _ e]; exact h4 j hj
  | die i hp =>
    refine ⟨fun j hj => ?_, fun j hj => ?_, fun j s hj => ?_, fun j hj => ?_⟩
    · dsimp only at hj ⊢
      by_cases e : j = i
      · rw [e, at_same] at hj; exact hj.elim
      · rw [at_other _ _ e] at hj
        have := h1 j hj
        rw [this, if_neg (fun x => e (Option.some.inj x))]
    · dsimp only at hj ⊢
      by_cases e : j = i
      · by_cases ho : S.holder = some i
        · rw [if_pos ho] at hj; cases hj
        · rw [if_neg ho, e] at hj; exact absurd hj ho
      · rw [at_other _ _ e]
        by_cases ho : S.holder = some i
        · rw [if_pos ho] at hj; cases hj
        · rw [if_neg ho] at hj; exact h2 j hj
    · dsimp only at hj ⊢
      by_cases e : j = i
      · rw [e, at_same] at hj; cases hj
      · rw [at_other _ _ e] at hj ⊢; exact h3 j s hj
    · dsimp only at hj ⊢
      by_cases e : j = i
      · rw [e, at_same] at hj; exact absurd rfl hj
      · rw [at_other _ _ e] at hj ⊢; exact h4 j hj

theorem Single.Inv.run_ {S S' : Single} {tr : List Spec.DirEv} (h : S.Inv) (hr : Single.Run S tr S') : S'.Inv := by
  induction hr with
  | nil => exact h
  | step hs _ ih => exact ih (h.step hs)

theorem Single.Run.split {S S' : Single} : ∀ {a b : List Spec.DirEv}, Single.Run S (a ++ b) S' → ∃ M, Single.Run S a M ∧ Single.Run M b S'
  | [], _, h => ⟨S, .nil S, h⟩
  | _ :: _, _, .step hs hr => by
    obtain ⟨M, h1, h2⟩ := hr.split
    exact ⟨M, .step hs h1, h2⟩

/-- Who accesses files has the lock. -/
theorem Single.Inv.touch {S S' : Single} {i : Nat} (h : S.Inv) (hs : S.Step (.touch i) S') : S.holder = some i ∧ S' = S := by
  cases hs with
  | load _ hp => exact ⟨h.lock i (by rw [hp]; trivial), rfl⟩
  | call _ hp => exact ⟨h.lock i (by rw [hp]; trivial), rfl⟩
  | work _ s hr =>
    refine ⟨h.lock i ?_, rfl⟩
    rcases h.objs i (List.ne_nil_of_mem (h.run i s hr)) with e | e <;> rw [e] <;> trivial

theorem Single.Inv.opened {S S' : Single} {i : Nat} (h : S.Inv) (hs : S.Step (.opened i) S') : S.holder = some i ∧ S'.holder = some i := by
  cases hs with
  | opened _ l hp => have := h.lock i (by rw [hp]; trivial); exact ⟨this, this⟩

/-- A store that is gone stays gone. -/
theorem Single.Step.gone {S S' : Single} {e : Spec.DirEv} {i : Nat} (hs : S.Step e S') (h : S.phase i = .gone) : S'.phase i = .gone := by
  have key : ∀ (j : Nat) (x : StorePhase), (S.phase j ≠ .gone ∨ x = .gone) → at_ S.phase j x i = .gone := fun j x hj => by
    by_cases e : i = j
    · rw [e, at_same]
      rcases hj with hj | hj
      · exact absurd (e ▸ h) hj
      · exact hj
    · rw [at_other _ _ e]; exact h
  cases hs with
  | lock j hp => exact key j _ (.inl (by rw [hp]; intro x; cases x))
  | refuse j hp => exact key j _ (.inr rfl)
  | noLock j hp => exact key j _ (.inr rfl)
  | load j hp => exact h
  | fail j hp => exact key j _ (.inr rfl)
  | opened j l hp => exact key j _ (.inl (by rw [hp]; intro x; cases x))
  | call j hp => exact h
  | submit j s hp => exact h
  | work j s hp => exact h
  | sent j s hp => exact h
  | create j s hp => exact h
  | drop j s hp => exact h
  | close j hp => exact key j _ (.inl (by rw [hp]; intro x; cases x))
  | unlock j hp => exact key j _ (.inr rfl)
  | die j hp => exact key j _ (.inr rfl)

theorem Single.Run.gone {S S' : Single} {tr : List Spec.DirEv} {i : Nat} (hr : Single.Run S tr S') (hI : S.Inv) (h : S.phase i = .gone) : .touch i ∉ tr := by
  induction hr with
  | nil => exact List.not_mem_nil
  | step hs _ ih =>
    intro hm
    rcases List.mem_cons.1 hm with e | e
    · rw [← e] at hs
      have := hI.holds i (hI.touch hs).1
      rw [h] at this; exact this
    · exact ih (hI.step hs) (hs.gone h) e

/-- A store keeps the lock until it is closed, its `open` fails or its process dies; then it is gone. -/
theorem Single.Inv.keep {S S' : Single} {e : Spec.DirEv} {i : Nat} (hI : S.Inv) (h : S.holder = some i) (hs : S.Step e S') :
    S'.holder = some i ∨ (S'.phase i = .gone ∧ (e = .closed i ∨ e = .died i ∨ e = .failed i)) := by
  have own : ∀ j, (S.phase j).active → j = i := fun j hj => by
    have := hI.lock j hj
    rw [h] at this; exact (Option.some.inj this).symm
  cases hs with
  | lock j hp hl => rw [h] at hl; cases hl
  | refuse j hp => exact .inl h
  | noLock j hp => exact .inl h
  | load j hp => exact .inl h
  | fail j hp => obtain rfl := own j (by rw [hp]; trivial); exact .inr ⟨at_same _ _ _, .inr (.inr rfl)⟩
  | opened j l hp => exact .inl h
  | call j hp => exact .inl h
  | submit j s hp => exact .inl h
  | work j s hp => exact .inl h
  | sent j s hp => exact .inl h
  | create j s hp => exact .inl h
  | drop j s hp => exact .inl h
  | close j hp => exact .inl h
  | unlock j hp => obtain rfl := own j (by rw [hp]; trivial); exact .inr ⟨at_same _ _ _, .inl rfl⟩
  | die j hp =>
    by_cases e : j = i
    · subst e; exact .inr ⟨at_same _ _ _, .inr (.inl rfl)⟩
    · exact .inl ((if_neg (fun x => e (Option.some.inj (x.symm.trans h)))).trans h)

theorem Single.Run.keep {S S' : Single} {tr : List Spec.DirEv} {i : Nat} (hr : Single.Run S tr S') (hI : S.Inv) (h : S.holder = some i) :
    S'.holder = some i ∨ (S'.phase i = .gone ∧ (.closed i ∈ tr ∨ .died i ∈ tr ∨ .failed i ∈ tr)) := by
  induction hr with
  | nil => exact .inl h
  | @step S M S' e tr hs hr ih =>
    rcases hI.keep h hs with k | ⟨k, ke⟩
    · rcases ih (hI.step hs) k with k' | ⟨k', ke'⟩
      · exact .inl k'
      · refine .inr ⟨k', ?_⟩
        rcases ke' with x | x | x
        · exact .inl (List.mem_cons_of_mem _ x)
        · exact .inr (.inl (List.mem_cons_of_mem _ x))
        · exact .inr (.inr (List.mem_cons_of_mem _ x))
    · refine .inr ⟨?_, ?_⟩
      · clear ih ke h
        have hI' := hI.step hs
        clear hs hI
        induction hr with
        | nil => exact k
        | step hs _ ih => exact ih (hs.gone k) (hI'.step hs)
      · rcases ke with x | x | x <;> subst x
        · exact .inl List.mem_cons_self
        · exact .inr (.inl List.mem_cons_self)
        · exact .inr (.inr List.mem_cons_self)

/-- A store that has been opened does not fail to open. -/
theorem Single.Run.no_failed {S S' : Single} {tr : List Spec.DirEv} {i : Nat} (hr : Single.Run S tr S')
    (h : S.phase i = .open ∨ S.phase i = .closing ∨ S.phase i = .gone) : .failed i ∉ tr := by
  induction hr with
  | nil => exact List.not_mem_nil
  | @step S M S' e tr hs _ ih =>
    have key : ∀ (j : Nat) (x : StorePhase), (j = i → x = .open ∨ x = .closing ∨ x = .gone) →
        at_ S.phase j x i = .open ∨ at_ S.phase j x i = .closing ∨ at_ S.phase j x i = .gone := fun j x hx => by
      by_cases e : i = j
      · rw [e, at_same]; exact hx e.symm
      · rw [at_other _ _ e]; exact h
    have hM : (M.phase i = .open ∨ M.phase i = .closing ∨ M.phase i = .gone) ∧ e ≠ .failed i := by
      cases hs with
      | lock j hp => exact ⟨key j _ (fun e => by subst e; rw [hp] at h; rcases h with x | x | x <;> cases x), fun x => by cases x⟩
      | refuse j hp => exact ⟨key j _ (fun _ => .inr (.inr rfl)), fun x => by cases x⟩
      | noLock j hp => exact ⟨key j _ (fun _ => .inr (.inr rfl)), fun x => by cases x; rw [hp] at h; rcases h with x | x | x <;> cases x⟩
      | load j hp => exact ⟨h, fun x => by cases x⟩
      | fail j hp => exact ⟨key j _ (fun _ => .inr (.inr rfl)), fun x => by cases x; rw [hp] at h; rcases h with x | x | x <;> cases x⟩
      | opened j l hp => exact ⟨key j _ (fun _ => .inl rfl), fun x => by cases x⟩
      | call j hp => exact ⟨h, fun x => by cases x⟩
      | submit j s hp => exact ⟨h, fun x => by cases x⟩
      | work j s hp => exact ⟨h, fun x => by cases x⟩
      | sent j s hp => exact ⟨h, fun x => by cases x⟩
      | create j s hp => exact ⟨h, fun x => by cases x⟩
      | drop j s hp => exact ⟨h, fun x => by cases x⟩
      | close j hp => exact ⟨key j _ (fun _ => .inr (.inl rfl)), fun x => by cases x⟩
      | unlock j hp => exact ⟨key j _ (fun _ => .inr (.inr rfl)), fun x => by cases x⟩
      | die j hp => exact ⟨key j _ (fun _ => .inr (.inr rfl)), fun x => by cases x⟩
    intro hm
    rcases List.mem_cons.1 hm with e' | e'
    · exact hM.2 e'.symm
    · exact ih hM.1 e'

namespace Props
open Spec

/-- **C86.** For any number of calls of `open` on a directory, in any number of threads and processes, and all schedules of their calls and of their compaction threads: the accesses of different stores to the files of the
directory do not alternate; while a store is open no other is; and after a store has been closed, or its process has died, or `open` has returned an error, nothing of it accesses the directory any more. -/
theorem C86_one_store_at_a_time {S : Single} {tr : List DirEv} (h : Single.Run .init tr S) : Exclusive tr ∧ SoleOwner tr ∧ Final tr := by
  have hI := Single.Inv.init
  refine ⟨fun a b c i j e hij hm => ?_, fun a b c i j e he hj hij => ?_, fun a c i e he hk hm => ?_⟩
  · subst e
    obtain ⟨M, r1, r2⟩ := h.split
    have I1 := hI.run_ r1
    cases r2 with
    | step s1 r2 =>
      obtain ⟨M2, r3, r4⟩ := r2.split
      have t1 := I1.touch s1
      have I2 := I1.step s1
      have I3 := I2.run_ r3
      cases r4 with
      | step s2 r4 =>
        have t2 := I3.touch s2
        rcases r3.keep I2 (by rw [t1.2]; exact t1.1) with k | ⟨k, _⟩
        · rw [t2.1] at k; exact hij (Option.some.inj k).symm
        · exact r4.gone (I3.step s2) (s2.gone k) hm
  · subst he
    obtain ⟨M, r1, r2⟩ := h.split
    have I1 := hI.run_ r1
    cases r2 with
    | step s1 r2 =>
      obtain ⟨M2, r3, r4⟩ := r2.split
      have I2 := I1.step s1
      have I3 := I2.run_ r3
      cases r4 with
      | step s2 r4 =>
        have hh : M2.holder = some j := by
          rcases hj with x | x
          · subst x; exact (I3.opened s2).1
          · subst x; exact (I3.touch s2).1
        have hnf : .failed i ∉ b := by
          refine r3.no_failed ?_
          cases s1 with
          | opened _ l hp => exact .inl (at_same _ _ _)
        rcases r3.keep I2 (I1.opened s1).2 with k | ⟨_, k⟩
        · rw [hh] at k; exact absurd (Option.some.inj k).symm hij
        · rcases k with k | k | k
          · exact .inl k
          · exact .inr k
          · exact absurd k hnf
  · subst he
    obtain ⟨M, r1, r2⟩ := h.split
    have I1 := hI.run_ r1
    cases r2 with
    | step s1 r2 =>
      refine r2.gone (I1.step s1) ?_ hm
      rcases hk with x | x | x | x <;> subst x <;> cases s1 <;> exact at_same _ _ _

/-- **C86**, refusals: `open` returns the error about the lock file only if another store of the directory is open at that moment: it has begun to open and has neither been closed nor failed nor died. -/
theorem C86_refused_only_if_open {S S' : Single} {tr : List DirEv} {i : Nat} (h : Single.Run .init tr S) (hs : S.Step (.refused i) S') :
    ∃ j, j ≠ i ∧ (S.phase j = .opening ∨ S.phase j = .open ∨ S.phase j = .closing) ∧ .closed j ∉ tr ∧ .failed j ∉ tr ∧ .died j ∉ tr := by
  have hI := Single.Inv.init.run_ h
  cases hs with
  | refuse _ hp hl =>
    cases hh : S.holder with
    | none => exact absurd hh hl
    | some j =>
      have ha := hI.holds j hh
      have hng : S.phase j ≠ .gone := fun e => by rw [e] at ha; exact ha
      have hno : ∀ e : DirEv, (e = .closed j ∨ e = .died j ∨ e = .failed j) → e ∉ tr := fun e he hm => by
        obtain ⟨a, c, rfl⟩ := List.append_of_mem hm
        obtain ⟨M, _, r2⟩ := h.split
        cases r2 with
        | step s1 r2 =>
          have g : ∀ {T T' : Single} {tr : List DirEv}, Single.Run T tr T' → T.phase j = .gone → T'.phase j = .gone := fun hr => by
            induction hr with
            | nil => exact id
            | step hs _ ih => exact fun hg => ih (hs.gone hg)
          refine hng (g r2 ?_)
          rcases he with x | x | x <;> subst x <;> cases s1 <;> exact at_same _ _ _
      refine ⟨j, fun e => by rw [e, hp] at ha; exact ha, ?_, hno _ (.inl rfl), hno _ (.inr (.inr rfl)), hno _ (.inr (.inl rfl))⟩
      cases hp' : S.phase j with
      | idle => rw [hp'] at ha; exact ha.elim
      | gone => exact absurd hp' hng
      | opening => exact .inl rfl
      | «open» => exact .inr (.inl rfl)
      | closing => exact .inr (.inr rfl)

/-- **C86**, closing: a store that is being closed waits only for its own compaction threads: when they send their results (that they do is C84), all its shards are dropped and the lock ends, whatever other stores do or do not do. -/
theorem C86_close_completes {S : Single} {i : Nat} (hc : S.phase i = .closing) :
    ∃ tr' S', Single.Run S (tr' ++ [.closed i]) S' ∧ (∀ e ∈ tr', e = .other) ∧ S'.holder = none := by
  generalize hn : (S.shards i).length = n
  induction n using Nat.strongRecOn generalizing S with
  | ind n ih =>
    cases hl : S.shards i with
    | nil => exact ⟨[], _, .step (.unlock i hc hl) (.nil _), (fun e he => by cases he), rfl⟩
    | cons s l =>
      have shrink : ((S.shards i).filter (fun x => decide (x ≠ s))).length < n := by
        rw [← hn, hl, List.filter_cons, if_neg (by simp)]
        exact Nat.lt_succ_of_le (List.length_filter_le _ _)
      by_cases hr : S.running i s = true
      · obtain ⟨tr', S', r, ho, hh⟩ := ih _ shrink
          (S := { S with running := at_ S.running i (at_ (S.running i) s false), shards := at_ S.shards i ((S.shards i).filter (fun x => decide (x ≠ s))) }) hc
          (by dsimp only; rw [at_same])
        refine ⟨.other :: .other :: tr', S', .step (.sent i s hr) (.step (.drop i s (.inr hc) (by dsimp only; rw [at_same, at_same])) r), fun e he => ?_, hh⟩
        rcases List.mem_cons.1 he with x | x
        · exact x
        · rcases List.mem_cons.1 x with x | x
          · exact x
          · exact ho e x
      · obtain ⟨tr', S', r, ho, hh⟩ := ih _ shrink (S := { S with shards := at_ S.shards i ((S.shards i).filter (fun x => decide (x ≠ s))) }) hc
          (by dsimp only; rw [at_same])
        refine ⟨.other :: tr', S', .step (.drop i s (.inr hc) (by simpa using hr)) r, fun e he => ?_, hh⟩
        rcases List.mem_cons.1 he with x | x
        · exact x
        · exact ho e x

/-- **C86**, the lock file: neither the removal of superseded files when a store is opened (`load`) nor `clear` takes the name `.lock`. -/
theorem C86_lock_file_stays : classify ".lock".toList = .ignore ∧ clearTakes ".lock".toList = false := by decide +kernel

/-- Not vacuous: store 0 is opened, store 1 is refused, store 0 submits a compaction and is closed while it runs; the compaction thread works, then store 2 is opened. -/
example : ∃ S, Single.Run .init [.other, .touch 0, .opened 0, .refused 1, .other, .other, .touch 0, .other, .other, .closed 0, .other, .opened 2, .touch 2] S := by
  refine ⟨_, .step (.lock 0 rfl rfl) (.step (.load 0 rfl) (.step (.opened 0 [7] rfl) (.step (.refuse 1 rfl (by simp)) (.step (.submit 0 7 rfl (by simp [at_])) (.step (.close 0 rfl)
    (.step (.work 0 7 rfl) (.step (.sent 0 7 rfl) (.step (.drop 0 7 (.inr rfl) rfl) (.step (.unlock 0 rfl rfl) (.step (.lock 2 rfl rfl) (.step (.opened 2 [] rfl) (.step (.call 2 rfl) (.nil _)))))))))))))⟩

end Props
end Candy
