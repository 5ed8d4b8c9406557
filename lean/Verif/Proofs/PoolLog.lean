import Verif.Proofs.Pool
import Verif.Spec.Pool
/-!
# The history of the compactions
-/
namespace Candy
open Spec (PoolMay PoolHistory)

theorem Spec.PoolHistory.nil : PoolHistory [] := by
  intro l e r h
  cases l <;> cases h

theorem Spec.PoolHistory.snoc {log : List PoolEv} {e : PoolEv} (H : PoolHistory log) (he : PoolMay log e) : PoolHistory (log ++ [e]) := by
  intro l x r h
  rcases List.eq_nil_or_concat r with hr | ⟨r', y, hr⟩
  · subst hr
    have := List.append_inj' h rfl
    have h2 : e = x := by simpa using this.2
    rw [← this.1, ← h2]
    exact he
  · subst hr
    rw [List.concat_eq_append, ← List.cons_append, ← List.append_assoc] at h
    exact H l x r' (List.append_inj' h rfl).1

theorem Spec.PoolHistory.quiet {log e : List PoolEv} (H : PoolHistory log) (he : ∀ x ∈ e, ∃ i b, x = .returned i b) : PoolHistory (log ++ e) := by
  induction e generalizing log with
  | nil => simpa using H
  | cons x e ih =>
    obtain ⟨i, b, hx⟩ := he x (by simp)
    have := ih (log := log ++ [x]) (H.snoc (by rw [hx]; trivial)) (fun y hy => he y (by simp [hy]))
    simpa using this

structure PoolLog (S : Pool) : Prop where
  bad : ∀ s w j, S.workers w = .sending s j false → S.target s = true
  fail : ∀ p, S.Rcv p → S.chan p.2 = .ready false → S.target p.1 = true
  begun : ∀ s j, .begun s j ∈ S.log → S.Rcv (s, j) ∨ (∃ i, .told i j true ∈ S.log) ∨ ((∃ i, .told i j false ∈ S.log) ∧ S.target s = true ∧ ∀ j', ¬ S.Rcv (s, j'))
  ended : ∀ j b, S.chan j = .ready b → .ended j b ∈ S.log
  told : ∀ i j b, .told i j b ∈ S.log → .ended j b ∈ S.log ∧ j < S.next ∧ ∀ s, ¬ S.Rcv (s, j)
  over : ∀ j b, .ended j b ∈ S.log → j < S.next ∧ ∀ s, ¬ S.Open (s, j)
  numb : ∀ s j, .begun s j ∈ S.log → j < S.next
  openB : ∀ s j, S.Open (s, j) → .begun s j ∈ S.log
  ok : PoolHistory S.log

theorem PoolLog.init (W : Nat) : PoolLog (Pool.init W) := by
  have hO : ∀ p, ¬ (Pool.init W).Open p := by
    rintro p (h | ⟨w, h⟩)
    · cases h
    · dsimp only [Pool.init] at h
      split at h <;> cases h
  have hR : ∀ p, ¬ (Pool.init W).Rcv p := by
    rintro p (h | ⟨w, h⟩) <;> cases h
  refine ⟨?_, fun p h => absurd h (hR p), fun s j h => (List.not_mem_nil h).elim, (fun j b h => by cases h), fun i j b h => (List.not_mem_nil h).elim,
    fun j b h => (List.not_mem_nil h).elim, fun s j h => (List.not_mem_nil h).elim, fun s j h => absurd h (hO _), Spec.PoolHistory.nil⟩
  intro s w j h
  dsimp only [Pool.init] at h
  split at h <;> cases h

/-- A step in which nothing happens to any compaction. -/
theorem PoolLog.silent {S S' : Pool} (e : List PoolEv) (H : PoolLog S) (hR : ∀ x, S'.Rcv x ↔ S.Rcv x) (hO : ∀ x, S'.Open x ↔ S.Open x) (hc : S'.chan = S.chan)
    (ht : ∀ s, S.target s = true → S'.target s = true) (hn : S'.next = S.next)
    (hs : ∀ w s j, S'.workers w = .sending s j false → S.workers w = .sending s j false ∨ S.target s = true)
    (hl : S'.log = S.log ++ e) (he : ∀ x ∈ e, ∃ i b, x = .returned i b) : PoolLog S' := by
  have h1 : ∀ s j, .begun s j ∈ S'.log ↔ .begun s j ∈ S.log := by
    intro s j
    rw [hl, List.mem_append]
    exact ⟨fun h => h.elim id (fun h => by obtain ⟨_, _, h⟩ := he _ h; cases h), Or.inl⟩
  have h2 : ∀ j b, .ended j b ∈ S'.log ↔ .ended j b ∈ S.log := by
    intro s j
    rw [hl, List.mem_append]
    exact ⟨fun h => h.elim id (fun h => by obtain ⟨_, _, h⟩ := he _ h; cases h), Or.inl⟩
  have h3 : ∀ i j b, .told i j b ∈ S'.log ↔ .told i j b ∈ S.log := by
    intro i s j
    rw [hl, List.mem_append]
    exact ⟨fun h => h.elim id (fun h => by obtain ⟨_, _, h⟩ := he _ h; cases h), Or.inl⟩
  refine ⟨?_, ?_, ?_, ?_, ?_, ?_, ?_, ?_, ?_⟩
  · intro s w j h
    exact ht s ((hs w s j h).elim (H.bad s w j) id)
  · intro p h hp
    rw [hc] at hp
    exact ht _ (H.fail p ((hR p).1 h) hp)
  · intro s j h
    rcases H.begun s j ((h1 s j).1 h) with a | ⟨i, a⟩ | ⟨⟨i', c⟩, a, a'⟩
    · exact Or.inl ((hR _).2 a)
    · exact Or.inr (Or.inl ⟨i, (h3 _ _ _).2 a⟩)
    · exact Or.inr (Or.inr ⟨⟨i', (h3 _ _ _).2 c⟩, ht s a, fun j' hj => a' j' ((hR _).1 hj)⟩)
  · intro j b h
    rw [hc] at h
    exact (h2 _ _).2 (H.ended j b h)
  · intro i j b h
    obtain ⟨a, a1, a2⟩ := H.told i j b ((h3 _ _ _).1 h)
    exact ⟨(h2 _ _).2 a, by rw [hn]; exact a1, fun s hs => a2 s ((hR _).1 hs)⟩
  · intro j b h
    obtain ⟨a1, a2⟩ := H.over j b ((h2 _ _).1 h)
    exact ⟨by rw [hn]; exact a1, fun s hs => a2 s ((hO _).1 hs)⟩
  · intro s j h
    rw [hn]
    exact H.numb s j ((h1 _ _).1 h)
  · intro s j h
    exact (h1 _ _).2 (H.openB s j ((hO _).1 h))
  · rw [hl]
    exact H.ok.quiet he

/-- A result is received. -/
theorem PoolLog.receive {W : Nat} {S S' : Pool} (e : List PoolEv) {i s : Nat} {j : Job} {b : Bool} (I : PoolInv W S) (H : PoolLog S) (hr : S.Rcv (s, j))
    (hb : S.chan j = .ready b) (hR : ∀ x, S'.Rcv x ↔ S.Rcv x ∧ x ≠ (s, j)) (hO : ∀ x, S'.Open x ↔ S.Open x) (hc : S'.chan = S.chan)
    (ht : S'.target = S.target) (hn : S'.next = S.next) (hs : S'.workers = S.workers)
    (hl : S'.log = S.log ++ [.told i j b] ++ e) (he : ∀ x ∈ e, ∃ i b, x = .returned i b) : PoolLog S' := by
  have h0 : ∀ x : PoolEv, x ∈ S.log → x ∈ S'.log := fun x hx => by rw [hl]; simp [hx]
  have h1 : ∀ s j, .begun s j ∈ S'.log ↔ .begun s j ∈ S.log := by
    intro s j
    refine ⟨fun h => ?_, h0 _⟩
    rw [hl, List.mem_append, List.mem_append] at h
    rcases h with (h | h) | h
    · exact h
    · simp at h
    · obtain ⟨_, _, h⟩ := he _ h
      cases h
  have h2 : ∀ j b, .ended j b ∈ S'.log ↔ .ended j b ∈ S.log := by
    intro j b
    refine ⟨fun h => ?_, h0 _⟩
    rw [hl, List.mem_append, List.mem_append] at h
    rcases h with (h | h) | h
    · exact h
    · simp at h
    · obtain ⟨_, _, h⟩ := he _ h
      cases h
  have h3 : ∀ i' j' b', .told i' j' b' ∈ S'.log → .told i' j' b' ∈ S.log ∨ (j' = j ∧ b' = b) := by
    intro i' j' b' h
    rw [hl, List.mem_append, List.mem_append] at h
    rcases h with (h | h) | h
    · exact Or.inl h
    · simp at h
      exact Or.inr ⟨h.2.1, h.2.2⟩
    · obtain ⟨_, _, h⟩ := he _ h
      cases h
  have hin : .told i j b ∈ S'.log := by rw [hl]; simp
  refine ⟨?_, ?_, ?_, ?_, ?_, ?_, ?_, ?_, ?_⟩
  · intro s' w j' h
    rw [hs] at h
    rw [ht]
    exact H.bad s' w j' h
  · intro p h hp
    rw [hc] at hp
    rw [ht]
    exact H.fail p ((hR p).1 h).1 hp
  · intro s' j' h
    rcases H.begun s' j' ((h1 _ _).1 h) with a | ⟨i', a⟩ | ⟨⟨i', c⟩, a, a'⟩
    · by_cases e' : (s', j') = (s, j)
      · cases e'
        cases b with
        | true => exact Or.inr (Or.inl ⟨i, hin⟩)
        | false =>
          refine Or.inr (Or.inr ⟨⟨i, hin⟩, by rw [ht]; exact H.fail _ hr hb, fun j'' hj => ?_⟩)
          obtain ⟨h5, h6⟩ := (hR _).1 hj
          exact h6 (by rw [I.one h5 hr])
      · exact Or.inl ((hR _).2 ⟨a, e'⟩)
    · exact Or.inr (Or.inl ⟨i', h0 _ a⟩)
    · exact Or.inr (Or.inr ⟨⟨i', h0 _ c⟩, by rw [ht]; exact a, fun j'' hj => a' j'' ((hR _).1 hj).1⟩)
  · intro j' b' h
    rw [hc] at h
    exact (h2 _ _).2 (H.ended j' b' h)
  · intro i' j' b' h
    rw [hn]
    rcases h3 _ _ _ h with h | ⟨rfl, rfl⟩
    · obtain ⟨a, a1, a2⟩ := H.told i' j' b' h
      exact ⟨(h2 _ _).2 a, a1, fun s' hs' => a2 s' ((hR _).1 hs').1⟩
    · refine ⟨(h2 _ _).2 (H.ended _ _ hb), I.fresh _ hr, fun s' hs' => ?_⟩
      obtain ⟨h5, h6⟩ := (hR _).1 hs'
      exact h6 (by rw [I.open_job h5 hr])
  · intro j' b' h
    rw [hn]
    obtain ⟨a1, a2⟩ := H.over j' b' ((h2 _ _).1 h)
    exact ⟨a1, fun s' hs' => a2 s' ((hO _).1 hs')⟩
  · intro s' j' h
    rw [hn]
    exact H.numb s' j' ((h1 _ _).1 h)
  · intro s' j' h
    exact (h1 _ _).2 (H.openB s' j' ((hO _).1 h))
  · rw [hl]
    refine Spec.PoolHistory.quiet (H.ok.snoc (e := .told i j b) ⟨H.ended _ _ hb, fun i' b' h => ?_⟩) he
    exact (H.told i' j b' h).2.2 s hr

/-- A result is sent. -/
theorem PoolLog.send {W : Nat} {S S' : Pool} {w s : Nat} {j : Job} {b : Bool} (I : PoolInv W S) (H : PoolLog S) (hw : S.workers w = .sending s j b)
    (hR : ∀ x, S'.Rcv x ↔ S.Rcv x) (hO : ∀ x, S'.Open x ↔ S.Open x ∧ x ≠ (s, j)) (hc : S'.chan = fset S.chan j (.ready b))
    (ht : S'.target = S.target) (hn : S'.next = S.next) (hs : ∀ w s j, S'.workers w = .sending s j false → S.workers w = .sending s j false)
    (hl : S'.log = S.log ++ [.ended j b]) : PoolLog S' := by
  have hop : S.Open (s, j) := Or.inr ⟨w, by rw [hw]; rfl⟩
  have hr : S.Rcv (s, j) := (I.held _ hop).1
  have h0 : ∀ x : PoolEv, x ∈ S'.log ↔ x ∈ S.log ∨ x = .ended j b := fun x => by rw [hl]; simp
  refine ⟨?_, ?_, ?_, ?_, ?_, ?_, ?_, ?_, ?_⟩
  · intro s' w' j' h
    rw [ht]
    exact H.bad s' w' j' (hs _ _ _ h)
  · intro p h hp
    rw [ht]
    rw [hc] at hp
    have h' := (hR p).1 h
    by_cases e : p.2 = j
    · have h5 : S.Rcv (p.1, j) := by rw [← e]; exact h'
      have h6 := I.open_job h5 hr
      simp only [fset, e, if_true] at hp
      rw [h6]
      exact H.bad s w j (by rw [hw]; simpa using hp)
    · simp only [fset, e, if_false] at hp
      exact H.fail p h' hp
  · intro s' j' h
    rcases H.begun s' j' (((h0 _).1 h).resolve_right (by simp)) with a | ⟨i', a⟩ | ⟨⟨i', c⟩, a, a'⟩
    · exact Or.inl ((hR _).2 a)
    · exact Or.inr (Or.inl ⟨i', (h0 _).2 (Or.inl a)⟩)
    · exact Or.inr (Or.inr ⟨⟨i', (h0 _).2 (Or.inl c)⟩, by rw [ht]; exact a, fun j'' hj => a' j'' ((hR _).1 hj)⟩)
  · intro j' b' h
    rw [hc] at h
    by_cases e : j' = j
    · simp only [fset, e, if_true] at h
      cases h
      rw [e]
      exact (h0 _).2 (Or.inr rfl)
    · simp only [fset, e, if_false] at h
      exact (h0 _).2 (Or.inl (H.ended j' b' h))
  · intro i' j' b' h
    rw [hn]
    obtain ⟨a, a1, a2⟩ := H.told i' j' b' (((h0 _).1 h).resolve_right (by simp))
    exact ⟨(h0 _).2 (Or.inl a), a1, fun s' hs' => a2 s' ((hR _).1 hs')⟩
  · intro j' b' h
    rw [hn]
    rcases (h0 _).1 h with h | h
    · obtain ⟨a1, a2⟩ := H.over j' b' h
      exact ⟨a1, fun s' hs' => a2 s' ((hO _).1 hs').1⟩
    · cases h
      refine ⟨I.fresh _ hr, fun s' hs' => ?_⟩
      obtain ⟨h5, h6⟩ := (hO _).1 hs'
      exact h6 (by rw [I.open_job (I.held _ h5).1 hr])
  · intro s' j' h
    rw [hn]
    exact H.numb s' j' (((h0 _).1 h).resolve_right (by simp))
  · intro s' j' h
    exact (h0 _).2 (Or.inl (H.openB s' j' ((hO _).1 h).1))
  · rw [hl]
    exact H.ok.snoc ⟨⟨s, H.openB _ _ hop⟩, fun b' h => (H.over j b' h).2 s hop⟩

/-- A compaction becomes the file of its shard. -/
theorem PoolLog.swap {W : Nat} {S S' : Pool} {w s : Nat} {j : Job} (I : PoolInv W S) (H : PoolLog S) (hw : (S.workers w).job = some (s, j))
    (hR : ∀ x, S'.Rcv x ↔ S.Rcv x) (hO : ∀ x, S'.Open x ↔ S.Open x) (hc : S'.chan = S.chan)
    (ht : S'.target = fset S.target s false) (hn : S'.next = S.next) (hs : ∀ w' s j, S'.workers w' = .sending s j false → S.workers w' = .sending s j false ∧ w' ≠ w)
    (hl : S'.log = S.log) : PoolLog S' := by
  have hop : S.Open (s, j) := Or.inr ⟨w, hw⟩
  have hr : S.Rcv (s, j) := (I.held _ hop).1
  have hst : ∀ s', S.target s' = true → s' ≠ s → S'.target s' = true := by
    intro s' h e
    rw [ht]
    simp only [fset, e, if_false]
    exact h
  refine ⟨?_, ?_, ?_, ?_, ?_, ?_, ?_, ?_, ?_⟩
  · intro s' w' j' h
    obtain ⟨h1, h2⟩ := hs _ _ _ h
    refine hst s' (H.bad _ _ _ h1) ?_
    intro e
    rw [e] at h1
    have hj : (S.workers w').job = some (s, j') := by rw [h1]; rfl
    have e' := I.open_unique (Or.inr ⟨w', hj⟩) hop
    rw [e'] at hj
    exact h2 (I.single w' w _ hj hw)
  · intro p h hp
    rw [hc] at hp
    have h' := (hR p).1 h
    refine hst _ (H.fail p h' hp) ?_
    intro e
    have h5 : S.Rcv (s, p.2) := by rw [← e]; exact h'
    rw [I.one h5 hr] at hp
    rw [(I.held _ hop).2] at hp
    cases hp
  · intro s' j' h
    rw [hl] at h
    rcases H.begun s' j' h with a | ⟨i', a⟩ | ⟨⟨i', c⟩, a, a'⟩
    · exact Or.inl ((hR _).2 a)
    · exact Or.inr (Or.inl ⟨i', by rw [hl]; exact a⟩)
    · exact Or.inr (Or.inr ⟨⟨i', by rw [hl]; exact c⟩, hst _ a (fun e => a' j (by rw [e]; exact hr)), fun j'' hj => a' j'' ((hR _).1 hj)⟩)
  · intro j' b' h
    rw [hc] at h
    rw [hl]
    exact H.ended j' b' h
  · intro i' j' b' h
    rw [hl] at h ⊢
    rw [hn]
    obtain ⟨a, a1, a2⟩ := H.told i' j' b' h
    exact ⟨a, a1, fun s' hs' => a2 s' ((hR _).1 hs')⟩
  · intro j' b' h
    rw [hl] at h
    rw [hn]
    obtain ⟨a1, a2⟩ := H.over j' b' h
    exact ⟨a1, fun s' hs' => a2 s' ((hO _).1 hs')⟩
  · intro s' j' h
    rw [hl] at h
    rw [hn]
    exact H.numb s' j' h
  · intro s' j' h
    rw [hl]
    exact H.openB s' j' ((hO _).1 h)
  · rw [hl]
    exact H.ok

/-- A compaction is submitted. -/
theorem PoolLog.submit {W : Nat} {S S' : Pool} (e : List PoolEv) {s : Nat} (I : PoolInv W S) (H : PoolLog S) (hno : ∀ j, ¬ S.Rcv (s, j)) (hts : S.target s = false)
    (hR : ∀ x, S'.Rcv x ↔ x = (s, S.next) ∨ S.Rcv x) (hO : ∀ x, S'.Open x ↔ x = (s, S.next) ∨ S.Open x) (hc : S'.chan = fset S.chan S.next .pending)
    (ht : S'.target = fset S.target s true) (hn : S'.next = S.next + 1) (hs : S'.workers = S.workers)
    (hl : S'.log = S.log ++ [.begun s S.next] ++ e) (he : ∀ x ∈ e, ∃ i b, x = .returned i b) : PoolLog S' := by
  have h0 : ∀ x : PoolEv, x ∈ S.log → x ∈ S'.log := fun x hx => by rw [hl]; simp [hx]
  have h1 : ∀ s' j', .begun s' j' ∈ S'.log → .begun s' j' ∈ S.log ∨ (s' = s ∧ j' = S.next) := by
    intro s' j' h
    rw [hl, List.mem_append, List.mem_append] at h
    rcases h with (h | h) | h
    · exact Or.inl h
    · simp at h
      exact Or.inr h
    · obtain ⟨_, _, h⟩ := he _ h
      cases h
  have h2 : ∀ j b, .ended j b ∈ S'.log → .ended j b ∈ S.log := by
    intro j b h
    rw [hl, List.mem_append, List.mem_append] at h
    rcases h with (h | h) | h
    · exact h
    · simp at h
    · obtain ⟨_, _, h⟩ := he _ h
      cases h
  have h3 : ∀ i j b, .told i j b ∈ S'.log → .told i j b ∈ S.log := by
    intro i j b h
    rw [hl, List.mem_append, List.mem_append] at h
    rcases h with (h | h) | h
    · exact h
    · simp at h
    · obtain ⟨_, _, h⟩ := he _ h
      cases h
  have hst : ∀ s', S.target s' = true → S'.target s' = true := by
    intro s' h
    rw [ht]
    by_cases e : s' = s
    · simp [fset, e]
    · simp only [fset, e, if_false]
      exact h
  refine ⟨?_, ?_, ?_, ?_, ?_, ?_, ?_, ?_, ?_⟩
  · intro s' w j' h
    rw [hs] at h
    exact hst _ (H.bad s' w j' h)
  · intro p h hp
    rw [hc] at hp
    rcases (hR p).1 h with e | h
    · rw [e] at hp
      simp [fset] at hp
    · have e := Nat.ne_of_lt (I.fresh p h)
      simp only [fset, e, if_false] at hp
      exact hst _ (H.fail p h hp)
  · intro s' j' h
    rcases h1 _ _ h with h | ⟨rfl, rfl⟩
    · rcases H.begun s' j' h with a | ⟨i', a⟩ | ⟨⟨i', c⟩, a, a'⟩
      · exact Or.inl ((hR _).2 (Or.inr a))
      · exact Or.inr (Or.inl ⟨i', h0 _ a⟩)
      · refine Or.inr (Or.inr ⟨⟨i', h0 _ c⟩, hst _ a, fun j'' hj => ?_⟩)
        rcases (hR _).1 hj with e | hj
        · cases e
          rw [hts] at a
          cases a
        · exact a' j'' hj
    · exact Or.inl ((hR _).2 (Or.inl rfl))
  · intro j' b' h
    rw [hc] at h
    by_cases e : j' = S.next
    · simp [fset, e] at h
    · simp only [fset, e, if_false] at h
      exact h0 _ (H.ended j' b' h)
  · intro i' j' b' h
    obtain ⟨a, a1, a2⟩ := H.told i' j' b' (h3 _ _ _ h)
    refine ⟨h0 _ a, by rw [hn]; exact Nat.lt_succ_of_lt a1, fun s' hs' => ?_⟩
    rcases (hR _).1 hs' with e | h
    · cases e
      exact Nat.lt_irrefl _ a1
    · exact a2 s' h
  · intro j' b' h
    obtain ⟨a1, a2⟩ := H.over j' b' (h2 _ _ h)
    refine ⟨by rw [hn]; exact Nat.lt_succ_of_lt a1, fun s' hs' => ?_⟩
    rcases (hO _).1 hs' with e | h
    · cases e
      exact Nat.lt_irrefl _ a1
    · exact a2 s' h
  · intro s' j' h
    rw [hn]
    rcases h1 _ _ h with h | ⟨_, rfl⟩
    · exact Nat.lt_succ_of_lt (H.numb s' j' h)
    · exact Nat.lt_succ_self _
  · intro s' j' h
    rcases (hO _).1 h with e | h
    · cases e
      rw [hl]
      simp
    · exact h0 _ (H.openB s' j' h)
  · rw [hl]
    refine Spec.PoolHistory.quiet (H.ok.snoc (e := .begun s S.next) ⟨fun s' h => Nat.lt_irrefl _ (H.numb s' _ h), fun j' h => ?_⟩) he
    rcases H.begun s j' h with a | ⟨i', a⟩ | ⟨⟨i', c⟩, a, a'⟩
    · exact absurd a (hno j')
    · exact ⟨(H.told i' j' true a).1, i', a⟩
    · rw [hts] at a
      cases a

/-! ## The steps -/

theorem fset_awaits {f : Nat → TPc} {i : Nat} {p : TPc} (h : p.awaits = (f i).awaits) (k : Nat) : (fset f i p k).awaits = (f k).awaits := by
  by_cases e : k = i
  · simp [fset, e, h]
  · simp [fset, e]

theorem fset_job {f : Nat → WPc} {i : Nat} {p : WPc} (h : p.job = (f i).job) (k : Nat) : (fset f i p k).job = (f k).job := by
  by_cases e : k = i
  · simp [fset, e, h]
  · simp [fset, e]

theorem Pool.rcv_of {S S' : Pool} (hh : S'.handle = S.handle) (ht : ∀ k, (S'.threads k).awaits = (S.threads k).awaits) (x : Nat × Job) : S'.Rcv x ↔ S.Rcv x := by
  simp only [Pool.Rcv, hh, ht]

theorem Pool.open_of {S S' : Pool} (hh : S'.queue = S.queue) (ht : ∀ k, (S'.workers k).job = (S.workers k).job) (x : Nat × Job) : S'.Open x ↔ S.Open x := by
  simp only [Pool.Open, hh, ht]

theorem Pool.rcv_take {S S' : Pool} {i s : Nat} {j : Job} {p : TPc} (hp : p.awaits = some (s, j)) (hno : (S.threads i).awaits = none) (hh : S.handle s = some j)
    (ht : S'.threads = fset S.threads i p) (hd : S'.handle = fset S.handle s none) : ∀ x, S'.Rcv x ↔ S.Rcv x := by
  rintro ⟨s', j'⟩
  simp only [Pool.Rcv, ht, hd, exists_awaits]
  constructor
  · rintro (h | h | ⟨k, _, h⟩)
    · refine Or.inl ?_
      by_cases e : s' = s
      · simp [fset, e] at h
      · simp only [fset, e, if_false] at h
        exact h
    · rw [hp] at h
      cases h
      exact Or.inl hh
    · exact Or.inr ⟨k, h⟩
  · rintro (h | ⟨k, h⟩)
    · by_cases e : s' = s
      · subst e
        refine Or.inr (Or.inl ?_)
        rw [hp]
        rw [hh] at h
        cases h
        rfl
      · exact Or.inl (by simpa [fset, e] using h)
    · refine Or.inr (Or.inr ⟨k, ?_, h⟩)
      intro e
      rw [e, hno] at h
      cases h

theorem Pool.rcv_receive {W : Nat} {S S' : Pool} (I : PoolInv W S) {i s : Nat} {j : Job} {p : TPc} (hp : p.awaits = none) (hi : (S.threads i).awaits = some (s, j))
    (ht : S'.threads = fset S.threads i p) (hd : S'.handle = S.handle) : ∀ x, S'.Rcv x ↔ S.Rcv x ∧ x ≠ (s, j) := by
  rintro ⟨s', j'⟩
  simp only [Pool.Rcv, ht, hd, exists_awaits]
  constructor
  · rintro (h | h | ⟨k, hk, h⟩)
    · refine ⟨Or.inl h, ?_⟩
      intro e
      cases e
      exact I.free _ _ h i _ hi
    · rw [hp] at h
      cases h
    · refine ⟨Or.inr ⟨k, h⟩, ?_⟩
      intro e
      cases e
      exact hk (I.jobT k i _ _ _ h hi)
  · rintro ⟨h | ⟨k, h⟩, hne⟩
    · exact Or.inl h
    · refine Or.inr (Or.inr ⟨k, ?_, h⟩)
      intro e
      rw [e, hi] at h
      exact hne (Option.some.inj h).symm

theorem PoolLog.threadOnly {S S' : Pool} (e : List PoolEv) (H : PoolLog S) (i : Nat) (p : TPc) (hp : p.awaits = (S.threads i).awaits)
    (hS : S' = { S with threads := fset S.threads i p, log := S.log ++ e }) (he : ∀ x ∈ e, ∃ i b, x = .returned i b) : PoolLog S' := by
  subst hS
  exact H.silent e (Pool.rcv_of rfl (fset_awaits hp)) (fun _ => Iff.rfl) rfl (fun _ h => h) rfl (fun _ _ _ h => Or.inl h) rfl he

theorem PoolLog.threadQuiet {S S' : Pool} (H : PoolLog S) (i : Nat) (p : TPc) (hp : p.awaits = (S.threads i).awaits)
    (hS : S' = { S with threads := fset S.threads i p }) : PoolLog S' :=
  H.threadOnly [] i p hp (by rw [hS, List.append_nil]) (by simp)

theorem PoolLog.workerOnly {S S' : Pool} (H : PoolLog S) (w : Nat) (p : WPc) (hp : p.job = (S.workers w).job)
    (hb : ∀ s j, p = .sending s j false → S.target s = true)
    (hS : S' = { S with workers := fset S.workers w p }) : PoolLog S' := by
  subst hS
  refine H.silent [] (fun _ => Iff.rfl) (Pool.open_of rfl (fset_job hp)) rfl (fun _ h => h) rfl ?_ (by simp) (by simp)
  intro k s j h
  by_cases e : k = w
  · simp only [fset, e, if_true] at h
    exact Or.inr (hb s j h)
  · simp only [fset, e, if_false] at h
    exact Or.inl h

theorem PoolLog.enter {S S' : Pool} (H : PoolLog S) (hs : S.Enter S') : PoolLog S' := by
  cases hs with
  | row i s r h => exact H.threadQuiet i _ (by rw [h]; rfl) rfl
  | begin i s h => exact H.threadQuiet i _ (by rw [h]; rfl) rfl
  | wait i s h => exact H.threadQuiet i _ (by rw [h]; rfl) rfl

theorem PoolLog.step {W : Nat} {S S' : Pool} {b : Bool} (I : PoolInv W S) (H : PoolLog S) (hs : S.Step b S') : PoolLog S' := by
  cases hs with
  | lockRow i s r h => exact H.threadQuiet i _ (by rw [h]; rfl) rfl
  | unlockRow i s r h => exact H.threadQuiet i _ (by rw [h]; rfl) rfl
  | beginMutex i s h => exact H.threadQuiet i _ (by rw [h]; rfl) rfl
  | beginFiles i s h => exact H.threadQuiet i _ (by rw [h]; rfl) rfl
  | already i s h => exact H.threadOnly _ i _ (by rw [h]; rfl) rfl (by simp)
  | running i s j h => exact H.threadOnly _ i _ (by rw [h]; rfl) rfl (by simp)
  | noHandle i s h => exact H.threadOnly _ i _ (by rw [h]; rfl) rfl (by simp)
  | noOld i s h => exact H.threadQuiet i _ (by rw [h]; rfl) rfl
  | assertFails i s h => exact H.threadQuiet i _ (by rw [h]; rfl) rfl
  | createFails i s h => exact H.threadOnly _ i _ (by rw [h]; rfl) rfl (by simp)
  | waitNone i s h => exact H.threadOnly _ i _ (by rw [h]; rfl) rfl (by simp)
  | take i s j h ht hh =>
    exact H.silent [] (Pool.rcv_take (i := i) (p := .collects s j) rfl (by rw [h]; rfl) hh rfl rfl) (fun _ => Iff.rfl) rfl (fun _ h => h) rfl
      (fun _ _ _ h => Or.inl h) (by simp) (by simp)
  | waitTake i s j h hm hh =>
    exact H.silent [] (Pool.rcv_take (i := i) (p := .waits s j) rfl (by rw [h]; rfl) hh rfl rfl) (fun _ => Iff.rfl) rfl (fun _ h => h) rfl
      (fun _ _ _ h => Or.inl h) (by simp) (by simp)
  | collected i s j b h hc =>
    refine H.receive (i := i) (s := s) (j := j) (b := b) (if b then [] else [.returned i false]) I (Or.inr ⟨i, by rw [h]; rfl⟩) hc
      (Pool.rcv_receive I (i := i) (p := if b then .creating s else .out) (by cases b <;> rfl) (by rw [h]; rfl) rfl rfl) (fun _ => Iff.rfl) rfl rfl rfl rfl rfl ?_
    cases b <;> simp
  | waited i s j b h hc =>
    refine H.receive (i := i) (s := s) (j := j) (b := b) [.returned i b] I (Or.inr ⟨i, by rw [h]; rfl⟩) hc
      (Pool.rcv_receive I (i := i) (p := .out) rfl (by rw [h]; rfl) rfl rfl) (fun _ => Iff.rfl) rfl rfl rfl rfl (by simp) (fun x hx => ⟨i, b, by simpa using hx⟩)
  | collectedNone i s j h hc => exact absurd hc (I.opened (s, j) (Or.inr ⟨i, by rw [h]; rfl⟩))
  | waitedNone i s j h hc => exact absurd hc (I.opened (s, j) (Or.inr ⟨i, by rw [h]; rfl⟩))
  | submit i s w h ht hw =>
    have hno : ∀ j, ¬ S.Rcv (s, j) := fun j => I.not_rcv_creating h
    have hhn : S.handle s = none := (I.creat i s h).1
    refine H.submit (s := s) [.returned i true] I hno ht ?_ ?_ rfl rfl rfl rfl (by simp) (by simp)
    · rintro ⟨s', j'⟩
      simp only [Pool.Rcv, exists_awaits]
      constructor
      · rintro (hx | hx | ⟨k, hk, hx⟩)
        · by_cases e : s' = s
          · simp only [fset, e, if_true] at hx
            exact Or.inl (by cases hx; rw [e])
          · simp only [fset, e, if_false] at hx
            exact Or.inr (Or.inl hx)
        · cases hx
        · exact Or.inr (Or.inr ⟨k, hx⟩)
      · rintro (hx | hx | ⟨k, hx⟩)
        · cases hx
          exact Or.inl (by simp [fset])
        · refine Or.inl ?_
          have e : s' ≠ s := fun e => by rw [e, hhn] at hx; cases hx
          simp only [fset, e, if_false]
          exact hx
        · refine Or.inr (Or.inr ⟨k, ?_, hx⟩)
          intro e
          rw [e, h] at hx
          cases hx
    · intro x
      simp only [Pool.Open, List.mem_append, List.mem_singleton]
      constructor
      · rintro ((hx | hx) | hx)
        · exact Or.inr (Or.inl hx)
        · exact Or.inl hx
        · exact Or.inr (Or.inr hx)
      · rintro (hx | hx | hx)
        · exact Or.inl (Or.inr hx)
        · exact Or.inl (Or.inl hx)
        · exact Or.inr hx
  | submitFails i s h ht hw =>
    refine H.silent [.returned i false] (Pool.rcv_of rfl (fset_awaits (by rw [h]; rfl))) (fun _ => Iff.rfl) rfl ?_ rfl (fun _ _ _ h => Or.inl h) rfl (by simp)
    intro s' h'
    by_cases e : s' = s
    · simp [fset, e]
    · simp only [fset, e, if_false]
      exact h'
  | next w s j q h hq =>
    refine H.silent [] (fun _ => Iff.rfl) ?_ rfl (fun _ h => h) rfl ?_ (by simp) (by simp)
    · intro x
      simp only [Pool.Open, exists_job, hq, List.mem_cons]
      constructor
      · rintro (hx | hx | ⟨k, hk, hx⟩)
        · exact Or.inl (Or.inr hx)
        · exact Or.inl (Or.inl (Option.some.inj hx).symm)
        · exact Or.inr ⟨k, hx⟩
      · rintro ((hx | hx) | ⟨k, hx⟩)
        · exact Or.inr (Or.inl (by rw [hx]; rfl))
        · exact Or.inl hx
        · refine Or.inr (Or.inr ⟨k, ?_, hx⟩)
          intro e
          rw [e, h] at hx
          cases hx
    · intro k s' j' hk
      by_cases e : k = w
      · simp [fset, e] at hk
      · simp only [fset, e, if_false] at hk
        exact Or.inl hk
  | lock w s j h => exact H.workerOnly w _ (by rw [h]; rfl) (by simp) rfl
  | row w s j n h => exact H.workerOnly w _ (by rw [h]; rfl) (by simp) rfl
  | rename w s j h => exact H.workerOnly w _ (by rw [h]; rfl) (by simp) rfl
  | fails w s j n h hn =>
    refine H.workerOnly w _ (by rw [h]; rfl) ?_ rfl
    intro s' j' e
    cases e
    exact I.tgtw w (s, j) (by rw [h]; rfl)
  | unwrapFails w s j h hw hu ht =>
    have := I.tgtw w (s, j) (by rw [h]; rfl)
    rw [ht] at this
    cases this
  | sendFails w s j b h hr => exact absurd (I.sender (by rw [h]; rfl)) hr
  | swap w s j h hr =>
    refine H.swap (w := w) (s := s) (j := j) I (by rw [h]; rfl) (fun _ => Iff.rfl) (Pool.open_of rfl (fset_job (by rw [h]; rfl))) rfl rfl rfl ?_ rfl
    intro k s' j' hk
    by_cases e : k = w
    · simp [fset, e] at hk
    · simp only [fset, e, if_false] at hk
      exact ⟨hk, e⟩
  | send w s j b h hr =>
    have hw : (S.workers w).job = some (s, j) := by rw [h]; rfl
    refine H.send (w := w) (s := s) (j := j) (b := b) I h (fun _ => Iff.rfl) ?_ rfl rfl rfl ?_ rfl
    · intro x
      simp only [Pool.Open, exists_job]
      constructor
      · rintro (hx | hx | ⟨k, hk, hx⟩)
        · exact ⟨Or.inl hx, fun e => I.apart w (s, j) hw (e ▸ hx)⟩
        · cases hx
        · exact ⟨Or.inr ⟨k, hx⟩, fun e => hk (I.single k w (s, j) (e ▸ hx) hw)⟩
      · rintro ⟨hx | ⟨k, hx⟩, hne⟩
        · exact Or.inl hx
        · refine Or.inr (Or.inr ⟨k, ?_, hx⟩)
          intro e
          rw [e, hw] at hx
          exact hne (Option.some.inj hx).symm
    · intro k s' j' hk
      by_cases e : k = w
      · simp [fset, e] at hk
      · simp only [fset, e, if_false] at hk
        exact hk

theorem PoolLog.of_run {W : Nat} {b : Bool} {S : Pool} (h : Pool.Run W b S) : PoolLog S := by
  induction h with
  | init => exact PoolLog.init W
  | enter _ hs ih => exact ih.enter hs
  | step hr hs ih => exact ih.step (PoolInv.of_run hr) hs

end Candy
