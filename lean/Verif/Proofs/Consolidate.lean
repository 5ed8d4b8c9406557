import Verif.Model.Router
/-!
# `consolidate_ranges`
-/
namespace Candy

/-- Containment and disjointness of spans. -/
def Span.within (a b : Span) : Prop := b.1 ≤ a.1 ∧ a.2 ≤ b.2
def Span.disjoint (a b : Span) : Prop := a.2 ≤ b.1 ∨ b.2 ≤ a.1

theorem spanLe_total (a b : Span) : (spanLe a b || spanLe b a) = true := by
  unfold spanLe
  by_cases h : a.1 = b.1
  · rw [if_pos h, if_pos h.symm]; simp only [Bool.or_eq_true, decide_eq_true_eq]; omega
  · rw [if_neg h, if_neg (Ne.symm h)]; simp only [Bool.or_eq_true, decide_eq_true_eq]; omega

theorem spanLe_iff {a b : Span} : spanLe a b = true ↔ a.1 < b.1 ∨ (a.1 = b.1 ∧ b.2 ≤ a.2) := by
  unfold spanLe
  by_cases h : a.1 = b.1
  · rw [if_pos h]; simp only [decide_eq_true_eq]; omega
  · rw [if_neg h]; simp only [decide_eq_true_eq]; omega

theorem spanLe_trans (a b c : Span) (h : spanLe a b = true) (h' : spanLe b c = true) : spanLe a c = true := by
  rw [spanLe_iff] at *; omega

/-- The loop keeps and removes exactly the given ranges, and every removed range is within a kept one. -/
theorem consolidateLoop_perm : ∀ (xs : List Span) (prev : Span),
    ((consolidateLoop prev xs).1 ++ (consolidateLoop prev xs).2).Perm (prev :: xs) ∧
    prev ∈ (consolidateLoop prev xs).1 ∧
    ∀ r ∈ (consolidateLoop prev xs).2, ∃ k ∈ (consolidateLoop prev xs).1, r.within k
  | [], prev => by simp [consolidateLoop]
  | x :: xs, prev => by
    unfold consolidateLoop
    by_cases h : prev.1 ≤ x.1 ∧ x.2 ≤ prev.2
    · rw [if_pos h]
      obtain ⟨h1, h2, h3⟩ := consolidateLoop_perm xs prev
      refine ⟨?_, h2, ?_⟩
      · refine (List.perm_middle).trans ?_
        exact (h1.cons x).trans (List.Perm.swap _ _ _)
      · intro r hr
        rcases List.mem_cons.1 hr with rfl | hr
        · exact ⟨prev, h2, h⟩
        · exact h3 r hr
    · rw [if_neg h]
      obtain ⟨h1, h2, h3⟩ := consolidateLoop_perm xs x
      refine ⟨h1.cons _, by simp, ?_⟩
      intro r hr
      obtain ⟨k, hk, hw⟩ := h3 r hr
      exact ⟨k, List.mem_cons_of_mem _ hk, hw⟩

/-- For sorted nested-or-disjoint ranges, the kept ranges follow each other without overlap. -/
theorem consolidateLoop_disjoint : ∀ (xs : List Span) (prev : Span), (prev :: xs).Pairwise (fun a b => spanLe a b = true) →
    (∀ a ∈ prev :: xs, a.1 < a.2) →
    (∀ a ∈ prev :: xs, ∀ b ∈ prev :: xs, a.within b ∨ b.within a ∨ a.disjoint b) →
    (consolidateLoop prev xs).1.Pairwise (fun a b => a.2 ≤ b.1) ∧ ∀ a ∈ (consolidateLoop prev xs).1, prev.1 ≤ a.1
  | [], prev, _, _, _ => by simp [consolidateLoop]
  | x :: xs, prev, hs, hlt, hn => by
    have hx : spanLe prev x = true := (List.pairwise_cons.1 hs).1 x (by simp)
    unfold consolidateLoop
    by_cases h : prev.1 ≤ x.1 ∧ x.2 ≤ prev.2
    · rw [if_pos h]
      have sub : ∀ a, a ∈ prev :: xs → a ∈ prev :: x :: xs := by
        intro a ha; rcases List.mem_cons.1 ha with rfl | ha
        · simp
        · exact List.mem_cons_of_mem _ (List.mem_cons_of_mem _ ha)
      refine consolidateLoop_disjoint xs prev ?_ (fun a ha => hlt a (sub a ha)) (fun a ha b hb => hn a (sub a ha) b (sub b hb))
      have h1 := List.pairwise_cons.1 hs
      exact List.pairwise_cons.2 ⟨fun a ha => h1.1 a (List.mem_cons_of_mem _ ha), (List.pairwise_cons.1 h1.2).2⟩
    · rw [if_neg h]
      have h1 := List.pairwise_cons.1 hs
      have ih := consolidateLoop_disjoint xs x h1.2 (fun a ha => hlt a (List.mem_cons_of_mem _ ha))
        (fun a ha b hb => hn a (List.mem_cons_of_mem _ ha) b (List.mem_cons_of_mem _ hb))
      have hd : prev.2 ≤ x.1 := by
        rw [spanLe_iff] at hx
        have l1 := hlt prev (by simp)
        have l2 := hlt x (by simp)
        rcases hn prev (by simp) x (by simp) with hw | hw | hw
        · obtain ⟨w1, w2⟩ := hw; omega
        · obtain ⟨w1, w2⟩ := hw; omega
        · rcases hw with w | w <;> omega
      refine ⟨List.pairwise_cons.2 ⟨?_, ih.1⟩, ?_⟩
      · intro a ha; exact Nat.le_trans hd (ih.2 a ha)
      · intro a ha
        rcases List.mem_cons.1 ha with rfl | ha
        · exact Nat.le_refl _
        · have := ih.2 a ha
          rw [spanLe_iff] at hx; omega

theorem consolidate_perm (l : List Span) : ((consolidate l).1 ++ (consolidate l).2).Perm l ∧
    ∀ r ∈ (consolidate l).2, ∃ k ∈ (consolidate l).1, r.within k := by
  unfold consolidate
  have hp := List.mergeSort_perm l spanLe
  cases hm : l.mergeSort spanLe with
  | nil => rw [hm] at hp; exact ⟨hp, by simp⟩
  | cons x xs =>
    rw [hm] at hp
    obtain ⟨h1, _, h3⟩ := consolidateLoop_perm xs x
    exact ⟨h1.trans hp, h3⟩

theorem consolidate_disjoint (l : List Span) (hlt : ∀ a ∈ l, a.1 < a.2)
    (hn : ∀ a ∈ l, ∀ b ∈ l, a.within b ∨ b.within a ∨ a.disjoint b) : (consolidate l).1.Pairwise (fun a b => a.2 ≤ b.1) := by
  unfold consolidate
  have hp := List.mergeSort_perm l spanLe
  have hs := List.pairwise_mergeSort (le := spanLe) spanLe_trans spanLe_total l
  cases hm : l.mergeSort spanLe with
  | nil => exact List.Pairwise.nil
  | cons x xs =>
    rw [hm] at hp hs
    exact (consolidateLoop_disjoint xs x hs (fun a ha => hlt a (hp.mem_iff.1 ha))
      (fun a ha b hb => hn a (hp.mem_iff.1 ha) b (hp.mem_iff.1 hb))).1

end Candy
