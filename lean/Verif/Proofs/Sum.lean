/-!
# Finite sums over initial segments of the naturals
-/
namespace Candy

/-- `g 0 + .. + g (n-1)`. -/
def sumTo : Nat → (Nat → Nat) → Nat
  | 0, _ => 0
  | n + 1, g => sumTo n g + g n

theorem sumTo_congr {g h : Nat → Nat} : ∀ {n : Nat}, (∀ i, i < n → g i = h i) → sumTo n g = sumTo n h
  | 0, _ => rfl
  | n + 1, H => by
    simp only [sumTo]
    rw [sumTo_congr (fun i hi => H i (by omega)), H n (by omega)]

theorem sumTo_update {g h : Nat → Nat} {c : Nat} : ∀ {n : Nat}, c < n → (∀ i, i < n → i ≠ c → h i = g i) →
    sumTo n h + g c = sumTo n g + h c
  | 0, hc, _ => by omega
  | n + 1, hc, H => by
    simp only [sumTo]
    by_cases e : c = n
    · subst e
      rw [sumTo_congr (g := h) (h := g) (fun i hi => H i (by omega) (by omega))]
      omega
    · have := sumTo_update (g := g) (h := h) (c := c) (n := n) (by omega) (fun i hi hne => H i (by omega) hne)
      rw [H n (by omega) (by omega)]
      omega

theorem sumTo_zero {g : Nat → Nat} : ∀ {n : Nat}, (∀ i, i < n → g i = 0) → sumTo n g = 0
  | 0, _ => rfl
  | n + 1, H => by
    simp only [sumTo]
    rw [sumTo_zero (fun i hi => H i (by omega)), H n (by omega)]

theorem sumTo_add {g h : Nat → Nat} : ∀ {n : Nat}, sumTo n (fun i => g i + h i) = sumTo n g + sumTo n h
  | 0 => rfl
  | n + 1 => by
    simp only [sumTo]
    rw [sumTo_add]; omega

theorem sumTo_mono {g h : Nat → Nat} : ∀ {n : Nat}, (∀ i, i < n → g i ≤ h i) → sumTo n g ≤ sumTo n h
  | 0, _ => Nat.le_refl _
  | n + 1, H => by
    simp only [sumTo]
    have := sumTo_mono (fun i hi => H i (by omega) : ∀ i, i < n → g i ≤ h i)
    have := H n (by omega)
    omega

theorem le_sumTo {g : Nat → Nat} {c : Nat} : ∀ {n : Nat}, c < n → g c ≤ sumTo n g
  | 0, h => by omega
  | n + 1, h => by
    simp only [sumTo]
    by_cases e : c = n
    · subst e; omega
    · have := le_sumTo (g := g) (c := c) (n := n) (by omega); omega

/-- Splitting a sum: the terms below `m` and the rest. -/
theorem sumTo_split {g : Nat → Nat} {m : Nat} : ∀ {n : Nat}, m ≤ n →
    sumTo n g = sumTo m g + sumTo n (fun i => if i < m then 0 else g i)
  | 0, h => by
    have : m = 0 := by omega
    subst this; rfl
  | n + 1, h => by
    by_cases e : m = n + 1
    · subst e
      rw [sumTo_zero (n := n+1) (g := fun i => if i < n + 1 then 0 else g i)]
      · rfl
      · intro i hi; simp; omega
    · simp only [sumTo]
      rw [sumTo_split (m := m) (n := n) (by omega)]
      rw [if_neg (by omega)]
      omega

theorem map_sum_filterMap_range {α : Type} (f : Nat → Option α) (w : α → Nat) : ∀ n : Nat,
    (((List.range n).filterMap f).map w).sum = sumTo n (fun i => match f i with | some a => w a | none => 0)
  | 0 => rfl
  | n + 1 => by
    rw [List.range_succ, List.filterMap_append, List.map_append, List.sum_append, map_sum_filterMap_range f w n]
    simp only [sumTo]
    congr 1
    cases h : f n <;> simp [h]

theorem filterMap_congr {α β : Type} {f g : α → Option β} : ∀ {l : List α}, (∀ a ∈ l, f a = g a) → l.filterMap f = l.filterMap g
  | [], _ => rfl
  | a :: l, h => by
    rw [List.filterMap_cons, List.filterMap_cons, h a (List.mem_cons_self),
      filterMap_congr (fun b hb => h b (List.mem_cons_of_mem _ hb))]

attribute [irreducible] sumTo

end Candy
