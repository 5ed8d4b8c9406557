import Verif.Proofs.Lists
/-!
# The visible items of a list
-/
namespace Candy
open Spec LItems

/-- The items of a list in order, without the internal indices. -/
def vis (L : List Entry) : OList := L.map Prod.snd

theorem vis_get (L : List Entry) (k : Bytes) : (vis L).get k = (byKey L k).map (fun e => e.2.2) := by
  unfold vis OList.get byKey
  rw [List.find?_map]
  simp only [Option.map_map]
  rfl

theorem vis_append (L : List Entry) (e : Entry) : vis (L ++ [e]) = vis L ++ [e.2] := by simp [vis]

theorem vis_setVal {L : List Entry} {k v : Bytes} (h : (byKey L k).isSome) : vis (setVal L k v) = (vis L).set k v := by
  unfold OList.set
  rw [vis_get, if_pos (by simpa using h)]
  unfold vis setVal
  rw [List.map_map, List.map_map]
  apply List.map_congr_left
  intro e _
  simp only [Function.comp]
  split <;> rfl

theorem vis_new {L : List Entry} {i : Nat} {k v : Bytes} (h : byKey L k = none) : vis (L ++ [(i, (k, v))]) = (vis L).set k v := by
  unfold OList.set
  rw [vis_get, h]
  simp [vis]

theorem vis_dropIdx {cfg m lph L} (h : LItems cfg m lph L) {e0 : Entry} (h0 : e0 ∈ L) :
    vis (dropIdx L e0.1) = (vis L).erase e0.2.1 := by
  unfold OList.erase vis dropIdx
  rw [List.filter_map]
  congr 1
  apply List.filter_congr
  intro e he
  simp only [Function.comp, ne_eq, decide_not]
  congr 1
  apply decide_eq_decide.2
  exact ⟨fun hi => by rw [h.idx_unique he h0 hi], fun hk => by rw [h.key_unique he h0 hk]⟩

theorem vis_distinct {cfg m lph L} (h : LItems cfg m lph L) : (vis L).Distinct := by
  unfold OList.Distinct vis
  rw [List.pairwise_map]
  have := h.sorted
  refine List.Pairwise.imp_of_mem ?_ this
  intro a b ha hb hab hk
  rw [h.key_unique ha hb hk] at hab
  omega

theorem dropIdx_length {cfg m lph L} (h : LItems cfg m lph L) {e0 : Entry} (h0 : e0 ∈ L) :
    (dropIdx L e0.1).length + 1 = L.length := by
  have hs := h.sorted
  clear h
  induction L with
  | nil => simp at h0
  | cons a l ih =>
    rw [List.pairwise_cons] at hs
    unfold dropIdx at *
    rcases List.mem_cons.1 h0 with rfl | h1
    · rw [List.filter_cons_of_neg (by simp)]
      rw [List.filter_eq_self.2]
      · rfl
      · intro b hb; have := hs.1 b hb; simp; omega
    · have := hs.1 _ h1
      rw [List.filter_cons_of_pos (by simp; omega)]
      simp only [List.length_cons]
      rw [ih h1 hs.2]

theorem filterMap_congr' {α β : Type} {f g : α → Option β} : ∀ {l : List α}, (∀ x ∈ l, f x = g x) → l.filterMap f = l.filterMap g
  | [], _ => rfl
  | a :: l, h => by
    rw [List.filterMap_cons, List.filterMap_cons, h a (by simp), filterMap_congr' (fun x hx => h x (List.mem_cons_of_mem _ hx))]

/-- The items found by going through all indices of a range. -/
theorem filterMap_byIdx {L : List Entry} (hs : L.Pairwise (fun a b => a.1 < b.1)) : ∀ (n h : Nat), (∀ e ∈ L, h ≤ e.1 ∧ e.1 < h + n) →
    (List.range' h n).filterMap (byIdx L) = L := by
  intro n
  induction n generalizing L with
  | zero =>
    intro h hb
    cases L with
    | nil => rfl
    | cons a l => have := hb a (by simp); omega
  | succ n ih =>
    intro h hb
    rw [List.range'_succ, List.filterMap_cons]
    cases L with
    | nil =>
      have := ih (L := []) (by simp) (h + 1) (by simp)
      simpa [byIdx] using this
    | cons a l =>
      rw [List.pairwise_cons] at hs
      have ha := hb a (by simp)
      by_cases e : a.1 = h
      · have h1 : byIdx (a :: l) h = some a := by simp [byIdx, e]
        rw [h1]
        simp only
        congr 1
        have h2 : ∀ j ∈ List.range' (h + 1) n, byIdx (a :: l) j = byIdx l j := by
          intro j hj
          rw [List.mem_range'_1] at hj
          unfold byIdx
          rw [List.find?_cons_of_neg (by simp; omega)]
        rw [filterMap_congr' h2]
        apply ih hs.2
        intro x hx
        have h1 := hs.1 x hx
        have h2 := hb x (List.mem_cons_of_mem _ hx)
        omega
      · have h1 : byIdx (a :: l) h = none := by
          unfold byIdx
          rw [List.find?_eq_none]
          intro x hx
          rcases List.mem_cons.1 hx with rfl | hx
          · simpa using e
          · have := hs.1 x hx; simp; omega
        rw [h1]
        apply ih (by rw [List.pairwise_cons]; exact hs)
        intro x hx
        have h2 := hb x hx
        rcases List.mem_cons.1 hx with rfl | hx'
        · omega
        · have := hs.1 x hx'; omega

theorem filterMap_idxs {L : List Entry} (hs : L.Pairwise (fun a b => a.1 < b.1)) {h t : Nat} (hb : ∀ e ∈ L, h ≤ e.1 ∧ e.1 < t) (fwd : Bool) :
    (idxs fwd h t).filterMap (byIdx L) = if fwd then L else L.reverse := by
  have h1 := filterMap_byIdx hs (t - h) h (fun e he => by have := hb e he; omega)
  unfold idxs
  cases fwd with
  | true => exact h1
  | false =>
    simp only [Bool.false_eq_true, if_false]
    rw [List.filterMap_reverse, h1]

theorem mem_idxs {fwd : Bool} {h t i : Nat} : i ∈ idxs fwd h t ↔ h ≤ i ∧ i < t := by
  unfold idxs
  cases fwd <;> simp [List.mem_range'_1] <;> omega

end Candy
