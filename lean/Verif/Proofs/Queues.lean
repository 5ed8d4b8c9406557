import Verif.Proofs.ListLoops
import Verif.Spec.Queues
/-!
# Queue operations refine deques
-/
namespace Candy
open Spec

/-- The raw keys that belong to a queue. -/
def QFoot (qk : Bytes) (k : Bytes) : Prop := k = queueKey qk ∨ ∃ i, k = qitemKey qk i

theorem QFoot.queue (qk) : QFoot qk (queueKey qk) := Or.inl rfl
theorem QFoot.item (qk i) : QFoot qk (qitemKey qk i) := Or.inr ⟨i, rfl⟩

/-- The raw map represents queue `qk` as the deque `q`; the record says it has `n` elements. Items outside the range may be left over
by failed calls. -/
structure QRep (cfg : Cfg) (m : Map) (qk : Bytes) (q : Deque) (n : Nat) : Prop where
  wf : q.WF
  record : m (queueKey qk) = q.range.map (fun p => encMeta p.1 p.2 n)
  tail_lt : ∀ h t, q.range = some (h, t) → t < U64
  cnt : ∀ h t, q.range = some (h, t) → q.elems.length ≤ n ∧ n < U64
  item : ∀ h t, q.range = some (h, t) → ∀ i, h ≤ i → i < t → m (qitemKey qk i) = q.at? i
  fit : ∀ h t, q.range = some (h, t) → sizeErr cfg (queueKey qk) (encMeta 0 0 0) = none

theorem sizeErr_qrec {cfg : Cfg} {qk : Bytes} {h t n : Nat} :
    sizeErr cfg (queueKey qk) (encMeta h t n) = sizeErr cfg (queueKey qk) (encMeta 0 0 0) :=
  sizeErr_congr (by rw [encMeta_length, encMeta_length])

theorem sizeErr_qitem {cfg : Cfg} {qk v : Bytes} {i : Nat} : sizeErr cfg (qitemKey qk i) v = sizeErr cfg (qitemKey qk 0) v :=
  sizeErr_congr' (by rw [qitemKey_length, qitemKey_length]) rfl

/-- Everything stored for an element of this queue is within the size limits. -/
def QueueFits (cfg : Cfg) (qk v : Bytes) : Prop :=
  sizeErr cfg (queueKey qk) (encMeta 0 0 0) = none ∧ sizeErr cfg (qitemKey qk 0) v = none

theorem at_append {q : Deque} {i j : Nat} {v : Bytes} (h : ∀ e ∈ q.elems, e.1 ≠ j) (r) :
    (⟨r, q.elems ++ [(j, v)]⟩ : Deque).at? i = if i = j then some v else q.at? i := by
  unfold Deque.at?
  simp only [List.find?_append, List.find?_singleton, decide_eq_true_eq]
  by_cases hi : i = j
  · subst hi
    have : q.elems.find? (fun e => decide (e.1 = i)) = none := by
      rw [List.find?_eq_none]; intro e he; simpa using h e he
    rw [this, if_pos rfl]; simp
  · rw [if_neg (fun e => hi e.symm), if_neg hi]; simp

theorem at_cons {q : Deque} {i j : Nat} {v : Bytes} (r) :
    (⟨r, (j, v) :: q.elems⟩ : Deque).at? i = if i = j then some v else q.at? i := by
  unfold Deque.at?
  by_cases hi : i = j
  · subst hi; simp
  · rw [if_neg hi]
    dsimp only
    rw [List.find?_cons_of_neg (by simpa using fun e => hi e.symm)]

theorem at_none {q : Deque} {i : Nat} (h : ∀ e ∈ q.elems, e.1 ≠ i) : q.at? i = none := by
  unfold Deque.at?
  rw [Option.map_eq_none_iff, List.find?_eq_none]
  intro e he; simpa using h e he

theorem at_mem {q : Deque} (h : q.WF) {e : Nat × Bytes} (he : e ∈ q.elems) : q.at? e.1 = some e.2 := by
  unfold Deque.at?
  cases hf : q.elems.find? (fun x => decide (x.1 = e.1)) with
  | none => have := List.find?_eq_none.1 hf e he; simp at this
  | some e' =>
    have h1 := List.mem_of_find?_eq_some hf
    have h2 : e'.1 = e.1 := by have := List.find?_some hf; simpa using this
    have : e' = e := by
      have hs := h.sorted
      clear hf h
      generalize q.elems = l at *
      induction l with
      | nil => simp at he
      | cons a l ih =>
        rw [List.pairwise_cons] at hs
        rcases List.mem_cons.1 he with rfl | h3 <;> rcases List.mem_cons.1 h1 with rfl | h4
        · rfl
        · have := hs.1 _ h4; omega
        · have := hs.1 _ h3; omega
        · exact ih h3 h4 hs.2
    rw [this]; rfl

theorem at_some {q : Deque} {i : Nat} {v : Bytes} (h : q.at? i = some v) : (i, v) ∈ q.elems := by
  unfold Deque.at? at h
  rw [Option.map_eq_some_iff] at h
  obtain ⟨e, h1, rfl⟩ := h
  have h2 : e.1 = i := by have := List.find?_some h1; simpa using this
  subst h2
  exact List.mem_of_find?_eq_some h1

/-- The deque and the count after a successful push. -/
def pushed (q : Deque) (v : Bytes) : QPos → Deque
  | .head => q.pushHead v
  | .tail => q.pushTail v
/-- The index a push returns. -/
def pushIdx (q : Deque) : QPos → Nat
  | .head => q.headIdx
  | .tail => q.tailIdx
/-- There is no index left (or the counter is at its end). -/
def QFull (q : Deque) (n : Nat) : QPos → Prop
  | .head => ∃ h t, q.range = some (h, t) ∧ (h = 0 ∨ U64 ≤ n + 1)
  | .tail => ∃ h t, q.range = some (h, t) ∧ (U64 ≤ t + 1 ∨ U64 ≤ n + 1)

/-- The deque after the record has been updated by a push but before the element has been written: whatever is stored there has become
visible. -/
def bumped (m : Map) (qk : Bytes) (q : Deque) (pos : QPos) : Deque :=
  match m (qitemKey qk (pushIdx q pos)) with
  | some v => pushed q v pos
  | none => match pos with
    | .head => ⟨some (q.headIdx, (q.range.getD (FIRST, FIRST + 1)).2), q.elems⟩
    | .tail => ⟨some ((q.range.getD (FIRST, FIRST)).1, q.tailIdx + 1), q.elems⟩

theorem QRep.push {cfg m qk q n} (h : QRep cfg m qk q n) {v : Bytes} {pos : QPos} {m' : Map} {r : Nat × Nat}
    (hr : (pushed q v pos).range = some r) (hfull : ¬ QFull q n pos)
    (hrec : m' (queueKey qk) = some (encMeta r.1 r.2 (if q.range = none then 1 else n + 1)))
    (hitem : m' (qitemKey qk (pushIdx q pos)) = some v)
    (hother : ∀ i, i < U64 → i ≠ pushIdx q pos → m' (qitemKey qk i) = m (qitemKey qk i))
    (hfit : sizeErr cfg (queueKey qk) (encMeta 0 0 0) = none) :
    QRep cfg m' qk (pushed q v pos) (if q.range = none then 1 else n + 1) := by
  have hlt63 : FIRST + 1 < U64 := by decide
  obtain ⟨range, elems⟩ := q
  cases range with
  | none =>
    have he : elems = [] := h.wf.nil rfl
    subst he
    have hp : pushed ⟨none, []⟩ v pos = ⟨some (FIRST, FIRST + 1), [(FIRST, v)]⟩ := by cases pos <;> rfl
    have hi : pushIdx ⟨none, []⟩ pos = FIRST := by cases pos <;> rfl
    rw [hp] at hr ⊢
    rw [hi] at hitem
    simp only [Option.some.injEq] at hr
    subst hr
    rw [if_pos rfl] at hrec ⊢
    refine ⟨⟨List.pairwise_singleton _ _, by simp, ?_⟩, hrec, ?_, ?_, ?_, ?_⟩
    · rintro _ _ ⟨⟩; exact ⟨by decide, by simp⟩
    · rintro _ _ ⟨⟩; exact hlt63
    · rintro _ _ ⟨⟩; exact ⟨Nat.le_refl _, by decide⟩
    · rintro _ _ ⟨⟩ i h1 h2
      have : i = FIRST := by omega
      subst this
      rw [hitem]; simp [Deque.at?]
    · intros; exact hfit
  | some ht =>
    obtain ⟨hd, tl⟩ := ht
    rw [if_neg (by simp)] at hrec ⊢
    have hc := h.cnt hd tl rfl
    have htl := h.tail_lt hd tl rfl
    have hb := (h.wf.bnd hd tl rfl).2
    have hle := (h.wf.bnd hd tl rfl).1
    have hit := h.item hd tl rfl
    cases pos with
    | tail =>
      have hnf : tl + 1 < U64 := Nat.lt_of_not_le (fun e => hfull ⟨hd, tl, rfl, Or.inl e⟩)
      have hnn : n + 1 < U64 := Nat.lt_of_not_le (fun e => hfull ⟨hd, tl, rfl, Or.inr e⟩)
      have hp : pushed ⟨some (hd, tl), elems⟩ v .tail = ⟨some (hd, tl + 1), elems ++ [(tl, v)]⟩ := rfl
      have hi : pushIdx ⟨some (hd, tl), elems⟩ .tail = tl := rfl
      rw [hp] at hr ⊢
      rw [hi] at hitem hother
      simp only [Option.some.injEq] at hr
      subst hr
      refine ⟨⟨?_, by simp, ?_⟩, hrec, ?_, ?_, ?_, ?_⟩
      · dsimp only
        rw [List.pairwise_append]
        exact ⟨h.wf.sorted, List.pairwise_singleton _ _, fun a ha b hb' => by
          rw [List.mem_singleton.1 hb']; exact (hb a ha).2⟩
      · rintro _ _ ⟨⟩
        refine ⟨by omega, fun e he => ?_⟩
        rcases List.mem_append.1 he with he | he
        · have := hb e he; omega
        · rw [List.mem_singleton.1 he]; dsimp only; omega
      · rintro _ _ ⟨⟩; omega
      · rintro _ _ ⟨⟩
        have : elems.length ≤ n := hc.1
        simp; omega
      · rintro _ _ ⟨⟩ i h1 h2
        rw [at_append (q := ⟨some (hd, tl), elems⟩) (fun e he => by have := hb e he; omega)]
        split
        · rename_i e; rw [e]; exact hitem
        · rename_i e; rw [hother i (by omega) e]; exact hit i h1 (by omega)
      · intros; exact hfit
    | head =>
      have hnf : hd ≠ 0 := fun e => hfull ⟨hd, tl, rfl, Or.inl e⟩
      have hnn : n + 1 < U64 := Nat.lt_of_not_le (fun e => hfull ⟨hd, tl, rfl, Or.inr e⟩)
      have hp : pushed ⟨some (hd, tl), elems⟩ v .head = ⟨some (hd - 1, tl), (hd - 1, v) :: elems⟩ := rfl
      have hi : pushIdx ⟨some (hd, tl), elems⟩ .head = hd - 1 := rfl
      rw [hp] at hr ⊢
      rw [hi] at hitem hother
      simp only [Option.some.injEq] at hr
      subst hr
      refine ⟨⟨?_, by simp, ?_⟩, hrec, ?_, ?_, ?_, ?_⟩
      · dsimp only
        rw [List.pairwise_cons]
        exact ⟨fun a ha => by have := hb a ha; omega, h.wf.sorted⟩
      · rintro _ _ ⟨⟩
        refine ⟨by omega, fun e he => ?_⟩
        rcases List.mem_cons.1 he with rfl | he
        · dsimp only; omega
        · have := hb e he; omega
      · rintro _ _ ⟨⟩; omega
      · rintro _ _ ⟨⟩
        have : elems.length ≤ n := hc.1
        simp; omega
      · rintro _ _ ⟨⟩ i h1 h2
        rw [at_cons (q := ⟨some (hd, tl), elems⟩)]
        split
        · rename_i e; rw [e]; exact hitem
        · rename_i e; rw [hother i (by omega) e]; exact hit i (by omega) h2
      · intros; exact hfit

theorem QRep.bump {cfg m qk q n} (h : QRep cfg m qk q n) {pos : QPos} {m' : Map} {r : Nat × Nat}
    (hr : (pushed q [] pos).range = some r) (hfull : ¬ QFull q n pos)
    (hrec : m' (queueKey qk) = some (encMeta r.1 r.2 (if q.range = none then 1 else n + 1)))
    (hother : ∀ i, i < U64 → m' (qitemKey qk i) = m (qitemKey qk i))
    (hidx : pushIdx q pos < U64)
    (hfit : sizeErr cfg (queueKey qk) (encMeta 0 0 0) = none) :
    QRep cfg m' qk (bumped m qk q pos) (if q.range = none then 1 else n + 1) := by
  unfold bumped
  cases hm : m (qitemKey qk (pushIdx q pos)) with
  | some v =>
    have hr' : (pushed q v pos).range = some r := by rw [← hr]; cases pos <;> rfl
    exact h.push hr' hfull hrec (by rw [hother _ hidx, hm]) (fun i hi _ => hother i hi) hfit
  | none =>
    have hlt63 : FIRST + 1 < U64 := by decide
    dsimp only
    obtain ⟨range, elems⟩ := q
    cases range with
    | none =>
      have he : elems = [] := h.wf.nil rfl
      subst he
      have hp : (match pos with
          | .head => (⟨some ((⟨none, []⟩ : Deque).headIdx, (((⟨none, []⟩ : Deque).range).getD (FIRST, FIRST + 1)).2), []⟩ : Deque)
          | .tail => ⟨some (((⟨none, []⟩ : Deque).range.getD (FIRST, FIRST)).1, (⟨none, []⟩ : Deque).tailIdx + 1), []⟩) =
          ⟨some (FIRST, FIRST + 1), []⟩ := by cases pos <;> rfl
      have hi : pushIdx ⟨none, []⟩ pos = FIRST := by cases pos <;> rfl
      have hr' : r = (FIRST, FIRST + 1) := by cases pos <;> exact (Option.some.inj hr).symm
      subst hr'
      rw [hp]
      rw [hi] at hm
      rw [if_pos rfl] at hrec ⊢
      refine ⟨⟨List.Pairwise.nil, by simp, ?_⟩, hrec, ?_, ?_, ?_, ?_⟩
      · rintro _ _ ⟨⟩; exact ⟨by decide, by simp⟩
      · rintro _ _ ⟨⟩; exact hlt63
      · rintro _ _ ⟨⟩; exact ⟨by simp, by decide⟩
      · rintro _ _ ⟨⟩ i h1 h2
        have : i = FIRST := by omega
        subst this
        rw [hother _ (by omega), hm]; simp [Deque.at?]
      · intros; exact hfit
    | some ht =>
      obtain ⟨hd, tl⟩ := ht
      rw [if_neg (by simp)] at hrec ⊢
      have hc := h.cnt hd tl rfl
      have htl := h.tail_lt hd tl rfl
      have hb := (h.wf.bnd hd tl rfl).2
      have hle := (h.wf.bnd hd tl rfl).1
      have hit := h.item hd tl rfl
      have hat : ∀ i r, (⟨r, elems⟩ : Deque).at? i = (⟨some (hd, tl), elems⟩ : Deque).at? i := fun _ _ => rfl
      cases pos with
      | tail =>
        have hnf : tl + 1 < U64 := Nat.lt_of_not_le (fun e => hfull ⟨hd, tl, rfl, Or.inl e⟩)
        have hnn : n + 1 < U64 := Nat.lt_of_not_le (fun e => hfull ⟨hd, tl, rfl, Or.inr e⟩)
        have hr' : r = (hd, tl + 1) := (Option.some.inj hr).symm
        subst hr'
        have hi : pushIdx ⟨some (hd, tl), elems⟩ .tail = tl := rfl
        rw [hi] at hm
        show QRep cfg m' qk ⟨some (hd, tl + 1), elems⟩ (n + 1)
        refine ⟨⟨h.wf.sorted, by simp, ?_⟩, hrec, ?_, ?_, ?_, ?_⟩
        · rintro _ _ ⟨⟩
          exact ⟨by omega, fun e he => by have := hb e he; omega⟩
        · rintro _ _ ⟨⟩; omega
        · rintro _ _ ⟨⟩
          have : elems.length ≤ n := hc.1
          dsimp only; omega
        · rintro _ _ ⟨⟩ i h1 h2
          rw [hother i (by omega), hat]
          by_cases e : i = tl
          · rw [e, hm, at_none]; intro x hx; have := hb x hx; omega
          · exact hit i h1 (by omega)
        · intros; exact hfit
      | head =>
        have hnf : hd ≠ 0 := fun e => hfull ⟨hd, tl, rfl, Or.inl e⟩
        have hnn : n + 1 < U64 := Nat.lt_of_not_le (fun e => hfull ⟨hd, tl, rfl, Or.inr e⟩)
        have hr' : r = (hd - 1, tl) := (Option.some.inj hr).symm
        subst hr'
        have hi : pushIdx ⟨some (hd, tl), elems⟩ .head = hd - 1 := rfl
        rw [hi] at hm
        show QRep cfg m' qk ⟨some (hd - 1, tl), elems⟩ (n + 1)
        refine ⟨⟨h.wf.sorted, by simp, ?_⟩, hrec, ?_, ?_, ?_, ?_⟩
        · rintro _ _ ⟨⟩
          exact ⟨by omega, fun e he => by have := hb e he; omega⟩
        · rintro _ _ ⟨⟩; omega
        · rintro _ _ ⟨⟩
          have : elems.length ≤ n := hc.1
          dsimp only; omega
        · rintro _ _ ⟨⟩ i h1 h2
          rw [hother i (by omega), hat]
          by_cases e : i = hd - 1
          · rw [e, hm, at_none]; intro x hx; have := hb x hx; omega
          · exact hit i (by omega) h2
        · intros; exact hfit

/-- Nothing is stored for the queue except its elements. -/
def GF (m : Map) (qk : Bytes) (q : Deque) : Prop := ∀ i, i < U64 → m (qitemKey qk i) = q.at? i

theorem GF.push {cfg m qk q n} (h : QRep cfg m qk q n) (hg : GF m qk q) {v : Bytes} {pos : QPos} (hfull : ¬ QFull q n pos) {m' : Map}
    (hitem : m' (qitemKey qk (pushIdx q pos)) = some v)
    (hother : ∀ i, i < U64 → i ≠ pushIdx q pos → m' (qitemKey qk i) = m (qitemKey qk i)) : GF m' qk (pushed q v pos) := by
  have hat : ∀ i, (pushed q v pos).at? i = if i = pushIdx q pos then some v else q.at? i := by
    intro i
    cases pos with
    | head => exact at_cons _
    | tail =>
      refine at_append (fun e he => ?_) _
      show e.1 ≠ q.tailIdx
      unfold Deque.tailIdx
      cases hr : q.range with
      | none => rw [h.wf.nil hr] at he; simp at he
      | some p =>
        have := (h.wf.bnd p.1 p.2 hr).2 e he
        dsimp only; omega
  intro i hi
  rw [hat i]
  split
  · rename_i e; rw [e]; exact hitem
  · rename_i e; rw [hother i hi e]; exact hg i hi

/-- Postcondition of a push. -/
def PushPost (cfg : Cfg) (m : Map) (qk : Bytes) (q : Deque) (n : Nat) (v : Bytes) (pos : QPos) (m' : Map) (r : Res Nat) : Prop :=
  SameOutside (QFoot qk) m m' ∧
  match r with
  | .ok i => i = pushIdx q pos ∧ QRep cfg m' qk (pushed q v pos) (if q.range = none then 1 else n + 1) ∧ QueueFits cfg qk v ∧
      (GF m qk q → GF m' qk (pushed q v pos))
  | .err _ => ¬ QueueFits cfg qk v ∧ (QRep cfg m' qk q n ∨ QRep cfg m' qk (bumped m qk q pos) (if q.range = none then 1 else n + 1))
  | .panic => False
  | .exhausted => QFull q n pos

theorem pushIdx_lt {cfg m qk q n} (h : QRep cfg m qk q n) (pos : QPos) : pushIdx q pos < U64 := by
  obtain ⟨range, elems⟩ := q
  cases range with
  | none => cases pos <;> exact (by decide : FIRST < U64)
  | some ht =>
    obtain ⟨hd, tl⟩ := ht
    have htl := h.tail_lt hd tl rfl
    have hle := (h.wf.bnd hd tl rfl).1
    cases pos
    · show hd - 1 < U64; omega
    · show tl < U64; exact htl

theorem and_self_left {a b : Prop} (h : a ∧ b) : a ∧ a ∧ b := ⟨h.1, h⟩

/-- Invariant during a push: the old queue, the queue with the index reserved, or the queue with the element. -/
structure PushInv (cfg : Cfg) (I : Map → Prop) (m : Map) (qk : Bytes) (q : Deque) (n : Nat) (v : Bytes) (pos : QPos) : Prop where
  start : I m
  bump : ∀ m', ¬ QFull q n pos → QRep cfg m' qk (bumped m qk q pos) (if q.range = none then 1 else n + 1) → I m'
  push : ∀ m', QRep cfg m' qk (pushed q v pos) (if q.range = none then 1 else n + 1) → I m'

theorem PushInv.noInv {cfg m qk q n v pos} : PushInv cfg noInv m qk q n v pos := ⟨trivial, fun _ _ _ => trivial, fun _ _ => trivial⟩

theorem wp_setQItem {cfg I m m1 qk q n v pos} (hI : PushInv cfg I m qk q n v pos) (h : QRep cfg m qk q n) (hfull : ¬ QFull q n pos) {r : Nat × Nat}
    (hr : (pushed q v pos).range = some r) (hs : SameOutside (QFoot qk) m m1)
    (hm1 : m1 = m.upd (queueKey qk) (some (encMeta r.1 r.2 (if q.range = none then 1 else n + 1))))
    (hfit : sizeErr cfg (queueKey qk) (encMeta 0 0 0) = none) :
    I m1 ∧ wp cfg I (do
      let _ ← setRaw (qitemKey qk (pushIdx q pos)) v
      return (pushIdx q pos)) m1 (PushPost cfg m qk q n v pos) := by
  have hidx := pushIdx_lt h pos
  have hm1i : ∀ i, m1 (qitemKey qk i) = m (qitemKey qk i) := by
    intro i; rw [hm1]; exact Map.upd_other _ _ (fun e => queueKey_ne_qitem qk qk i e.symm)
  have hm1r : m1 (queueKey qk) = some (encMeta r.1 r.2 (if q.range = none then 1 else n + 1)) := by rw [hm1]; simp
  have hbump : QRep cfg m1 qk (bumped m qk q pos) (if q.range = none then 1 else n + 1) := by
    refine h.bump (r := r) ?_ hfull hm1r (fun i _ => hm1i i) hidx hfit
    rw [← hr]; cases pos <;> rfl
  refine ⟨hI.bump _ hfull hbump, ?_⟩
  rw [wp_bind, wp_setRaw, sizeErr_qitem]
  refine ⟨hI.bump _ hfull hbump, ?_⟩
  cases hv : sizeErr cfg (qitemKey qk 0) v with
  | some e => exact ⟨hs, fun hf => by rw [hf.2] at hv; simp at hv, Or.inr hbump⟩
  | none =>
    have ho : ∀ i, i < U64 → i ≠ pushIdx q pos → m1.upd (qitemKey qk (pushIdx q pos)) (some v) (qitemKey qk i) = m (qitemKey qk i) := by
      intro i hi hne
      rw [Map.upd_other _ _ (fun e => hne (qitemKey_inj hi hidx e).2), hm1i]
    have hpush : QRep cfg (m1.upd (qitemKey qk (pushIdx q pos)) (some v)) qk (pushed q v pos) (if q.range = none then 1 else n + 1) := by
      refine h.push hr hfull ?_ (by simp) ho hfit
      rw [Map.upd_other _ _ (queueKey_ne_qitem _ _ _)]; exact hm1r
    exact ⟨hI.push _ hpush, hI.push _ hpush, hs.upd (QFoot.item qk _), rfl, hpush, ⟨hfit, hv⟩, fun hg => GF.push h hg hfull (by simp) ho⟩

set_option maxHeartbeats 1000000 in
theorem wp_pushQueueBody' {cfg I m qk q n} (v : Bytes) (pos : QPos) (h : QRep cfg m qk q n) (hI : PushInv cfg I m qk q n v pos) :
    wp cfg I (pushQueueBody qk v pos) m (PushPost cfg m qk q n v pos) := by
  unfold pushQueueBody
  rw [wp_bind]
  rw [wp_bind, wp_gocRaw, sizeErr_qrec]
  refine ⟨hI.start, ?_⟩
  cases hfit : sizeErr cfg (queueKey qk) (encMeta 0 0 0) with
  | some e => exact ⟨SameOutside.refl _ _, fun hf => by rw [hf.1] at hfit; simp at hfit, Or.inl h⟩
  | none =>
    obtain ⟨range, elems⟩ := q
    cases hq : range with
    | none =>
      subst hq
      have hm : m (queueKey qk) = none := h.record
      have hi : pushIdx ⟨none, elems⟩ pos = FIRST_IDX := by cases pos <;> rfl
      rw [hm]
      dsimp only [seqPost, gocOf, Option.getD_none]
      refine and_self_left ?_
      dsimp only [seqPost]
      rw [← hi]
      refine wp_setQItem (r := (FIRST, FIRST + 1)) hI h ?_ ?_ ((SameOutside.refl _ _).upd (QFoot.queue qk)) ?_ hfit
      · cases pos
        · rintro ⟨_, _, h1, _⟩; simp at h1
        · rintro ⟨_, _, h1, _⟩; simp at h1
      · cases pos <;> rfl
      · rw [if_pos rfl, hi]
    | some ht =>
      obtain ⟨hd, tl⟩ := ht
      subst hq
      have hm : m (queueKey qk) = some (encMeta hd tl n) := h.record
      have hc := h.cnt hd tl rfl
      have htl := h.tail_lt hd tl rfl
      rw [hm]
      dsimp only [seqPost, gocOf, Option.getD_some]
      have hself : m.upd (queueKey qk) (some (encMeta hd tl n)) = m := by rw [← hm]; exact m.upd_self _
      have hle := (h.wf.bnd hd tl rfl).1
      rw [hself]
      refine ⟨hI.start, ?_⟩
      rw [wp_bind, wp_decMeta (by omega) htl (by omega)]
      refine ⟨hI.start, ?_⟩
      dsimp only [seqPost]
      cases pos with
      | head =>
        dsimp only
        rw [wp_bind]
        unfold idxPred idxSucc
        by_cases h0 : 0 < hd
        · rw [if_pos h0]
          refine ⟨hI.start, ?_⟩
          dsimp only [seqPost]
          rw [wp_bind]
          by_cases h1 : n + 1 < U64
          · rw [if_pos h1]
            refine ⟨hI.start, ?_⟩
            dsimp only [seqPost]
            rw [wp_bind, wp_setRaw, sizeErr_qrec, hfit]
            refine ⟨hI.start, ?_⟩
            refine and_self_left ?_
            exact wp_setQItem (pos := .head) (r := (hd - 1, tl)) hI h
                (by rintro ⟨_, _, ⟨⟩, h2⟩; omega) rfl ((SameOutside.refl _ _).upd (QFoot.queue qk)) (by rw [if_neg (by simp)]) hfit
          · rw [if_neg h1]
            exact ⟨hI.start, SameOutside.refl _ _, hd, tl, rfl, by omega⟩
        · rw [if_neg h0]
          exact ⟨hI.start, SameOutside.refl _ _, hd, tl, rfl, by omega⟩
      | tail =>
        dsimp only
        rw [wp_bind]
        unfold idxSucc
        by_cases h0 : tl + 1 < U64
        · rw [if_pos h0]
          refine ⟨hI.start, ?_⟩
          dsimp only [seqPost]
          rw [wp_bind]
          by_cases h1 : n + 1 < U64
          · rw [if_pos h1]
            refine ⟨hI.start, ?_⟩
            dsimp only [seqPost]
            rw [wp_bind, wp_setRaw, sizeErr_qrec, hfit]
            refine ⟨hI.start, ?_⟩
            refine and_self_left ?_
            exact wp_setQItem (pos := .tail) (r := (hd, tl + 1)) hI h
                (by rintro ⟨_, _, ⟨⟩, h2⟩; omega) rfl ((SameOutside.refl _ _).upd (QFoot.queue qk)) (by rw [if_neg (by simp)]) hfit
          · rw [if_neg h1]
            exact ⟨hI.start, SameOutside.refl _ _, hd, tl, rfl, by omega⟩
        · rw [if_neg h0]
          exact ⟨hI.start, SameOutside.refl _ _, hd, tl, rfl, by omega⟩

theorem wp_pushQueueBody {cfg m qk q n} (v : Bytes) (pos : QPos) (h : QRep cfg m qk q n) :
    wp cfg noInv (pushQueueBody qk v pos) m (PushPost cfg m qk q n v pos) := wp_pushQueueBody' v pos h .noInv

end Candy
