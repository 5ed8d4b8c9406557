import Verif.Proofs.Doom
import Verif.Proofs.Abs
import Verif.Spec.Stay
/-!
# Elements of a queue that nobody takes out stay where they are
-/
namespace Candy
open Spec

def metaHead (b : Bytes) : Nat := dec64 (b.take 8)
def metaTail (b : Bytes) : Nat := dec64 ((b.drop 8).take 8)

theorem metaHead_enc {h t n : Nat} (hh : h < U64) : metaHead (encMeta h t n) = h := by
  have e : (encMeta h t n).take 8 = enc64 h := by
    unfold encMeta; rw [List.append_assoc, List.take_left' (by simp)]
  unfold metaHead; rw [e, dec64_enc64_of_lt hh]
theorem metaTail_enc {h t n : Nat} (ht : t < U64) : metaTail (encMeta h t n) = t := by
  have e : ((encMeta h t n).drop 8).take 8 = enc64 t := by
    unfold encMeta; rw [List.append_assoc, List.drop_left' (by simp), List.take_left' (by simp)]
  unfold metaTail; rw [e, dec64_enc64_of_lt ht]
theorem dec64_lt {b : Bytes} (h : b.length = 8) : dec64 b < U64 := (dec64_of_length h).1
theorem metaHead_lt {b : Bytes} (h : b.length = 24) : metaHead b < U64 := dec64_lt (by rw [List.length_take, h]; rfl)
theorem metaTail_lt {b : Bytes} (h : b.length = 24) : metaTail b < U64 := dec64_lt (by rw [List.length_take, List.length_drop, h]; rfl)

theorem types_decMeta' {cfg : Cfg} {T : Typing} {Pan : Prop} {b : Bytes} (h : b.length = 24) :
    (decMeta b).Types cfg T Pan (fun l => l.head = metaHead b ∧ l.tail = metaTail b) :=
  (types_decMeta h).mono (fun l e => by subst e; exact ⟨rfl, rfl⟩) id

/-- The elements `e` are in the queue: the record covers their indices. -/
structure QT (cfg : Cfg) (qk : Bytes) (e : Nat → Option Bytes) (k : Bytes) (o : Option Bytes) : Prop where
  shape : Shape cfg k o
  record : k = queueKey qk → ∀ i v, e i = some v → ∃ b, o = some b ∧ metaHead b ≤ i ∧ i < metaTail b
  item : ∀ i v, i < U64 → e i = some v → k = qitemKey qk i → o = some v

section
variable {cfg : Cfg} {qk : Bytes} {e : Nat → Option Bytes} {D : Prop}

theorem qt_of_not {k : Bytes} {o : Option Bytes} (h : ¬ QFoot qk k) (hs : Shape cfg k o) : QT cfg qk e k o :=
  ⟨hs, fun h1 => absurd (.inl h1) h, fun i _ _ _ h1 => absurd (.inr ⟨i, h1⟩) h⟩

theorem qt_rec {b : Bytes} : QT cfg qk e (queueKey qk) (some b) ↔ b.length = 24 ∧ ∀ i v, e i = some v → metaHead b ≤ i ∧ i < metaTail b := by
  constructor
  · intro h
    refine ⟨shape_queue.1 h.shape, fun i v hi => ?_⟩
    obtain ⟨b', h1, h2⟩ := h.record rfl i v hi
    cases h1
    exact h2
  · rintro ⟨h1, h2⟩
    refine ⟨shape_queue.2 h1, fun _ i v hi => ⟨b, rfl, h2 i v hi⟩, fun i v _ _ h => ?_⟩
    rw [queueKey_eq, qitemKey_eq] at h
    exact absurd h (ne_of_ns (by decide))

theorem qt_rec_none : QT cfg qk e (queueKey qk) none ↔ ∀ i, e i = none := by
  constructor
  · intro h i
    cases hi : e i with
    | none => rfl
    | some v => obtain ⟨b, h1, _⟩ := h.record rfl i v hi; cases h1
  · intro h
    exact ⟨shape_none, (fun _ i v hi => by rw [h i] at hi; cases hi), (fun i v _ hi => by rw [h i] at hi; cases hi)⟩

theorem qt_item {i : Nat} (hi : i < U64) {o : Option Bytes} : QT cfg qk e (qitemKey qk i) o ↔ ∀ v, e i = some v → o = some v := by
  constructor
  · exact fun h v hv => h.item i v hi hv rfl
  · intro h
    refine ⟨shape_qitem, fun h1 => ?_, fun j v hj hv h1 => ?_⟩
    · rw [queueKey_eq, qitemKey_eq] at h1
      exact absurd h1 (ne_of_ns (by decide))
    · rw [← (qitemKey_inj hi hj h1).2] at hv
      exact h v hv

theorem qt_enc {h t n : Nat} (hh : h < U64) (ht : t < U64) (hs : ∀ i v, e i = some v → h ≤ i ∧ i < t) : QT cfg qk e (queueKey qk) (some (encMeta h t n)) :=
  qt_rec.2 ⟨encMeta_length _ _ _, fun i v hi => by rw [metaHead_enc hh, metaTail_enc ht]; exact hs i v hi⟩

/-! ## Reading -/

/-- The record as `fetch_queue` returns it. -/
def Covers (e : Nat → Option Bytes) (o : Option Meta) : Prop :=
  (∀ q, o = some q → q.head < U64 ∧ q.tail < U64) ∧ ∀ i v, e i = some v → ∃ q, o = some q ∧ q.head ≤ i ∧ i < q.tail

theorem qtypes_fetch : (fetchQueue cfg qk).Types cfg (QT cfg qk e) True (Covers e) := by
  unfold fetchQueue
  refine (types_withLock types_getRaw).bind' (fun o ho => ?_)
  split
  · exact ⟨(fun q h => by cases h), (fun i v hi => by rw [qt_rec_none.1 ho i] at hi; cases hi)⟩
  · rename_i b
    obtain ⟨h1, h2⟩ := qt_rec.1 ho
    refine (types_decMeta' h1).bind' (fun q hq => ⟨fun q' h => ?_, fun i v hi => ⟨q, rfl, ?_⟩⟩)
    · cases h; rw [hq.1, hq.2]; exact ⟨metaHead_lt h1, metaTail_lt h1⟩
    · rw [hq.1, hq.2]; exact h2 i v hi

theorem qtypes_collect : ∀ is : List Nat, (∀ i ∈ is, i < U64) →
    (collectQ qk is).Types cfg (QT cfg qk e) True (fun l => l.filter (fun x => (e x.1).isSome) = is.filterMap (fun i => (e i).map (fun v => (i, v))))
  | [], _ => rfl
  | i :: is, h => by
    have ih := qtypes_collect is (fun j hj => h j (List.mem_cons_of_mem _ hj))
    unfold collectQ
    refine types_getRaw.bind' (fun o ho => ?_)
    have ho := (qt_item (h i List.mem_cons_self)).1 ho
    cases o with
    | none =>
      refine ih.mono (fun l hl => ?_) id
      cases hi : e i with
      | none => rw [List.filterMap_cons_none (by rw [hi]; rfl)]; exact hl
      | some v => cases ho v hi
    | some w =>
      refine ih.bind' (fun l hl => ?_)
      show List.filter _ ((i, w) :: l) = _
      cases hi : e i with
      | none => rw [List.filterMap_cons_none (by rw [hi]; rfl), List.filter_cons_of_neg (by simp [hi])]; exact hl
      | some v =>
        cases ho v hi
        rw [List.filterMap_cons_some (by rw [hi]; rfl), List.filter_cons_of_pos (by simp [hi]), hl]

/-- The elements that stay, in the order of an iterator over a range. -/
def staying (e : Nat → Option Bytes) (is : List Nat) : List (Nat × Bytes) := is.filterMap (fun i => (e i).map (fun v => (i, v)))

theorem idxs_lt {fwd : Bool} {h t : Nat} (ht : t < U64) : ∀ i ∈ idxs fwd h t, i < U64 :=
  fun _ hi => Nat.lt_trans (mem_idxs.1 hi).2 ht

theorem qtypes_iter {fwd : Bool} : (iterQueue cfg qk fwd).Types cfg (QT cfg qk e) True
    (fun l => ∃ h t, (∀ i v, e i = some v → h ≤ i ∧ i < t) ∧ l.filter (fun x => (e x.1).isSome) = staying e (idxs fwd h t)) := by
  unfold iterQueue
  refine qtypes_fetch.bind' (fun o ho => ?_)
  split
  · refine ⟨0, 0, fun i v hi => ?_, ?_⟩
    · obtain ⟨q, h, _⟩ := ho.2 i v hi; cases h
    · cases fwd <;> rfl
  · rename_i q
    refine (qtypes_collect _ (idxs_lt (ho.1 q rfl).2)).mono (fun l hl => ⟨q.head, q.tail, fun i v hi => ?_, hl⟩) id
    obtain ⟨q', h1, h2⟩ := ho.2 i v hi
    cases h1
    exact h2

/-- The answer of a call that returns the first (last) element. -/
def Before (e : Nat → Option Bytes) (fwd : Bool) (o : Option (Nat × Bytes)) : Prop :=
  ∀ i v, e i = some v → ∃ x, o = some x ∧ (if fwd then x.1 ≤ i else i ≤ x.1) ∧ (x.1 = i → x.2 = v)

theorem qtypes_first {fwd : Bool} : ∀ is : List Nat, (∀ i ∈ is, i < U64) → is.Pairwise (fun a b => if fwd then a < b else b < a) →
    (firstQ qk is).Types cfg (QT cfg qk e) True (fun o => ∀ i v, i ∈ is → e i = some v → ∃ x, o = some x ∧ (if fwd then x.1 ≤ i else i ≤ x.1) ∧ (x.1 = i → x.2 = v))
  | [], _, _ => fun i v h => by cases h
  | i :: is, h, hs => by
    have ih := qtypes_first is (fun j hj => h j (List.mem_cons_of_mem _ hj)) (List.pairwise_cons.1 hs).2
    unfold firstQ
    refine types_getRaw.bind' (fun o ho => ?_)
    have ho := (qt_item (h i List.mem_cons_self)).1 ho
    cases o with
    | none =>
      refine ih.mono (fun o' ho' => ?_) id
      intro j v hj hv
      rcases List.mem_cons.1 hj with rfl | hj
      · cases ho v hv
      · exact ho' j v hj hv
    | some w =>
      show ∀ j v, j ∈ i :: is → e j = some v → ∃ x, some (i, w) = some x ∧ (if fwd then x.1 ≤ j else j ≤ x.1) ∧ (x.1 = j → x.2 = v)
      intro j v hj hv
      refine ⟨(i, w), rfl, ?_, fun e1 => ?_⟩
      · rcases List.mem_cons.1 hj with rfl | hj
        · cases fwd <;> simp
        · have := (List.pairwise_cons.1 hs).1 j hj
          cases fwd
          · simp only [Bool.false_eq_true, if_false] at this ⊢; omega
          · simp only [if_true] at this ⊢; omega
      · dsimp only at e1 ⊢
        subst e1
        cases ho v hv
        rfl

theorem idxs_pairwise {fwd : Bool} {h t : Nat} : (idxs fwd h t).Pairwise (fun a b => if fwd then a < b else b < a) := by
  unfold idxs
  cases fwd with
  | true => simp only [if_true]; exact List.pairwise_lt_range'
  | false => simp only [Bool.false_eq_true, if_false]; exact List.pairwise_reverse.2 List.pairwise_lt_range'

theorem qtypes_peek {fwd : Bool} : (peekQueue cfg qk fwd).Types cfg (QT cfg qk e) True (Before e fwd) := by
  unfold peekQueue
  refine qtypes_fetch.bind' (fun o ho => ?_)
  split
  · intro i v hi
    obtain ⟨q, h, _⟩ := ho.2 i v hi
    cases h
  · rename_i q
    refine (qtypes_first _ (idxs_lt (ho.1 q rfl).2) idxs_pairwise).mono (fun l hl i v hi => ?_) id
    obtain ⟨q', h1, h2⟩ := ho.2 i v hi
    cases h1
    exact hl i v (mem_idxs.2 h2) hi

theorem qtypes_range : (queueRange cfg qk).Types cfg (QT cfg qk e) True (fun r => ∀ i v, e i = some v → r.1 ≤ i ∧ i < r.2) := by
  unfold queueRange
  refine qtypes_fetch.bind' (fun o ho => ?_)
  split
  · intro i v hi
    obtain ⟨q, h, _⟩ := ho.2 i v hi
    cases h
  · intro i v hi
    obtain ⟨q, h, h2⟩ := ho.2 i v hi
    cases h
    exact h2

/-! ## Writing -/

theorem qtypes_push {v : Bytes} {pos : QPos} : (pushQueue cfg qk v pos).Types cfg (QT cfg qk e) True anyRes := by
  refine types_withLock ?_
  unfold pushQueueBody
  refine Prog.Types.bind' (Q := fun i => i < U64 ∧ e i = none) ?_ (fun i hi => (types_setRaw ((qt_item hi.1).2 (fun w hw => by rw [hi.2] at hw; cases hw))).bind' (fun _ _ => trivial))
  have none_of : ∀ {i : Nat}, (∀ v, e i = some v → False) → e i = none := fun {i} h => by
    cases hi : e i with
    | none => rfl
    | some v => exact (h v hi).elim
  by_cases hemp : ∀ i, e i = none
  · have anyrec : ∀ {h t n}, QT cfg qk e (queueKey qk) (some (encMeta h t n)) := fun {h t n} => qt_rec.2 ⟨encMeta_length _ _ _, fun i v hi => by rw [hemp i] at hi; cases hi⟩
    refine (types_gocRaw anyrec).bind' (fun st hst => ?_)
    rcases hst with ⟨rfl, _⟩ | ⟨b, rfl, hb⟩
    · exact ⟨by decide, hemp _⟩
    · have hl := (qt_rec.1 hb).1
      refine (types_decMeta' hl).bind' (fun q hq => ?_)
      cases pos with
      | head =>
        refine types_idxPred.bind' (fun h hh => types_idxSucc.bind' (fun _ _ => ?_))
        have := metaHead_lt hl
        exact (types_setRaw anyrec).bind' (fun _ _ => ⟨by rw [hh.1, hq.1]; omega, hemp _⟩)
      | tail =>
        refine types_idxSucc.bind' (fun _ _ => types_idxSucc.bind' (fun _ _ => ?_))
        exact (types_setRaw anyrec).bind' (fun _ _ => ⟨by rw [hq.2]; exact metaTail_lt hl, hemp _⟩)
  · -- the record exists
    have key : ∀ (c : GocStatus → Prog Nat), (∀ b, QT cfg qk e (queueKey qk) (some b) → (c (.existingValue b)).Types cfg (QT cfg qk e) True (fun i => i < U64 ∧ e i = none)) →
        (gocRaw (queueKey qk) (encMeta FIRST_IDX (FIRST_IDX + 1) 1) >>= c).Types cfg (QT cfg qk e) True (fun i => i < U64 ∧ e i = none) := by
      intro c hc x hx
      cases x with
      | none => exact absurd (qt_rec_none.1 hx) hemp
      | some b => exact ⟨hx, hc b hx⟩
    refine key _ (fun b hb => ?_)
    obtain ⟨hl, hs⟩ := qt_rec.1 hb
    refine (types_decMeta' hl).bind' (fun q hq => ?_)
    have h1 := metaHead_lt hl
    have h2 := metaTail_lt hl
    cases pos with
    | head =>
      refine types_idxPred.bind' (fun h hh => types_idxSucc.bind' (fun _ _ => ?_))
      refine (types_setRaw (qt_enc (by omega) (by omega) (fun i v hi => ?_))).bind' (fun _ _ => ⟨by omega, none_of (fun v hv => ?_)⟩)
      · have := hs i v hi; omega
      · have := hs _ v hv; omega
    | tail =>
      refine types_idxSucc.bind' (fun h hh => types_idxSucc.bind' (fun _ _ => ?_))
      refine (types_setRaw (qt_enc (by omega) (by omega) (fun i v hi => ?_))).bind' (fun _ _ => ⟨by omega, none_of (fun v hv => ?_)⟩)
      · have := hs i v hi; omega
      · have := hs _ v hv; omega

theorem types_gocRaw' {T : Typing} {k v : Bytes} (h : T k none → T k (some v)) : (gocRaw k v).Types cfg T True
    (fun st => (st = .createdNew v ∧ T k none) ∨ ∃ b, st = .existingValue b ∧ T k (some b)) := by
  intro x hx
  cases x with
  | none => exact ⟨h hx, Or.inl ⟨rfl, hx⟩⟩
  | some o => exact ⟨hx, Or.inr ⟨o, rfl, hx⟩⟩

theorem qtypes_put {h t n : Nat} (hh : h < U64) (ht : t < U64) (hs : ∀ i v, e i = some v → h ≤ i ∧ i < t) :
    (putQueueMeta qk h t n).Types cfg (QT cfg qk e) True anyRes := by
  unfold putQueueMeta
  split
  · rename_i e1
    refine (types_removeRaw (qt_rec_none.2 (fun i => ?_))).bind' (fun _ _ => trivial)
    cases hi : e i with
    | none => rfl
    | some v => have := hs i v hi; omega
  · exact (types_setRaw (qt_enc hh ht hs)).bind' (fun _ _ => trivial)

theorem qtypes_remove {j : Nat} (hj : j < U64) (hn : e j = none) : (removeFromQueue cfg qk j).Types cfg (QT cfg qk e) True anyRes := by
  refine types_withLock ?_
  unfold removeFromQueueBody
  refine (types_removeRaw ((qt_item hj).2 (fun v hv => by rw [hn] at hv; cases hv))).bind' (fun _ _ => ?_)
  split
  · trivial
  · refine types_getRaw.bind' (fun o ho => ?_)
    cases o with
    | none => trivial
    | some b =>
      obtain ⟨h1, h2⟩ := qt_rec.1 ho
      refine (types_decMeta' h1).bind' (fun q hq => ?_)
      have hb1 := metaHead_lt h1
      have hb2 := metaTail_lt h1
      have hne : ∀ i v, e i = some v → i ≠ j := fun i v hi e1 => by subst e1; rw [hn] at hi; cases hi
      have fin : ∀ h t (a : Option Bytes), h < U64 → t < U64 → (∀ i v, e i = some v → h ≤ i ∧ i < t) →
          (numPred q.num >>= fun num => putQueueMeta qk h t num >>= fun _ => pure a).Types cfg (QT cfg qk e) True anyRes := by
        intro h t a hh ht hs
        refine (types_numPred trivial).bind' (fun _ _ => ?_)
        exact (qtypes_put hh ht hs).bind' (fun _ _ => trivial)
      have mid : ∀ h (a : Option Bytes), h < U64 → (∀ i v, e i = some v → h ≤ i) → (if q.tail = j + 1 then idxPred q.tail >>= fun t => (numPred q.num >>= fun num => putQueueMeta qk h t num >>= fun _ => pure a)
          else (pure q.tail : Prog Nat) >>= fun t => (numPred q.num >>= fun num => putQueueMeta qk h t num >>= fun _ => pure a)).Types cfg (QT cfg qk e) True anyRes := by
        intro h a hh hs
        split
        · refine types_idxPred.bind' (fun t ht => fin h t a hh (by omega) (fun i v hi => ⟨hs i v hi, ?_⟩))
          have := h2 i v hi
          have := hne i v hi
          omega
        · exact fin h q.tail a hh (by omega) (fun i v hi => ⟨hs i v hi, by have := h2 i v hi; omega⟩)
      dsimp only
      split
      · refine types_idxSucc.bind' (fun h hh => mid h _ (by omega) (fun i v hi => ?_))
        have := h2 i v hi
        have := hne i v hi
        omega
      · exact mid q.head _ (by omega) (fun i v hi => by have := h2 i v hi; omega)

theorem qtypes_extendLoop : ∀ (vs : List Bytes) (t : Nat), t < U64 → (∀ i v, e i = some v → i < t) →
    (extendLoop qk vs t).Types cfg (QT cfg qk e) True (fun t' => t ≤ t' ∧ t' < U64)
  | [], t, ht, _ => ⟨Nat.le_refl _, ht⟩
  | v :: vs, t, ht, hs => by
    unfold extendLoop
    refine (types_setRaw ((qt_item ht).2 (fun w hw => absurd (hs t w hw) (Nat.lt_irrefl _)))).bind' (fun _ _ => ?_)
    refine types_idxSucc.bind' (fun t' ht' => ?_)
    obtain ⟨rfl, h2⟩ := ht'
    refine (qtypes_extendLoop vs (t + 1) h2 (fun i v hi => by have := hs i v hi; omega)).mono (fun a ha => ⟨by omega, ha.2⟩) id

theorem qtypes_extend {vs : List Bytes} : (extendQueue cfg qk vs).Types cfg (QT cfg qk e) True anyRes := by
  refine types_withLock ?_
  unfold extendQueueBody
  have hf : FIRST_IDX < U64 := by decide
  refine (types_gocRaw' (fun h => qt_enc hf hf (fun i v hi => by rw [qt_rec_none.1 h i] at hi; cases hi))).bind' (fun st hst => ?_)
  have hl : st.value.length = 24 ∧ ∀ i v, e i = some v → metaHead st.value ≤ i ∧ i < metaTail st.value := by
    rcases hst with ⟨rfl, h⟩ | ⟨b, rfl, hb⟩
    · exact ⟨encMeta_length _ _ _, fun i v hi => by rw [qt_rec_none.1 h i] at hi; cases hi⟩
    · exact qt_rec.1 hb
  obtain ⟨h1, h2⟩ := hl
  refine (types_decMeta' h1).bind' (fun q hq => ?_)
  have hb1 := metaHead_lt h1
  have hb2 := metaTail_lt h1
  refine (qtypes_extendLoop vs q.tail (by omega) (fun i v hi => by have := h2 i v hi; omega)).bind' (fun t ht => ?_)
  split
  · trivial
  · exact (types_setRaw (qt_enc (by omega) ht.2 (fun i v hi => by have := h2 i v hi; omega))).bind' (fun _ _ => trivial)

/-! ## Taking -/

/-- What a pop that takes none of the elements answers. -/
def Passes (e : Nat → Option Bytes) (pos : QPos) (o : Option (Nat × Bytes)) : Prop :=
  ∀ i v, e i = some v → ∃ x, o = some x ∧ e x.1 = none ∧ (match pos with | .head => x.1 < i | .tail => i < x.1)

/-- What a pop that takes one of the elements answers. -/
def Takes (e : Nat → Option Bytes) (o : Option (Nat × Bytes)) : Prop := ∃ i v, o = some (i, v) ∧ e i = some v

theorem qtd_headLoop (hD : D) : ∀ n h, h + n < U64 →
    (popHeadLoop qk n h).TD cfg (QT cfg qk e) D
      (fun r => h ≤ r.1 ∧ r.1 ≤ h + n ∧ (∀ x, r.2 = some x → e x.1 = none ∧ x.1 < r.1) ∧ ∀ i v, e i = some v → h ≤ i → i < h + n → r.1 ≤ i ∧ r.2.isSome)
      (fun r => Takes e r.2)
  | 0, h, _ => ⟨Nat.le_refl _, Nat.le_refl _, (fun x hx => by cases hx), (fun i v _ h1 h2 => by omega)⟩
  | n + 1, h, hb => by
    have ih := qtd_headLoop hD n (h + 1) (by omega)
    unfold popHeadLoop
    intro x hx
    have hx := (qt_item (by omega)).1 hx
    cases hi : e h with
    | some v =>
      cases hx v hi
      exact .inr ⟨hD, ⟨h, v, rfl, hi⟩⟩
    | none =>
      refine .inl ⟨(qt_item (by omega)).2 (fun v hv => by rw [hi] at hv; cases hv), ?_⟩
      cases x with
      | some w =>
        refine ⟨Nat.le_succ _, by show h + 1 ≤ _; omega, (fun x hx => by cases hx; exact ⟨hi, Nat.lt_succ_self _⟩), (fun i v hv h1 h2 => ⟨?_, rfl⟩)⟩
        show h + 1 ≤ i
        have : i ≠ h := fun e1 => by subst e1; rw [hi] at hv; cases hv
        omega
      | none =>
        refine ih.mono (fun r hr => ⟨by omega, by omega, hr.2.2.1, fun i v hv h1 h2 => ?_⟩) (fun _ h => h)
        have : i ≠ h := fun e1 => by subst e1; rw [hi] at hv; cases hv
        exact hr.2.2.2 i v hv (by omega) (by omega)

theorem qtd_tailLoop (hD : D) : ∀ n t, n ≤ t → t < U64 →
    (popTailLoop qk n t).TD cfg (QT cfg qk e) D
      (fun r => r.1 ≤ t ∧ t ≤ r.1 + n ∧ (∀ x, r.2 = some x → e x.1 = none ∧ r.1 ≤ x.1) ∧ ∀ i v, e i = some v → i < t → t ≤ i + n → i < r.1 ∧ r.2.isSome)
      (fun r => Takes e r.2)
  | 0, h, _, _ => ⟨Nat.le_refl _, Nat.le_refl _, (fun x hx => by cases hx), (fun i v _ h1 h2 => by omega)⟩
  | n + 1, t, hn, hb => by
    have ih := qtd_tailLoop hD n (t - 1) (by omega) (by omega)
    unfold popTailLoop
    intro x hx
    have hx := (qt_item (by omega)).1 hx
    cases hi : e (t - 1) with
    | some v =>
      cases hx v hi
      exact .inr ⟨hD, ⟨t - 1, v, rfl, hi⟩⟩
    | none =>
      refine .inl ⟨(qt_item (by omega)).2 (fun v hv => by rw [hi] at hv; cases hv), ?_⟩
      have hne : ∀ i v, e i = some v → i ≠ t - 1 := fun i v hv e1 => by rw [e1, hi] at hv; cases hv
      cases x with
      | some w =>
        refine ⟨by show t - 1 ≤ t; omega, by show t ≤ t - 1 + _; omega, (fun x hx => by cases hx; exact ⟨hi, Nat.le_refl _⟩), (fun i v hv h1 h2 => ⟨?_, rfl⟩)⟩
        show i < t - 1
        have := hne i v hv
        omega
      | none =>
        refine ih.mono (fun r hr => ⟨by omega, by omega, hr.2.2.1, fun i v hv h1 h2 => ?_⟩) (fun _ h => h)
        have := hne i v hv
        exact hr.2.2.2 i v hv (by omega) (by omega)

theorem qtd_pop {pos : QPos} (hD : D) : (popQueue cfg qk pos).TD cfg (QT cfg qk e) D (Passes e pos) (Takes e) := by
  refine td_withLock ?_
  unfold popQueueBody
  refine Prog.TD.bind' (p := Prog.getRaw (queueKey qk)) (Q := QT cfg qk e (queueKey qk)) (P := fun _ => False) (Prog.Types.td (Pan := True) types_getRaw) (fun o ho => ?_) (fun _ h => h.elim)
  cases o with
  | none =>
    intro i v hi
    rw [qt_rec_none.1 ho i] at hi
    cases hi
  | some b =>
    obtain ⟨h1, h2⟩ := qt_rec.1 ho
    refine Prog.TD.bind' (P := fun _ => False) (Prog.Types.td (Pan := True) (types_decMeta' h1)) (fun q hq => ?_) (fun _ h => h.elim)
    have hb1 := metaHead_lt h1
    have hb2 := metaTail_lt h1
    cases pos with
    | head =>
      by_cases hemp : q.tail ≤ q.head
      · have hno : ∀ i v, e i = some v → False := fun i v hi => by have := h2 i v hi; omega
        rw [show q.tail - q.head = 0 by omega]
        refine Prog.TD.bind' (p := popHeadLoop qk 0 q.head) (Q := fun r => r = (q.head, none)) (P := fun _ => False) rfl (fun r hr => ?_) (fun _ h => h.elim)
        subst hr
        refine Prog.Types.td (Pan := True) ?_
        exact (qtypes_put (by omega) (by omega) (fun i v hi => (hno i v hi).elim)).bind' (fun _ _ i v hi => (hno i v hi).elim)
      refine Prog.TD.bind' (qtd_headLoop hD (q.tail - q.head) q.head (by omega)) (fun r hr => ?_) (fun r hr => ?_)
      · obtain ⟨h, res⟩ := r
        dsimp only at hr ⊢
        refine Prog.Types.td (Pan := True) ?_
        suffices fin : ∀ n, (putQueueMeta qk h q.tail n >>= fun _ => pure res).Types cfg (QT cfg qk e) True (Passes e .head) by
          split
          · exact (types_numPred trivial).bind' (fun n _ => fin n)
          · exact fin _
        intro n
        refine (qtypes_put (by omega) (by omega) (fun i v hi => ?_)).bind' (fun _ _ i v hi => ?_)
        · have := h2 i v hi
          exact ⟨(hr.2.2.2 i v hi (by omega) (by omega)).1, by omega⟩
        · have := h2 i v hi
          obtain ⟨k1, k2⟩ := hr.2.2.2 i v hi (by omega) (by omega)
          cases res with
          | none => cases k2
          | some x =>
            have := hr.2.2.1 x rfl
            exact ⟨x, rfl, this.1, by show x.1 < i; omega⟩
      · obtain ⟨h, res⟩ := r
        have fin : ∀ n, (putQueueMeta qk h q.tail n >>= fun _ => (pure res : Prog (Option (Nat × Bytes)))).Fated (Takes e) := fun n => Prog.Fated.const (fun _ => hr)
        dsimp only
        split
        · exact Prog.Fated.const (fun n => fin n)
        · exact fin _
    | tail =>
      by_cases hemp : q.tail ≤ q.head
      · have hno : ∀ i v, e i = some v → False := fun i v hi => by have := h2 i v hi; omega
        rw [show q.tail - q.head = 0 by omega]
        refine Prog.TD.bind' (p := popTailLoop qk 0 q.tail) (Q := fun r => r = (q.tail, none)) (P := fun _ => False) rfl (fun r hr => ?_) (fun _ h => h.elim)
        subst hr
        refine Prog.Types.td (Pan := True) ?_
        exact (qtypes_put (by omega) (by omega) (fun i v hi => (hno i v hi).elim)).bind' (fun _ _ i v hi => (hno i v hi).elim)
      refine Prog.TD.bind' (qtd_tailLoop hD (q.tail - q.head) q.tail (by omega) (by omega)) (fun r hr => ?_) (fun r hr => ?_)
      · obtain ⟨t, res⟩ := r
        dsimp only at hr ⊢
        refine Prog.Types.td (Pan := True) ?_
        suffices fin : ∀ n, (putQueueMeta qk q.head t n >>= fun _ => pure res).Types cfg (QT cfg qk e) True (Passes e .tail) by
          split
          · exact (types_numPred trivial).bind' (fun n _ => fin n)
          · exact fin _
        intro n
        refine (qtypes_put (by omega) (by omega) (fun i v hi => ?_)).bind' (fun _ _ i v hi => ?_)
        · have := h2 i v hi
          exact ⟨by omega, (hr.2.2.2 i v hi (by omega) (by omega)).1⟩
        · have := h2 i v hi
          obtain ⟨k1, k2⟩ := hr.2.2.2 i v hi (by omega) (by omega)
          cases res with
          | none => cases k2
          | some x =>
            have := hr.2.2.1 x rfl
            exact ⟨x, rfl, this.1, by show i < x.1; omega⟩
      · obtain ⟨h, res⟩ := r
        have fin : ∀ n, (putQueueMeta qk q.head h n >>= fun _ => (pure res : Prog (Option (Nat × Bytes)))).Fated (Takes e) := fun n => Prog.Fated.const (fun _ => hr)
        dsimp only
        split
        · exact Prog.Fated.const (fun n => fin n)
        · exact fin _

/-! ## Every call -/

/-- What the answers show of the elements. -/
def ShowsQ (qk : Bytes) (e : Nat → Option Bytes) (c : Call) (r : Resp) : Prop :=
  (∀ fwd l, c = .queue qk (.iter fwd) → r = .elems l → ∃ h t, (∀ i v, e i = some v → h ≤ i ∧ i < t) ∧ l.filter (fun x => (e x.1).isSome) = staying e (idxs fwd h t)) ∧
  (∀ fwd o, c = .queue qk (.peek fwd) → r = .elem o → Before e fwd o) ∧
  (∀ pos o, c = .queue qk (.pop pos) → r = .elem o → Passes e pos o) ∧
  (∀ a b, c = .queue qk .range → r = .range (a, b) → ∀ i v, e i = some v → a ≤ i ∧ i < b) ∧
  (∀ o, c = .queue qk .getBig → r = .val o → ∃ l : List (Nat × Bytes), (o = if l = [] then none else some (l.map Prod.snd).flatten) ∧
    ∃ h t, (∀ i v, e i = some v → h ≤ i ∧ i < t) ∧ l.filter (fun x => (e x.1).isSome) = staying e (idxs true h t))

def TakesQ (qk : Bytes) (e : Nat → Option Bytes) (c : Call) (r : Resp) : Prop := ∃ pos o, c = .queue qk (.pop pos) ∧ r = .elem o ∧ Takes e o

theorem showsQ_other {c : Call} {r : Resp} (h : ∀ op, c ≠ .queue qk op) : ShowsQ qk e c r :=
  ⟨fun _ _ h1 => absurd h1 (h _), fun _ _ h1 => absurd h1 (h _), fun _ _ h1 => absurd h1 (h _), fun _ _ h1 => absurd h1 (h _), fun _ h1 => absurd h1 (h _)⟩

theorem qtypes_getBig : (getBig cfg qk).Types cfg (QT cfg qk e) True (fun o => ∃ l : List (Nat × Bytes), (o = if l = [] then none else some (l.map Prod.snd).flatten) ∧
    ∃ h t, (∀ i v, e i = some v → h ≤ i ∧ i < t) ∧ l.filter (fun x => (e x.1).isSome) = staying e (idxs true h t)) := by
  unfold getBig
  refine qtypes_iter.bind' (fun l hl => ?_)
  split
  · rename_i e1; exact ⟨l, by rw [if_pos e1], hl⟩
  · rename_i e1; exact ⟨l, by rw [if_neg e1], hl⟩

theorem qtypes_len : (queueLen cfg qk).Types cfg (QT cfg qk e) True anyRes := by
  unfold queueLen
  refine qtypes_fetch.bind' (fun o _ => ?_)
  split <;> trivial

theorem qtd_call (hne : ∃ i v, e i = some v) (c : Call) (hc : ∀ i v, e i = some v → ¬ c.removesElem qk i) :
    (c.prog cfg).TD cfg (QT cfg qk e) (∃ pos, c = .queue qk (.pop pos)) (ShowsQ qk e c) (TakesQ qk e c) := by
  by_cases hq : ∃ op, c = .queue qk op
  · obtain ⟨op, rfl⟩ := hq
    obtain ⟨i0, v0, h0⟩ := hne
    have hc0 := hc i0 v0 h0
    cases op with
    | push pos v => exact Prog.Types.td (Pan := True) (types_tag qtypes_push (fun _ _ => ⟨nofun, nofun, nofun, nofun, nofun⟩))
    | pop pos =>
      exact (qtd_pop ⟨pos, rfl⟩).bind (fun o ho => ⟨nofun, nofun, (fun p o' h1 h2 => by cases h1; cases h2; exact ho), nofun, nofun⟩) (fun o ho => ⟨pos, o, rfl, rfl, ho⟩)
    | remove j =>
      refine Prog.Types.td (Pan := True) (types_tag (qtypes_remove (UInt64.toNat_lt j) ?_) (fun _ _ => ⟨nofun, nofun, nofun, nofun, nofun⟩))
      cases hj : e j.toNat with
      | none => rfl
      | some v => exact absurd (.inr (.inr (.inr ⟨j, rfl, rfl⟩))) (hc _ v hj)
    | discard => exact absurd (.inl rfl) hc0
    | extend vs => exact Prog.Types.td (Pan := True) (types_tag qtypes_extend (fun _ _ => ⟨nofun, nofun, nofun, nofun, nofun⟩))
    | iter fwd => exact Prog.Types.td (Pan := True) (types_tag qtypes_iter (fun l hl => ⟨(fun f l' h1 h2 => by cases h1; cases h2; exact hl), nofun, nofun, nofun, nofun⟩))
    | peek fwd => exact Prog.Types.td (Pan := True) (types_tag qtypes_peek (fun l hl => ⟨nofun, (fun f l' h1 h2 => by cases h1; cases h2; exact hl), nofun, nofun, nofun⟩))
    | len => exact Prog.Types.td (Pan := True) (types_tag qtypes_len (fun _ _ => ⟨nofun, nofun, nofun, nofun, nofun⟩))
    | range => exact Prog.Types.td (Pan := True) (types_tag qtypes_range (fun l hl => ⟨nofun, nofun, nofun, (fun a b h1 h2 => by cases h2; exact hl), nofun⟩))
    | setBig v => exact absurd (.inr (.inl ⟨v, rfl⟩)) hc0
    | getBig => exact Prog.Types.td (Pan := True) (types_tag qtypes_getBig (fun l hl => ⟨nofun, nofun, nofun, nofun, (fun o h1 h2 => by cases h2; exact hl)⟩))
    | removeBig => exact absurd (.inr (.inr (.inl rfl))) hc0
  · have hq' : ∀ op, c ≠ .queue qk op := fun op h => hq ⟨op, h⟩
    refine Prog.Types.td (Pan := True) (Prog.Types.mono (Q := anyRes) ?_ (fun _ _ => showsQ_other hq') id)
    refine Prog.Types.within (types_call c (fun _ => trivial)) (within_call cfg c) (fun k hk o ho => qt_of_not ?_ ho) (fun k o h => h.shape)
    intro hf
    cases c with
    | kv k' op => exact user_notQ ((show k = userKey k' from hk) ▸ hf)
    | typed k' op => exact typed_notQ ((show k = typedKey k' from hk) ▸ hf)
    | list lk op => exact foot_LQ hk hf
    | queue qk' op => exact foot_QQ hk hf (fun h => hq' op (by rw [h]))

end

/-! ## The beginning -/

/-- Every entry is as it is in `m`. -/
def Frozen (m : Map) : Typing := fun k o => o = m k

section
variable {cfg : Cfg} {qk : Bytes} {m : Map}

theorem frozen_of : (Frozen m).Of m := fun _ => rfl
theorem Frozen.eq {m' : Map} (h : (Frozen m).Of m') : m' = m := funext h

theorem frozen_collect : ∀ is : List Nat, is.Pairwise (· < ·) →
    (collectQ qk is).Types cfg (Frozen m) True (fun l => l.Pairwise (fun a b => a.1 < b.1) ∧ ∀ x ∈ l, x.1 ∈ is ∧ m (qitemKey qk x.1) = some x.2)
  | [], _ => ⟨.nil, (fun x hx => by cases hx)⟩
  | i :: is, h => by
    have ih := frozen_collect is (List.pairwise_cons.1 h).2
    unfold collectQ
    refine types_getRaw.bind' (fun o ho => ?_)
    cases o with
    | none => exact ih.mono (fun l hl => ⟨hl.1, fun x hx => ⟨List.mem_cons_of_mem _ (hl.2 x hx).1, (hl.2 x hx).2⟩⟩) id
    | some v =>
      refine ih.bind' (fun l hl => ⟨List.pairwise_cons.2 ⟨fun x hx => (List.pairwise_cons.1 h).1 _ (hl.2 x hx).1, hl.1⟩, fun x hx => ?_⟩)
      rcases List.mem_cons.1 hx with rfl | hx
      · exact ⟨List.mem_cons_self, ho.symm⟩
      · exact ⟨List.mem_cons_of_mem _ (hl.2 x hx).1, (hl.2 x hx).2⟩

theorem frozen_iter (hs : (Shape cfg).Of m) : (iterQueue cfg qk true).Types cfg (Frozen m) True (fun l => l.Pairwise (fun a b => a.1 < b.1) ∧
    ∀ x ∈ l, (∃ b, m (queueKey qk) = some b ∧ metaHead b ≤ x.1 ∧ x.1 < metaTail b) ∧ m (qitemKey qk x.1) = some x.2) := by
  unfold iterQueue
  refine Prog.Types.bind' (Q := fun o : Option Meta => ∀ q, o = some q → ∃ b, m (queueKey qk) = some b ∧ q.head = metaHead b ∧ q.tail = metaTail b) ?_ (fun o ho => ?_)
  · unfold fetchQueue
    refine (types_withLock types_getRaw).bind' (fun o ho => ?_)
    cases o with
    | none => exact fun q h => by cases h
    | some b =>
      refine (types_decMeta' (shape_queue.1 ((show some b = m (queueKey qk) from ho) ▸ hs (queueKey qk)))).bind' (fun q hq => ?_)
      intro q' e
      cases e
      exact ⟨b, ho.symm, hq⟩
  · cases o with
    | none => exact ⟨.nil, (fun x hx => by cases hx)⟩
    | some q =>
      obtain ⟨b, h1, h2, h3⟩ := ho q rfl
      refine (frozen_collect (idxs true q.head q.tail) (by simpa using idxs_pairwise (fwd := true))).mono (fun l hl => ⟨hl.1, fun x hx => ⟨⟨b, h1, ?_⟩, (hl.2 x hx).2⟩⟩) id
      have := mem_idxs.1 (hl.2 x hx).1
      rw [← h2, ← h3]
      exact this

end

/-- The elements of a list as a function. -/
def elemsAt (K : List (Nat × Bytes)) (i : Nat) : Option Bytes := (K.find? (fun x => decide (x.1 = i))).map Prod.snd

theorem elemsAt_some {K : List (Nat × Bytes)} (h : K.Pairwise (fun a b => a.1 < b.1)) {i : Nat} {v : Bytes} : elemsAt K i = some v ↔ (i, v) ∈ K := by
  induction K with
  | nil => simp [elemsAt]
  | cons x K ih =>
    obtain ⟨h1, h2⟩ := List.pairwise_cons.1 h
    by_cases e : x.1 = i
    · have : elemsAt (x :: K) i = some x.2 := by unfold elemsAt; rw [List.find?_cons_of_pos (by simp [e])]; rfl
      rw [this]
      constructor
      · intro h3; cases h3; rw [← e]; exact List.mem_cons_self
      · intro h3
        rcases List.mem_cons.1 h3 with rfl | h3
        · rfl
        · have := h1 _ h3; dsimp only at this; omega
    · have : elemsAt (x :: K) i = elemsAt K i := by unfold elemsAt; rw [List.find?_cons_of_neg (by simp [e])]
      rw [this, ih h2]
      refine ⟨List.mem_cons_of_mem _, fun h3 => ?_⟩
      rcases List.mem_cons.1 h3 with rfl | h3
      · exact absurd rfl e
      · exact h3

theorem elemsAt_isSome {K : List (Nat × Bytes)} {i : Nat} : (elemsAt K i).isSome = decide (i ∈ K.map Prod.fst) := by
  unfold elemsAt
  rw [Option.isSome_map, Bool.eq_iff_iff, List.find?_isSome]
  simp

theorem sorted_eq {r : Nat → Nat → Prop} (hr : ∀ a b, r a b → ¬ r b a) : ∀ {l l' : List (Nat × Bytes)}, l.Pairwise (fun a b => r a.1 b.1) → l'.Pairwise (fun a b => r a.1 b.1) →
    (∀ x, x ∈ l ↔ x ∈ l') → l = l'
  | [], [], _, _, _ => rfl
  | [], y :: _, _, _, h => by cases (h y).2 List.mem_cons_self
  | x :: _, [], _, _, h => by cases (h x).1 List.mem_cons_self
  | x :: l, y :: l', h1, h2, h => by
    have h1 := List.pairwise_cons.1 h1
    have h2 := List.pairwise_cons.1 h2
    have irr : ∀ a, ¬ r a a := fun a ha => hr a a ha ha
    have e : x = y := by
      rcases List.mem_cons.1 ((h x).1 List.mem_cons_self) with e | hx
      · exact e
      · rcases List.mem_cons.1 ((h y).2 List.mem_cons_self) with e | hy
        · exact e.symm
        · exact absurd (h1.1 y hy) (hr _ _ (h2.1 x hx))
    subst e
    rw [sorted_eq hr h1.2 h2.2 (fun z => ⟨fun hz => ?_, fun hz => ?_⟩)]
    · rcases List.mem_cons.1 ((h z).1 (List.mem_cons_of_mem _ hz)) with rfl | hz'
      · exact absurd (h1.1 z hz) (irr _)
      · exact hz'
    · rcases List.mem_cons.1 ((h z).2 (List.mem_cons_of_mem _ hz)) with rfl | hz'
      · exact absurd (h2.1 z hz) (irr _)
      · exact hz'

theorem mem_staying {e : Nat → Option Bytes} {is : List Nat} {x : Nat × Bytes} : x ∈ staying e is ↔ x.1 ∈ is ∧ e x.1 = some x.2 := by
  unfold staying
  rw [List.mem_filterMap]
  constructor
  · rintro ⟨i, h1, h2⟩
    rw [Option.map_eq_some_iff] at h2
    obtain ⟨v, h2, rfl⟩ := h2
    exact ⟨h1, h2⟩
  · rintro ⟨h1, h2⟩
    exact ⟨x.1, h1, by rw [h2]; rfl⟩

theorem staying_pairwise {r : Nat → Nat → Prop} {e : Nat → Option Bytes} {is : List Nat} (h : is.Pairwise r) : (staying e is).Pairwise (fun a b => r a.1 b.1) := by
  unfold staying
  refine List.Pairwise.filterMap _ (fun a b hr x hx y hy => ?_) h
  rw [Option.map_eq_some_iff] at hx hy
  obtain ⟨_, _, rfl⟩ := hx
  obtain ⟨_, _, rfl⟩ := hy
  exact hr

theorem staying_eq {K : List (Nat × Bytes)} (hK : K.Pairwise (fun a b => a.1 < b.1)) {h t : Nat} (hc : ∀ i v, elemsAt K i = some v → h ≤ i ∧ i < t) {fwd : Bool} :
    staying (elemsAt K) (idxs fwd h t) = if fwd then K else K.reverse := by
  have hm : ∀ x, x ∈ staying (elemsAt K) (idxs fwd h t) ↔ x ∈ K := fun x => by
    rw [mem_staying, elemsAt_some hK]
    exact ⟨fun h => h.2, fun hx => ⟨mem_idxs.2 (hc _ _ ((elemsAt_some hK).2 hx)), hx⟩⟩
  cases fwd with
  | true =>
    refine sorted_eq (r := (· < ·)) (fun a b h1 h2 => by omega) (staying_pairwise (by simpa using idxs_pairwise (fwd := true))) hK hm
  | false =>
    refine sorted_eq (r := (· > ·)) (fun a b h1 h2 => by omega) (staying_pairwise (by simpa using idxs_pairwise (fwd := false))) (List.pairwise_reverse.2 hK) (fun x => (hm x).trans List.mem_reverse.symm)

/-! ## Calls in progress -/

/-- A call in progress was begun and has not returned. -/
theorem AConcRun.pending {cfg : Cfg} {s s' : AState} {tr : List CEvent} (h : AConcRun cfg s tr s') {i : Nat} {c : Call} {p : Prog Resp} (hp : s'.thr i = some (c, p)) :
    ((∃ p0, s.thr i = some (c, p0)) ∧ ∀ d r, CEvent.ret i d r ∉ tr) ∨ ∃ pre post, tr = pre ++ .inv i c :: post ∧ ∀ d r, CEvent.ret i d r ∉ post := by
  induction h with
  | nil s => exact .inl ⟨⟨p, hp⟩, fun d r hm => by cases hm⟩
  | @inv s s' tr j d h0 rest ih =>
    rcases ih hp with ⟨⟨p0, g1⟩, g2⟩ | ⟨pre, post, rfl, g⟩
    · dsimp only at g1
      by_cases e : i = j
      · subst e
        rw [setN_same] at g1
        cases g1
        exact .inr ⟨[], tr, rfl, g2⟩
      · rw [setN_other _ _ e] at g1
        refine .inl ⟨⟨p0, g1⟩, fun d' r hm => ?_⟩
        rcases List.mem_cons.1 hm with e1 | hm
        · cases e1
        · exact g2 d' r hm
    · exact .inr ⟨_ :: pre, post, rfl, g⟩
  | @raw s s' tr j d p0 m' p' h hl hst rest ih =>
    rcases ih hp with ⟨⟨p1, g1⟩, g2⟩ | g
    · dsimp only at g1
      by_cases e : i = j
      · subst e; rw [setN_same] at g1; cases g1; exact .inl ⟨⟨_, h⟩, g2⟩
      · rw [setN_other _ _ e] at g1; exact .inl ⟨⟨_, g1⟩, g2⟩
    · exact .inr g
  | @lock s s' tr j d l c' h hf rest ih =>
    rcases ih hp with ⟨⟨p1, g1⟩, g2⟩ | g
    · dsimp only at g1
      by_cases e : i = j
      · subst e; rw [setN_same] at g1; cases g1; exact .inl ⟨⟨_, h⟩, g2⟩
      · rw [setN_other _ _ e] at g1; exact .inl ⟨⟨_, g1⟩, g2⟩
    · exact .inr g
  | @unlock s s' tr j d c' h rest ih =>
    rcases ih hp with ⟨⟨p1, g1⟩, g2⟩ | g
    · dsimp only at g1
      by_cases e : i = j
      · subst e; rw [setN_same] at g1; cases g1; exact .inl ⟨⟨_, h⟩, g2⟩
      · rw [setN_other _ _ e] at g1; exact .inl ⟨⟨_, g1⟩, g2⟩
    · exact .inr g
  | @ret s s' tr j d p0 r h hr hne rest ih =>
    rcases ih hp with ⟨⟨p1, g1⟩, g2⟩ | ⟨pre, post, rfl, g⟩
    · dsimp only at g1
      by_cases e : i = j
      · subst e; rw [setN_same] at g1; cases g1
      · rw [setN_other _ _ e] at g1
        refine .inl ⟨⟨_, g1⟩, fun d' r' hm => ?_⟩
        rcases List.mem_cons.1 hm with e1 | hm
        · cases e1; exact e rfl
        · exact g2 d' r' hm
    · exact .inr ⟨_ :: pre, post, rfl, g⟩

end Candy
