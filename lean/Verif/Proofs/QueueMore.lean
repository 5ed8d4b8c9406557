import Verif.Proofs.QueuePop
/-!
# Queue operations: extend, remove at an index, discard, iterate, peek, length, range; big values
-/
namespace Candy
open Spec

/-! ## Reading -/

theorem wp_fetchQueue {cfg m qk q n} (h : QRep cfg m qk q n) {I : Map → Prop} (hI : I m) {Q : Map → Res (Option Meta) → Prop}
    (hQ : Q m (.ok (q.range.map (fun p => ⟨p.1, p.2, n⟩)))) : wp cfg I (fetchQueue cfg qk) m Q := by
  unfold fetchQueue
  rw [wp_bind, wp_withLock, wp_getRaw]
  refine ⟨hI, ?_⟩
  dsimp only [seqPost]
  rw [h.record]
  cases hr : q.range with
  | none => rw [hr] at hQ; exact ⟨hI, hQ⟩
  | some p =>
    obtain ⟨hd, tl⟩ := p
    rw [hr] at hQ
    have h1 := h.cnt hd tl hr
    have h2 := h.tail_lt hd tl hr
    have h3 := (h.wf.bnd hd tl hr).1
    dsimp only [Option.map_some]
    rw [wp_bind, wp_decMeta (by omega) h2 (by omega)]
    exact ⟨hI, hI, hQ⟩

theorem wp_queueLen {cfg m qk q n} (h : QRep cfg m qk q n) {I : Map → Prop} (hI : I m) :
    wp cfg I (queueLen cfg qk) m (fun m' r => m' = m ∧ r = .ok (if q.range = none then 0 else n)) := by
  unfold queueLen
  rw [wp_bind]
  apply wp_fetchQueue h hI
  dsimp only [seqPost]
  cases hr : q.range with
  | none => exact ⟨hI, rfl, rfl⟩
  | some p => exact ⟨hI, rfl, by simp⟩

theorem wp_queueRange {cfg m qk q n} (h : QRep cfg m qk q n) {I : Map → Prop} (hI : I m) :
    wp cfg I (queueRange cfg qk) m (fun m' r => m' = m ∧ r = .ok (q.range.getD (FIRST, FIRST))) := by
  unfold queueRange
  rw [wp_bind]
  apply wp_fetchQueue h hI
  dsimp only [seqPost]
  cases hr : q.range with
  | none => exact ⟨hI, rfl, rfl⟩
  | some p => exact ⟨hI, rfl, rfl⟩

/-- The labelled element at an index. -/
def labE (E : List (Nat × Bytes)) (i : Nat) : Option (Nat × Bytes) := (atE E i).map (fun v => (i, v))

theorem labE_byIdx (E : List (Nat × Bytes)) (i : Nat) :
    labE E i = (LItems.byIdx (E.map (fun e => (e.1, (([] : Bytes), e.2)))) i).map (fun e => (e.1, e.2.2)) := by
  unfold labE atE Deque.at? LItems.byIdx
  rw [List.find?_map]
  dsimp only [Function.comp_def]
  cases hf : E.find? (fun e => decide (e.1 = i)) with
  | none => rfl
  | some e =>
    have : e.1 = i := by have := List.find?_some hf; simpa using this
    subst this
    rfl

theorem filterMap_labE {E : List (Nat × Bytes)} (hs : E.Pairwise (fun a b => a.1 < b.1)) {h t : Nat} (hb : ∀ e ∈ E, h ≤ e.1 ∧ e.1 < t)
    (fwd : Bool) : (idxs fwd h t).filterMap (labE E) = if fwd then E else E.reverse := by
  have h1 : (idxs fwd h t).filterMap (labE E) =
      ((idxs fwd h t).filterMap (LItems.byIdx (E.map (fun e => (e.1, (([] : Bytes), e.2)))))).map (fun e => (e.1, e.2.2)) := by
    rw [List.map_filterMap]
    exact filterMap_congr' (fun i _ => labE_byIdx E i)
  rw [h1, filterMap_idxs (h := h) (t := t) ?_ ?_]
  · cases fwd <;> simp [Function.comp_def]
  · rw [List.pairwise_map]; exact hs
  · intro e he
    obtain ⟨x, hx, rfl⟩ := List.mem_map.1 he
    exact hb x hx

theorem wp_collectQ {cfg m qk} {E : List (Nat × Bytes)} {I : Map → Prop} (hI : I m) : ∀ (is : List Nat),
    (∀ i ∈ is, m (qitemKey qk i) = atE E i) →
    wp cfg I (collectQ qk is) m (fun m' r => m' = m ∧ r = .ok (is.filterMap (labE E)))
  | [], _ => ⟨hI, rfl, rfl⟩
  | i :: is, hm => by
    have ih := wp_collectQ (cfg := cfg) hI is (fun j hj => hm j (List.mem_cons_of_mem _ hj))
    unfold collectQ
    rw [wp_bind, wp_getRaw]
    refine ⟨hI, ?_⟩
    dsimp only [seqPost]
    rw [hm i (by simp), List.filterMap_cons]
    unfold labE at *
    cases ha : atE E i with
    | none => exact ih
    | some v =>
      dsimp only [Option.map_some]
      rw [wp_bind]
      refine ih.conseq ?_
      rintro m' r ⟨rfl, rfl⟩
      exact ⟨hI, rfl, rfl⟩

theorem wp_firstQ {cfg m qk} {E : List (Nat × Bytes)} {I : Map → Prop} (hI : I m) : ∀ (is : List Nat),
    (∀ i ∈ is, m (qitemKey qk i) = atE E i) →
    wp cfg I (firstQ qk is) m (fun m' r => m' = m ∧ r = .ok (is.filterMap (labE E)).head?)
  | [], _ => ⟨hI, rfl, rfl⟩
  | i :: is, hm => by
    have ih := wp_firstQ (cfg := cfg) hI is (fun j hj => hm j (List.mem_cons_of_mem _ hj))
    unfold firstQ
    rw [wp_bind, wp_getRaw]
    refine ⟨hI, ?_⟩
    dsimp only [seqPost]
    rw [hm i (by simp), List.filterMap_cons]
    unfold labE at *
    cases ha : atE E i with
    | none => exact ih
    | some v => exact ⟨hI, rfl, rfl⟩

/-- The order in which an iterator returns the elements. -/
def dirElems (fwd : Bool) (l : List (Nat × Bytes)) : List (Nat × Bytes) := if fwd then l else l.reverse

theorem wp_iterQueue {cfg m qk q n} (fwd : Bool) (h : QRep cfg m qk q n) {I : Map → Prop} (hI : I m) :
    wp cfg I (iterQueue cfg qk fwd) m (fun m' r => m' = m ∧ r = .ok (dirElems fwd q.elems)) := by
  unfold iterQueue
  rw [wp_bind]
  apply wp_fetchQueue h hI
  dsimp only [seqPost]
  cases hr : q.range with
  | none =>
    have := h.wf.nil hr
    refine ⟨hI, rfl, ?_⟩
    rw [this]; cases fwd <;> rfl
  | some p =>
    obtain ⟨hd, tl⟩ := p
    dsimp only [Option.map_some]
    refine (wp_collectQ (E := q.elems) hI _ ?_).conseq ?_
    · intro i hi
      obtain ⟨h1, h2⟩ := mem_idxs.1 hi
      exact h.item hd tl hr i h1 h2
    · rintro m' r ⟨rfl, rfl⟩
      refine ⟨rfl, ?_⟩
      rw [filterMap_labE h.wf.sorted (h.wf.bnd hd tl hr).2]; rfl

theorem wp_peekQueue {cfg m qk q n} (fwd : Bool) (h : QRep cfg m qk q n) {I : Map → Prop} (hI : I m) :
    wp cfg I (peekQueue cfg qk fwd) m (fun m' r => m' = m ∧ r = .ok (if fwd then q.elems.head? else q.elems.getLast?)) := by
  unfold peekQueue
  rw [wp_bind]
  apply wp_fetchQueue h hI
  dsimp only [seqPost]
  cases hr : q.range with
  | none =>
    have := h.wf.nil hr
    refine ⟨hI, rfl, ?_⟩
    rw [this]; cases fwd <;> rfl
  | some p =>
    obtain ⟨hd, tl⟩ := p
    dsimp only [Option.map_some]
    refine (wp_firstQ (E := q.elems) hI _ ?_).conseq ?_
    · intro i hi
      obtain ⟨h1, h2⟩ := mem_idxs.1 hi
      exact h.item hd tl hr i h1 h2
    · rintro m' r ⟨rfl, rfl⟩
      refine ⟨rfl, ?_⟩
      rw [filterMap_labE h.wf.sorted (h.wf.bnd hd tl hr).2]
      cases fwd <;> simp

/-! ## discard -/

theorem QRep.gone {cfg m qk} (h : m (queueKey qk) = none) (n : Nat) : QRep cfg m qk Deque.empty n :=
  ⟨⟨List.Pairwise.nil, fun _ => rfl, by simp [Deque.empty]⟩, h, by simp [Deque.empty], by simp [Deque.empty], by simp [Deque.empty],
    by simp [Deque.empty]⟩

theorem wp_discardQLoop {cfg I qk m0} : ∀ (is : List Nat) (m : Map), SameOutside (QFoot qk) m0 m →
    I m → (∀ pre i post m', is = pre ++ i :: post → m' (queueKey qk) = m (queueKey qk) →
      (∀ j, (m' (qitemKey qk j) = m (qitemKey qk j) ∧ j ∉ pre ++ [i]) ∨ (m' (qitemKey qk j) = none ∧ ∃ j' ∈ pre ++ [i], qitemKey qk j = qitemKey qk j')) → I m') →
    wp cfg I (discardQLoop qk is) m (fun m' r => r = .ok () ∧ SameOutside (QFoot qk) m0 m' ∧ m' (queueKey qk) = m (queueKey qk) ∧
      ∀ j, (m' (qitemKey qk j) = m (qitemKey qk j) ∧ j ∉ is) ∨ m' (qitemKey qk j) = none)
  | [], m, hs, hI, _ => ⟨hI, rfl, hs, rfl, fun j => Or.inl ⟨rfl, by simp⟩⟩
  | i :: is, m, hs, hI, hI' => by
    unfold discardQLoop
    rw [wp_bind, wp_removeRaw]
    have hI1 : I (m.upd (qitemKey qk i) none) := by
      refine hI' [] i is _ rfl (by rw [Map.upd_other _ _ (queueKey_ne_qitem _ _ _)]) (fun j => ?_)
      by_cases e : qitemKey qk j = qitemKey qk i
      · right; exact ⟨by rw [e]; simp, i, by simp, e⟩
      · left; refine ⟨by rw [Map.upd_other _ _ e], ?_⟩
        simp; rintro rfl; exact e rfl
    refine ⟨hI, hI1, ?_⟩
    dsimp only [seqPost]
    refine (wp_discardQLoop is _ (hs.upd (QFoot.item qk i)) hI1 ?_).conseq ?_
    · rintro pre k post m' rfl h1 h2
      refine hI' (i :: pre) k post m' rfl (by rw [h1, Map.upd_other _ _ (queueKey_ne_qitem _ _ _)]) (fun j => ?_)
      rcases h2 j with ⟨h3, h4⟩ | ⟨h3, j', h4, h5⟩
      · by_cases e : qitemKey qk j = qitemKey qk i
        · right; exact ⟨by rw [h3, e]; simp, i, by simp, e⟩
        · left; refine ⟨by rw [h3, Map.upd_other _ _ e], ?_⟩
          intro hm
          rcases List.mem_cons.1 hm with rfl | hm
          · exact e rfl
          · exact h4 hm
      · exact Or.inr ⟨h3, j', List.mem_cons_of_mem _ h4, h5⟩
    rintro m' r ⟨h1, h2, h3, h4⟩
    refine ⟨h1, h2, by rw [h3, Map.upd_other _ _ (queueKey_ne_qitem _ _ _)], fun j => ?_⟩
    rcases h4 j with ⟨h5, h6⟩ | h5
    · by_cases e : qitemKey qk j = qitemKey qk i
      · right; rw [h5, e]; simp
      · left
        refine ⟨by rw [h5, Map.upd_other _ _ e], ?_⟩
        rw [List.mem_cons]
        rintro (rfl | e')
        · exact e rfl
        · exact h6 e'
    · exact Or.inr h5

/-- Invariant while a queue is discarded: the elements disappear from the head on, then the record. -/
structure DiscInv (cfg : Cfg) (I : Map → Prop) (m : Map) (qk : Bytes) (q : Deque) (n : Nat) : Prop where
  start : I m
  drop : ∀ m' j, QRep cfg m' qk ⟨q.range, q.elems.drop j⟩ n → I m'
  done : ∀ m', QRep cfg m' qk Deque.empty 0 → I m'

theorem DiscInv.noInv {cfg m qk q n} : DiscInv cfg noInv m qk q n := ⟨trivial, fun _ _ _ => trivial, fun _ _ => trivial⟩

/-- Dropping the elements below an index of a sorted list. -/
theorem filter_ge_drop {E : List (Nat × Bytes)} (h : E.Pairwise (fun a b => a.1 < b.1)) (i : Nat) :
    ∃ j, E.filter (fun e => decide (i < e.1)) = E.drop j := by
  induction E with
  | nil => exact ⟨0, rfl⟩
  | cons a l ih =>
    rw [List.pairwise_cons] at h
    by_cases ha : i < a.1
    · refine ⟨0, ?_⟩
      rw [List.drop_zero, List.filter_eq_self]
      intro x hx
      rcases List.mem_cons.1 hx with rfl | hx
      · simpa using ha
      · have := h.1 x hx; simp; omega
    · obtain ⟨j, hj⟩ := ih h.2
      exact ⟨j + 1, by rw [List.filter_cons_of_neg (by simpa using ha), hj, List.drop_succ_cons]⟩

theorem idxs_split {h t i : Nat} {pre post : List Nat} (e : idxs true h t = pre ++ i :: post) : ∀ j, j ∈ pre ++ [i] ↔ (h ≤ j ∧ j ≤ i) := by
  have e' : idxs true h t = List.range' h (t - h) := rfl
  intro j
  rw [e'] at e
  have hs : (List.range' h (t - h)).Pairwise (· < ·) := List.pairwise_lt_range'
  have hi : i ∈ List.range' h (t - h) := by rw [e]; simp
  rw [e, List.pairwise_append, List.pairwise_cons] at hs
  constructor
  · intro hj
    have hm : j ∈ List.range' h (t - h) := by
      rw [e]; rcases List.mem_append.1 hj with hj | hj
      · exact List.mem_append_left _ hj
      · exact List.mem_append_right _ (by rw [List.mem_singleton.1 hj]; simp)
    have := List.mem_range'_1.1 hm
    refine ⟨this.1, ?_⟩
    rcases List.mem_append.1 hj with hj | hj
    · exact Nat.le_of_lt (hs.2.2 j hj i (by simp))
    · rw [List.mem_singleton.1 hj]; exact Nat.le_refl _
  · rintro ⟨h1, h2⟩
    have hib := List.mem_range'_1.1 hi
    have hm : j ∈ List.range' h (t - h) := List.mem_range'_1.2 (by omega)
    rw [e] at hm
    rcases List.mem_append.1 hm with hm | hm
    · exact List.mem_append_left _ hm
    · rcases List.mem_cons.1 hm with rfl | hm
      · simp
      · have := hs.2.1.1 j hm; omega

theorem wp_discardQueueBody' {cfg I m qk q n} (h : QRep cfg m qk q n) (hI : DiscInv cfg I m qk q n) :
    wp cfg I (discardQueueBody qk) m (fun m' r => SameOutside (QFoot qk) m m' ∧ r = .ok q.range.isSome ∧
      QRep cfg m' qk Deque.empty 0 ∧ (GF m qk q → GF m' qk Deque.empty)) := by
  unfold discardQueueBody
  rw [wp_bind, wp_getRaw]
  refine ⟨hI.start, ?_⟩
  dsimp only [seqPost]
  have hrec := h.record
  cases hr : q.range with
  | none =>
    rw [hr] at hrec
    rw [hrec]
    exact ⟨hI.start, SameOutside.refl _ _, rfl, QRep.gone hrec 0, fun hg => hg.nil (h.wf.nil hr) (fun _ => rfl)⟩
  | some p =>
    obtain ⟨hd, tl⟩ := p
    rw [hr] at hrec
    rw [hrec]
    have h1 := h.cnt hd tl hr
    have h2 := h.tail_lt hd tl hr
    have h3 := (h.wf.bnd hd tl hr).1
    dsimp only [Option.map_some]
    rw [wp_bind, wp_decMeta (by omega) h2 (by omega)]
    refine ⟨hI.start, ?_⟩
    dsimp only [seqPost]
    rw [wp_bind]
    have hdrop : ∀ pre i post m', idxs true hd tl = pre ++ i :: post → m' (queueKey qk) = m (queueKey qk) →
      (∀ j, (m' (qitemKey qk j) = m (qitemKey qk j) ∧ j ∉ pre ++ [i]) ∨ (m' (qitemKey qk j) = none ∧ ∃ j' ∈ pre ++ [i], qitemKey qk j = qitemKey qk j')) → I m' := by
      intro pre i post m' e hq hit
      have hsp := idxs_split e
      obtain ⟨j, hj⟩ := filter_ge_drop h.wf.sorted i
      refine hI.drop m' j ?_
      rw [← hj]
      have hib : i < tl := by
        have : i ∈ idxs true hd tl := by rw [e]; simp
        exact (mem_idxs.1 this).2
      have hso : (q.elems.filter (fun e => decide (i < e.1))).Pairwise (fun a b => a.1 < b.1) := h.wf.sorted.filter _
      refine ⟨⟨hso, fun e => by simp [hr] at e, ?_⟩, by rw [hq, h.record], h.tail_lt, ?_, ?_, h.fit⟩
      · intro a b e
        have := h.wf.bnd a b e
        exact ⟨this.1, fun x hx => this.2 x (List.mem_filter.1 hx).1⟩
      · intro a b e
        have := h.cnt a b e
        refine ⟨Nat.le_trans (List.length_filter_le _ _) this.1, this.2⟩
      · intro a b e k hk1 hk2
        have e' : a = hd ∧ b = tl := by dsimp only at e; rw [hr] at e; simpa [eq_comm] using e
        rw [at_eq]
        dsimp only
        by_cases hki : k ≤ i
        · rw [atE_none]
          · rcases hit k with ⟨_, g⟩ | ⟨g, _⟩
            · exact absurd ((hsp k).2 (by omega)) g
            · exact g
          · intro x hx
            have := (List.mem_filter.1 hx).2
            simp at this; omega
        · rcases hit k with ⟨g, _⟩ | ⟨g, k', g1, g2⟩
          · rw [g, h.item hd tl hr k (by omega) (by omega), at_eq]
            cases ha : atE q.elems k with
            | some v => exact (atE_mem hso (List.mem_filter.2 ⟨atE_some ha, by simp; omega⟩)).symm
            | none =>
              symm; apply atE_none
              intro x hx e'
              have := atE_mem h.wf.sorted (List.mem_filter.1 hx).1
              rw [e', ha] at this; simp at this
          · have := (hsp k').1 g1
            have := (qitemKey_inj (by omega) (by omega) g2).2
            omega
    refine (wp_discardQLoop (m0 := m) _ m (SameOutside.refl _ _) hI.start hdrop).conseqI ?_
    rintro m' r hIm' ⟨rfl, h5, _, h6⟩
    dsimp only [seqPost]
    rw [wp_bind, wp_removeRaw]
    refine ⟨hIm', hI.done _ (QRep.gone (by simp) 0), ?_⟩
    refine ⟨hI.done _ (QRep.gone (by simp) 0), h5.upd (QFoot.queue qk), rfl, QRep.gone (by simp) 0, fun hg i hi => ?_⟩
    have he : Deque.empty.at? i = none := rfl
    rw [he, Map.upd_other _ _ (fun e => queueKey_ne_qitem qk qk i e.symm)]
    rcases h6 i with ⟨h7, h8⟩ | h7
    · rw [h7, hg i hi]
      apply at_none
      intro e hm e'
      have := (h.wf.bnd hd tl hr).2 e hm
      exact h8 (mem_idxs.2 (by omega))
    · exact h7

theorem wp_discardQueueBody {cfg m qk q n} (h : QRep cfg m qk q n) :
    wp cfg noInv (discardQueueBody qk) m (fun m' r => SameOutside (QFoot qk) m m' ∧ r = .ok q.range.isSome ∧
      QRep cfg m' qk Deque.empty 0 ∧ (GF m qk q → GF m' qk Deque.empty)) := wp_discardQueueBody' h .noInv

/-! ## extend -/

/-- The map after writing elements at consecutive indices. -/
def putItems (qk : Bytes) (m : Map) : Nat → List Bytes → Map
  | _, [] => m
  | t, v :: vs => putItems qk (m.upd (qitemKey qk t) (some v)) (t + 1) vs

theorem putItems_record {qk} : ∀ (vs : List Bytes) (t : Nat) (m : Map), putItems qk m t vs (queueKey qk) = m (queueKey qk)
  | [], _, _ => rfl
  | v :: vs, t, m => by
    unfold putItems
    rw [putItems_record vs, Map.upd_other _ _ (queueKey_ne_qitem _ _ _)]

theorem putItems_same {qk m0} : ∀ (vs : List Bytes) (t : Nat) (m : Map), SameOutside (QFoot qk) m0 m →
    SameOutside (QFoot qk) m0 (putItems qk m t vs)
  | [], _, _, h => h
  | _ :: vs, t, _, h => putItems_same vs (t + 1) _ (h.upd (QFoot.item qk t))

theorem putItems_below {qk} : ∀ (vs : List Bytes) (t : Nat) (m : Map) (i : Nat), i < t → t + vs.length ≤ U64 →
    putItems qk m t vs (qitemKey qk i) = m (qitemKey qk i)
  | [], _, _, _, _, _ => rfl
  | v :: vs, t, m, i, hi, hl => by
    unfold putItems
    simp only [List.length_cons] at hl
    rw [putItems_below vs (t + 1) _ i (by omega) (by omega),
      Map.upd_other _ _ (fun e => by have := (qitemKey_inj (by omega) (by omega) e).2; omega)]

theorem putItems_at {qk} : ∀ (vs : List Bytes) (t : Nat) (m : Map) (i : Nat), t + vs.length ≤ U64 → (hi : i < vs.length) →
    putItems qk m t vs (qitemKey qk (t + i)) = some vs[i]
  | [], _, _, _, _, hi => by simp at hi
  | v :: vs, t, m, 0, hl, _ => by
    unfold putItems
    simp only [List.length_cons] at hl
    show putItems qk _ (t + 1) vs (qitemKey qk t) = some v
    rw [putItems_below vs (t + 1) _ t (by omega) (by omega)]; simp
  | v :: vs, t, m, i + 1, hl, hi => by
    unfold putItems
    simp only [List.length_cons] at hl hi
    have := putItems_at (qk := qk) vs (t + 1) (m.upd (qitemKey qk t) (some v)) i (by omega) (by omega)
    have e : t + (i + 1) = t + 1 + i := by omega
    rw [e, this]; rfl

theorem putItems_above {qk} : ∀ (vs : List Bytes) (t : Nat) (m : Map) (i : Nat), t + vs.length ≤ i → i < U64 →
    putItems qk m t vs (qitemKey qk i) = m (qitemKey qk i)
  | [], _, _, _, _, _ => rfl
  | v :: vs, t, m, i, hi, hl => by
    unfold putItems
    simp only [List.length_cons] at hi
    rw [putItems_above vs (t + 1) _ i (by omega) (by omega),
      Map.upd_other _ _ (fun e => by have := (qitemKey_inj (by omega) (by omega) e).2; omega)]

/-- The labelled elements an extension adds. -/
def labelled (t : Nat) : List Bytes → List (Nat × Bytes)
  | [] => []
  | v :: vs => (t, v) :: labelled (t + 1) vs

theorem labelled_mem : ∀ {vs : List Bytes} {t : Nat} {e : Nat × Bytes}, e ∈ labelled t vs → ∃ i, ∃ h : i < vs.length, e = (t + i, vs[i])
  | [], _, _, h => by simp [labelled] at h
  | v :: vs, t, e, h => by
    rcases List.mem_cons.1 h with rfl | h
    · exact ⟨0, by simp, by simp⟩
    · obtain ⟨i, hi, rfl⟩ := labelled_mem h
      exact ⟨i + 1, by simp only [List.length_cons]; omega, by simp only [List.getElem_cons_succ, Prod.mk.injEq, and_true]; omega⟩

theorem labelled_length : ∀ {vs : List Bytes} {t : Nat}, (labelled t vs).length = vs.length
  | [], _ => rfl
  | _ :: vs, t => by simp [labelled, labelled_length (vs := vs)]

theorem labelled_sorted : ∀ {vs : List Bytes} {t : Nat}, (labelled t vs).Pairwise (fun a b => a.1 < b.1)
  | [], _ => List.Pairwise.nil
  | v :: vs, t => by
    unfold labelled
    rw [List.pairwise_cons]
    refine ⟨fun e he => ?_, labelled_sorted⟩
    obtain ⟨i, _, rfl⟩ := labelled_mem he
    dsimp only; omega

theorem labelled_at : ∀ {vs : List Bytes} {t i : Nat} (hi : i < vs.length), (t + i, vs[i]) ∈ labelled t vs
  | v :: vs, t, 0, _ => by simp [labelled]
  | v :: vs, t, i + 1, hi => by
    unfold labelled
    simp only [List.length_cons] at hi
    have := labelled_at (t := t + 1) (vs := vs) (i := i) (by omega)
    rw [show t + (i + 1) = t + 1 + i by omega]
    exact List.mem_cons_of_mem _ this

theorem labelled_snd : ∀ {vs : List Bytes} {t : Nat}, (labelled t vs).map Prod.snd = vs
  | [], _ => rfl
  | _ :: vs, t => by simp [labelled, labelled_snd (vs := vs)]

theorem tailIdx_eq (q : Deque) : q.tailIdx = (q.range.getD (FIRST, FIRST)).2 := by
  unfold Deque.tailIdx; cases q.range <;> rfl

theorem extend_eq : ∀ (vs : List Bytes) (q : Deque),
    q.extend vs = ⟨some ((q.range.getD (FIRST, FIRST)).1, q.tailIdx + vs.length), q.elems ++ labelled q.tailIdx vs⟩
  | [], q => by
    unfold Deque.extend labelled
    rw [tailIdx_eq]; simp
  | v :: vs, q => by
    unfold Deque.extend
    rw [extend_eq vs]
    unfold Deque.pushTail
    dsimp only [Option.getD_some, Deque.tailIdx]
    simp only [List.length_cons, labelled, List.append_assoc, List.singleton_append, Deque.mk.injEq, Option.some.injEq, Prod.mk.injEq, true_and]
    cases q.range with
    | none => simp only [and_true]; omega
    | some p => simp only [and_true]; omega

/-- All elements are within the size limits. -/
def ExtendFits (cfg : Cfg) (qk : Bytes) (vs : List Bytes) : Prop :=
  sizeErr cfg (queueKey qk) (encMeta 0 0 0) = none ∧ ∀ v ∈ vs, sizeErr cfg (qitemKey qk 0) v = none

theorem wp_extendLoop {cfg I qk} : ∀ (vs : List Bytes) (t : Nat) (m : Map), t < U64 → I m →
    (∀ j, j ≤ vs.length → t + j ≤ U64 → I (putItems qk m t (vs.take j))) →
    wp cfg I (extendLoop qk vs t) m (fun m' r => match r with
      | .ok t' => t' = t + vs.length ∧ m' = putItems qk m t vs ∧ (vs ≠ [] → t + vs.length < U64) ∧ ∀ v ∈ vs, sizeErr cfg (qitemKey qk 0) v = none
      | .err _ => (∃ v ∈ vs, sizeErr cfg (qitemKey qk 0) v ≠ none) ∧ ∃ j, j ≤ vs.length ∧ (j ≠ 0 → t + j < U64) ∧ m' = putItems qk m t (vs.take j)
      | .panic => False
      | .exhausted => U64 ≤ t + vs.length ∧ ∃ j, m' = putItems qk m t (vs.take j))
  | [], t, m, _, hI, _ => ⟨hI, rfl, rfl, by simp, by simp⟩
  | v :: vs, t, m, ht, hI, hI' => by
    unfold extendLoop
    rw [wp_bind, wp_setRaw, sizeErr_qitem]
    refine ⟨hI, ?_⟩
    cases hv : sizeErr cfg (qitemKey qk 0) v with
    | some e => exact ⟨⟨v, by simp, by rw [hv]; simp⟩, 0, by simp, by simp, by simp [putItems]⟩
    | none =>
      have hI1 : I (m.upd (qitemKey qk t) (some v)) := hI' 1 (by simp) (by omega)
      refine ⟨hI1, ?_⟩
      dsimp only [seqPost]
      rw [wp_bind]
      unfold idxSucc
      by_cases hlt : t + 1 < U64
      · rw [if_pos hlt]
        refine ⟨hI1, ?_⟩
        dsimp only [seqPost]
        refine (wp_extendLoop vs (t + 1) _ hlt hI1 ?_).conseq ?_
        · intro j hj hj'
          exact hI' (j + 1) (by simp only [List.length_cons]; omega) (by omega)
        intro m' r hr
        cases r with
        | ok t' =>
          obtain ⟨h1, h2, h3, h4⟩ := hr
          refine ⟨by simp only [List.length_cons]; omega, h2, ?_, ?_⟩
          · intro _
            simp only [List.length_cons]
            by_cases hvs : vs = []
            · subst hvs; simp; omega
            · have := h3 hvs; omega
          · intro x hx
            rcases List.mem_cons.1 hx with rfl | hx
            · exact hv
            · exact h4 x hx
        | err e =>
          obtain ⟨⟨x, hx, hxe⟩, j, h2, h3, h4⟩ := hr
          refine ⟨⟨x, List.mem_cons_of_mem _ hx, hxe⟩, j + 1, by simp only [List.length_cons]; omega, ?_, ?_⟩
          · intro _
            by_cases hj : j = 0
            · subst hj; omega
            · have := h3 hj; omega
          · rw [h4, List.take_succ_cons]; rfl
        | panic => exact hr
        | exhausted =>
          obtain ⟨h1, j, h2⟩ := hr
          exact ⟨by simp only [List.length_cons]; omega, j + 1, by rw [h2, List.take_succ_cons]; rfl⟩
      · rw [if_neg hlt]
        refine ⟨hI1, ?_⟩
        exact ⟨by simp only [List.length_cons]; omega, 1, by rw [List.take_succ_cons]; rfl⟩

/-- The queue created by a call that then failed: empty, with an empty range. -/
def touched (q : Deque) : Deque := ⟨some (q.range.getD (FIRST, FIRST)), q.elems⟩

/-- Postcondition of `extend_queue`. `n0` is the length reported before. -/
def ExtendPost (cfg : Cfg) (m : Map) (qk : Bytes) (q : Deque) (n0 : Nat) (vs : List Bytes) (m' : Map) (r : Res (Nat × Nat)) : Prop :=
  SameOutside (QFoot qk) m m' ∧
  match r with
  | .ok rg => rg = (q.tailIdx, q.tailIdx + vs.length) ∧ QRep cfg m' qk (q.extend vs) (n0 + vs.length) ∧ ExtendFits cfg qk vs ∧
      (GF m qk q → GF m' qk (q.extend vs))
  | .err _ => ¬ ExtendFits cfg qk vs ∧ (QRep cfg m' qk q n0 ∨ QRep cfg m' qk (touched q) n0)
  | .panic => False
  | .exhausted => U64 ≤ q.tailIdx + vs.length ∨ U64 ≤ n0 + vs.length

/-- The reported length. -/
def lenOf (q : Deque) (n : Nat) : Nat := if q.range = none then 0 else n

theorem QRep.touch {cfg m qk q n} (h : QRep cfg m qk q n) (hfit : sizeErr cfg (queueKey qk) (encMeta 0 0 0) = none) {m' : Map}
    (hrec : m' (queueKey qk) = some (encMeta (q.range.getD (FIRST, FIRST)).1 (q.range.getD (FIRST, FIRST)).2 (lenOf q n)))
    (hitem : ∀ i, i < q.tailIdx → m' (qitemKey qk i) = m (qitemKey qk i)) : QRep cfg m' qk (touched q) (lenOf q n) := by
  obtain ⟨range, E⟩ := q
  cases range with
  | none =>
    have hE : E = [] := h.wf.nil rfl
    subst hE
    refine ⟨⟨List.Pairwise.nil, by simp [touched], ?_⟩, hrec, ?_, ?_, ?_, ?_⟩
    · rintro a b ⟨⟩; exact ⟨Nat.le_refl _, by simp [touched]⟩
    · rintro a b ⟨⟩; exact (by decide : FIRST < U64)
    · rintro a b ⟨⟩; exact ⟨by simp [touched], (by decide : 0 < U64)⟩
    · rintro a b ⟨⟩ i h1 h2; omega
    · intros; exact hfit
  | some p =>
    obtain ⟨hd, tl⟩ := p
    have he : lenOf ⟨some (hd, tl), E⟩ n = n := by simp [lenOf]
    rw [he] at hrec ⊢
    refine ⟨h.wf, hrec, h.tail_lt, h.cnt, ?_, h.fit⟩
    rintro a b ⟨⟩ i h1 h2
    rw [hitem i h2]
    exact h.item hd tl rfl i h1 h2

/-- Invariant while a queue is extended: the old queue, the queue with a record, the extended queue. -/
structure ExtInv (cfg : Cfg) (I : Map → Prop) (m : Map) (qk : Bytes) (q : Deque) (n : Nat) (vs : List Bytes) : Prop where
  start : I m
  touch : ∀ m', QRep cfg m' qk (touched q) (lenOf q n) → I m'
  done : ∀ m', QRep cfg m' qk (q.extend vs) (lenOf q n + vs.length) → I m'

theorem ExtInv.noInv {cfg m qk q n vs} : ExtInv cfg noInv m qk q n vs := ⟨trivial, fun _ _ => trivial, fun _ _ => trivial⟩

set_option maxHeartbeats 1000000 in
theorem wp_extendQueueBody' {cfg I m qk q n} (h : QRep cfg m qk q n) (vs : List Bytes) (hI : ExtInv cfg I m qk q n vs) :
    wp cfg I (extendQueueBody qk vs) m (ExtendPost cfg m qk q (lenOf q n) vs) := by
  unfold extendQueueBody
  rw [wp_bind, wp_gocRaw, sizeErr_qrec]
  refine ⟨hI.start, ?_⟩
  have hnq : QRep cfg m qk q (lenOf q n) := by
    cases hr : q.range with
    | none => exact ⟨h.wf, by rw [h.record, hr]; rfl, by simp [hr], by simp [hr], by simp [hr], by simp [hr]⟩
    | some p => have : lenOf q n = n := by simp [lenOf, hr]
                rw [this]; exact h
  cases hfit : sizeErr cfg (queueKey qk) (encMeta 0 0 0) with
  | some e => exact ⟨SameOutside.refl _ _, fun hf => by rw [hf.1] at hfit; simp at hfit, Or.inl hnq⟩
  | none =>
    -- the value read back
    have hval : (gocOf (m (queueKey qk)) (encMeta FIRST_IDX FIRST_IDX 0)).value =
        encMeta (q.range.getD (FIRST, FIRST)).1 q.tailIdx (lenOf q n) := by
      rw [h.record, tailIdx_eq]
      unfold lenOf
      cases hr : q.range with
      | none => rfl
      | some p => simp [gocOf, GocStatus.value]
    have hget : (m (queueKey qk)).getD (encMeta FIRST_IDX FIRST_IDX 0) = encMeta (q.range.getD (FIRST, FIRST)).1 q.tailIdx (lenOf q n) := by
      rw [← hval]; cases m (queueKey qk) <;> rfl
    have hb : (q.range.getD (FIRST, FIRST)).1 ≤ q.tailIdx ∧ q.tailIdx < U64 ∧ lenOf q n < U64 ∧ q.elems.length ≤ lenOf q n ∧
        ∀ e ∈ q.elems, (q.range.getD (FIRST, FIRST)).1 ≤ e.1 ∧ e.1 < q.tailIdx := by
      rw [tailIdx_eq]
      unfold lenOf
      cases hr : q.range with
      | none => rw [h.wf.nil hr]; exact ⟨Nat.le_refl _, (by decide : FIRST < U64), (by decide : 0 < U64), by simp, by simp⟩
      | some p =>
        obtain ⟨hd, tl⟩ := p
        have h1 := h.cnt hd tl hr
        have h2 := h.tail_lt hd tl hr
        have h3 := h.wf.bnd hd tl hr
        simp only [Option.getD_some, reduceCtorEq, if_false]
        exact ⟨h3.1, h2, h1.2, h1.1, h3.2⟩
    have hitemq : ∀ i, (q.range.getD (FIRST, FIRST)).1 ≤ i → i < q.tailIdx → m (qitemKey qk i) = atE q.elems i := by
      rw [tailIdx_eq]
      intro i h1 h2
      cases hr : q.range with
      | none => rw [hr] at h1 h2; dsimp only [Option.getD_none] at h1 h2; omega
      | some p =>
        obtain ⟨hd, tl⟩ := p
        rw [hr] at h1 h2
        exact h.item hd tl hr i h1 h2
    dsimp only [seqPost]
    rw [hget, hval]
    generalize hm1 : m.upd (queueKey qk) (some (encMeta (q.range.getD (FIRST, FIRST)).1 q.tailIdx (lenOf q n))) = m1
    have hs1 : SameOutside (QFoot qk) m m1 := by rw [← hm1]; exact (SameOutside.refl _ _).upd (QFoot.queue qk)
    have hm1i : ∀ i, m1 (qitemKey qk i) = m (qitemKey qk i) := by
      intro i; rw [← hm1]; exact Map.upd_other _ _ (fun e => queueKey_ne_qitem qk qk i e.symm)
    have hm1r : m1 (queueKey qk) = some (encMeta (q.range.getD (FIRST, FIRST)).1 q.tailIdx (lenOf q n)) := by rw [← hm1]; simp
    have htouch : ∀ j, j ≤ vs.length → q.tailIdx + j ≤ U64 → I (putItems qk m1 q.tailIdx (vs.take j)) := by
      intro j hj hj'
      refine hI.touch _ (h.touch hfit ?_ ?_)
      · rw [putItems_record, hm1r, tailIdx_eq]
      · intro i hi
        rw [putItems_below _ _ _ _ hi (by rw [List.length_take]; omega), hm1i]
    have hI1 : I m1 := htouch 0 (Nat.zero_le _) (by omega)
    refine ⟨hI1, ?_⟩
    rw [wp_bind, wp_decMeta (by omega) hb.2.1 hb.2.2.1]
    refine ⟨hI1, ?_⟩
    dsimp only [seqPost]
    rw [wp_bind]
    refine (wp_extendLoop vs q.tailIdx m1 hb.2.1 hI1 htouch).conseqI ?_
    intro m2 r hI2 hr
    cases r with
    | panic => exact absurd hr id
    | exhausted =>
      obtain ⟨h1, j, rfl⟩ := hr
      exact ⟨putItems_same _ _ _ hs1, Or.inl h1⟩
    | err e =>
      obtain ⟨⟨x, hx, hxe⟩, j, h2, h3, rfl⟩ := hr
      refine ⟨putItems_same _ _ _ hs1, fun hf => hxe (hf.2 x hx), Or.inr ?_⟩
      refine h.touch hfit ?_ ?_
      · rw [putItems_record, hm1r, tailIdx_eq]
      · intro i hi
        by_cases hj : j = 0
        · subst hj; rw [List.take_zero]; exact hm1i i
        · have := h3 hj
          rw [putItems_below _ _ _ _ hi (by rw [List.length_take]; omega), hm1i]
    | ok t' =>
      obtain ⟨rfl, rfl, h3, h4⟩ := hr
      have hlt : q.tailIdx + vs.length < U64 := by
        by_cases hv : vs = []
        · subst hv; simp; exact hb.2.1
        · exact h3 hv
      dsimp only [seqPost]
      by_cases hn : U64 ≤ lenOf q n + vs.length
      · rw [if_pos hn]
        exact ⟨hI2, putItems_same _ _ _ hs1, Or.inr hn⟩
      · rw [if_neg hn, wp_bind, wp_setRaw, sizeErr_qrec, hfit]
        refine ⟨hI2, ?_⟩
        have hso : (q.elems ++ labelled q.tailIdx vs).Pairwise (fun a b => a.1 < b.1) := by
          rw [List.pairwise_append]
          refine ⟨h.wf.sorted, labelled_sorted, fun a ha b hb' => ?_⟩
          obtain ⟨i, _, rfl⟩ := labelled_mem hb'
          have := (hb.2.2.2.2 a ha).2
          dsimp only; omega
        have hitems : ∀ i, i < q.tailIdx + vs.length → m (qitemKey qk i) = atE q.elems i ∨ q.tailIdx ≤ i →
            (putItems qk m1 q.tailIdx vs).upd (queueKey qk) (some (encMeta (q.range.getD (FIRST, FIRST)).1 (q.tailIdx + vs.length) (lenOf q n + vs.length)))
              (qitemKey qk i) = atE (q.elems ++ labelled q.tailIdx vs) i := by
          intro i h2 h1
          rw [Map.upd_other _ _ (fun e => queueKey_ne_qitem qk qk i e.symm)]
          by_cases hi : i < q.tailIdx
          · rw [putItems_below _ _ _ _ hi (by omega), hm1i, h1.resolve_right (by omega)]
            cases ha : atE q.elems i with
            | some v => exact (atE_mem hso (List.mem_append_left _ (atE_some ha))).symm
            | none =>
              symm
              apply atE_none
              intro e he
              rcases List.mem_append.1 he with he | he
              · intro e'; have := atE_mem h.wf.sorted he; rw [e', ha] at this; simp at this
              · obtain ⟨j, _, rfl⟩ := labelled_mem he
                dsimp only; omega
          · obtain ⟨j, rfl⟩ : ∃ j, i = q.tailIdx + j := ⟨i - q.tailIdx, by omega⟩
            have hj : j < vs.length := by omega
            rw [putItems_at _ _ _ _ (by omega) hj]
            exact (atE_mem hso (List.mem_append_right _ (labelled_at hj))).symm
        refine and_fin (hI.done _) ⟨(putItems_same _ _ _ hs1).upd (QFoot.queue qk), rfl, ?_, ⟨hfit, h4⟩, ?_⟩
        · rw [extend_eq]
          refine ⟨⟨hso, by simp, ?_⟩, by simp, ?_, ?_, ?_, ?_⟩
          · rintro a b ⟨⟩
            refine ⟨by omega, fun e he => ?_⟩
            rcases List.mem_append.1 he with he | he
            · have := hb.2.2.2.2 e he; omega
            · obtain ⟨i, hi, rfl⟩ := labelled_mem he
              dsimp only; omega
          · rintro a b ⟨⟩; exact hlt
          · rintro a b ⟨⟩
            simp only [List.length_append, labelled_length]
            omega
          · rintro a b ⟨⟩ i h1 h2
            refine hitems i h2 ?_
            by_cases hi : i < q.tailIdx
            · exact Or.inl (hitemq i h1 hi)
            · exact Or.inr (by omega)
          · intros; exact hfit
        · intro hg
          rw [extend_eq]
          intro i hi
          by_cases h2 : i < q.tailIdx + vs.length
          · exact hitems i h2 (Or.inl (hg i hi))
          · rw [Map.upd_other _ _ (fun e => queueKey_ne_qitem qk qk i e.symm), putItems_above _ _ _ _ (by omega) hi, hm1i, hg i hi, at_eq, at_eq]
            dsimp only
            have g1 : atE q.elems i = none := atE_none (fun e he => by have := hb.2.2.2.2 e he; omega)
            have g2 : atE (q.elems ++ labelled q.tailIdx vs) i = none := atE_none (fun e he => by
              rcases List.mem_append.1 he with he | he
              · have := hb.2.2.2.2 e he; omega
              · obtain ⟨j, hj, rfl⟩ := labelled_mem he
                dsimp only; omega)
            rw [g1, g2]

theorem wp_extendQueueBody {cfg m qk q n} (h : QRep cfg m qk q n) (vs : List Bytes) :
    wp cfg noInv (extendQueueBody qk vs) m (ExtendPost cfg m qk q (lenOf q n) vs) := wp_extendQueueBody' h vs .noInv

/-! ## remove_from_queue -/

/-- The range contains at least two indices. -/
def TwoIdx (q : Deque) : Prop := ∀ h t, q.range = some (h, t) → h + 2 ≤ t

/-- Invariant during a removal: the old queue, the queue with the element gone but the record not yet updated, or the new queue. -/
structure RemInv (cfg : Cfg) (I : Map → Prop) (m : Map) (qk : Bytes) (q : Deque) (n : Nat) (i : Nat) : Prop where
  start : I m
  drop : ∀ m', QRep cfg m' qk ⟨q.range, q.elems.filter (fun e => decide (e.1 ≠ i))⟩ n → I m'
  done : ∀ m', QRep cfg m' qk (q.removeAt i) (n - 1) → I m'

theorem RemInv.noInv {cfg m qk q n i} : RemInv cfg noInv m qk q n i := ⟨trivial, fun _ _ => trivial, fun _ _ => trivial⟩

set_option maxHeartbeats 1000000 in
/-- `remove_from_queue` on a queue whose range has at least two indices, for an index that is either an element's or has nothing
stored. -/
theorem wp_removeFromQueueBody' {cfg I m qk q n} (h : QRep cfg m qk q n) (h2 : TwoIdx q) {i : Nat}
    (hg : m (qitemKey qk i) = q.at? i) (hI : RemInv cfg I m qk q n i) :
    wp cfg I (removeFromQueueBody qk i) m (fun m' r => SameOutside (QFoot qk) m m' ∧ r = .ok (q.at? i) ∧
      QRep cfg m' qk (q.removeAt i) (if (q.at? i).isSome then n - 1 else n) ∧ (GF m qk q → GF m' qk (q.removeAt i))) := by
  unfold removeFromQueueBody
  rw [wp_bind, wp_removeRaw]
  refine ⟨hI.start, ?_⟩
  dsimp only [seqPost]
  rw [hg]
  cases ha : q.at? i with
  | none =>
    rw [ha] at hg
    rw [upd_none_self hg]
    refine ⟨hI.start, hI.start, SameOutside.refl _ _, rfl, ?_⟩
    have : q.removeAt i = q := by unfold Deque.removeAt; rw [ha]; cases q.range <;> rfl
    rw [this]
    exact ⟨h, id⟩
  | some v =>
    dsimp only
    have hmem : (i, v) ∈ q.elems := at_some ha
    cases hr : q.range with
    | none => rw [h.wf.nil hr] at hmem; simp at hmem
    | some p =>
      obtain ⟨hd, tl⟩ := p
      have hc := h.cnt hd tl hr
      have htl := h.tail_lt hd tl hr
      have hb := h.wf.bnd hd tl hr
      have hfit := h.fit hd tl hr
      have htwo := h2 hd tl hr
      have hi := hb.2 _ hmem
      dsimp only at hi
      have hn0 : 0 < n := by have := List.length_pos_of_mem hmem; omega
      have hI1 : I (m.upd (qitemKey qk i) none) :=
        hI.drop _ (h.dropItem hr hmem (fun x hx => ⟨(List.mem_filter.1 hx).1, by simpa using (List.mem_filter.1 hx).2⟩)
          (fun x hx hne => List.mem_filter.2 ⟨hx, by simpa using hne⟩) (h.wf.sorted.filter _))
      refine ⟨hI1, ?_⟩
      rw [wp_bind, wp_getRaw]
      refine ⟨hI1, ?_⟩
      dsimp only [seqPost]
      rw [Map.upd_other _ _ (queueKey_ne_qitem _ _ _), h.record, hr]
      dsimp only [Option.map_some]
      rw [wp_bind, wp_decMeta (by omega) htl (by omega)]
      refine ⟨hI1, ?_⟩
      dsimp only [seqPost]
      have key : ∀ hd' tl', hd' = (if hd = i then hd + 1 else hd) → tl' = (if tl = i + 1 then tl - 1 else tl) →
          wp cfg I (do
            let num ← numPred n
            putQueueMeta qk hd' tl' num
            return some v) (m.upd (qitemKey qk i) none) (fun m' r => SameOutside (QFoot qk) m m' ∧ r = .ok (some v) ∧
              QRep cfg m' qk (q.removeAt i) (if (some v).isSome then n - 1 else n) ∧ (GF m qk q → GF m' qk (q.removeAt i))) := by
        intro hd' tl' e1 e2
        rw [wp_bind]
        unfold numPred
        rw [if_pos hn0]
        refine ⟨hI1, ?_⟩
        dsimp only [seqPost]
        rw [wp_bind]
        refine wp_putQueueMeta hfit hI1 ?_
        refine and_fin (hI.done _) ⟨((SameOutside.refl _ _).upd (QFoot.item qk _)).upd (QFoot.queue qk), rfl, ?_⟩
        have hre : q.removeAt i = ⟨Deque.mkRange hd' tl', q.elems.filter (fun e => decide (e.1 ≠ i))⟩ := by
          unfold Deque.removeAt; rw [hr, ha, e1, e2]
        rw [hre]
        have b1 : hd ≤ hd' ∧ hd' ≤ hd + 1 ∧ (hd' = hd + 1 → i = hd) ∧ (hd' = hd → i ≠ hd) := by
          rw [e1]; split <;> omega
        have b2 : tl' ≤ tl ∧ tl ≤ tl' + 1 ∧ (tl' ≠ tl → i + 1 = tl) ∧ (tl' = tl → i + 1 ≠ tl) := by
          rw [e2]; split <;> omega
        refine ⟨?_, fun hg => GF.drop (i := i) h.wf.sorted hg ?_ ?_ (h.wf.sorted.filter _) ?_ ?_⟩
        rotate_left
        · intro e he
          obtain ⟨h3, h4⟩ := List.mem_filter.1 he
          exact ⟨h3, by simpa using h4⟩
        · intro e he hne
          exact List.mem_filter.2 ⟨he, by simpa using hne⟩
        · rw [Map.upd_other _ _ (fun e => queueKey_ne_qitem qk qk i e.symm)]; simp
        · intro j hj hne
          rw [Map.upd_other _ _ (fun e => queueKey_ne_qitem qk qk j e.symm), Map.upd_other _ _ (fun e => hne (qitemKey_inj hj (by omega) e).2)]
        refine h.shrink (i := i) hr b1.1 b2.1 (by omega) ?_ ?_ (h.wf.sorted.filter _) ?_ (by simp) ?_ ?_
        · intro e he
          obtain ⟨h3, h4⟩ := List.mem_filter.1 he
          have h5 := hb.2 e h3
          have h6 : e.1 ≠ i := by simpa using h4
          exact ⟨h3, h6, by omega, by omega⟩
        · intro e he _ _ hne
          exact List.mem_filter.2 ⟨he, by simpa using hne⟩
        · simp only [Option.isSome_some, if_true]
          have : (q.elems.filter (fun e => decide (e.1 ≠ i))).length < q.elems.length := by
            apply List.length_filter_lt_length_iff_exists.2
            exact ⟨_, hmem, by simp⟩
          omega
        · intro _ _
          rw [Map.upd_other _ _ (fun e => queueKey_ne_qitem qk qk i e.symm)]; simp
        · intro j hj hne
          rw [Map.upd_other _ _ (fun e => queueKey_ne_qitem qk qk j e.symm), Map.upd_other _ _ (fun e => hne (qitemKey_inj hj (by omega) e).2)]
      by_cases e1 : hd = i
      · rw [if_pos e1, wp_bind]
        unfold idxSucc
        rw [if_pos (by omega)]
        refine ⟨hI1, ?_⟩
        dsimp only [seqPost]
        by_cases e2 : tl = i + 1
        · omega
        · rw [if_neg e2, wp_bind]
          refine ⟨hI1, ?_⟩
          exact key _ _ (by rw [if_pos e1]) (by rw [if_neg e2])
      · rw [if_neg e1, wp_bind]
        refine ⟨hI1, ?_⟩
        dsimp only [seqPost]
        by_cases e2 : tl = i + 1
        · rw [if_pos e2, wp_bind]
          unfold idxPred
          rw [if_pos (by omega)]
          refine ⟨hI1, ?_⟩
          exact key _ _ (by rw [if_neg e1]) (by rw [if_pos e2])
        · rw [if_neg e2, wp_bind]
          refine ⟨hI1, ?_⟩
          exact key _ _ (by rw [if_neg e1]) (by rw [if_neg e2])

theorem wp_removeFromQueueBody {cfg m qk q n} (h : QRep cfg m qk q n) (h2 : TwoIdx q) {i : Nat}
    (hg : m (qitemKey qk i) = q.at? i) :
    wp cfg noInv (removeFromQueueBody qk i) m (fun m' r => SameOutside (QFoot qk) m m' ∧ r = .ok (q.at? i) ∧
      QRep cfg m' qk (q.removeAt i) (if (q.at? i).isSome then n - 1 else n) ∧ (GF m qk q → GF m' qk (q.removeAt i))) :=
  wp_removeFromQueueBody' h h2 hg .noInv

/-! ## Big values -/

theorem chunks_flatten (n : Nat) (hn : n ≠ 0) (b : Bytes) : (chunks n b).flatten = b := by
  induction b using chunks.induct n with
  | case1 b h =>
    rw [chunks, dif_pos h]
    rcases h with h | h
    · rw [h]; rfl
    · exact absurd h hn
  | case2 b h ih =>
    rw [chunks, dif_neg h]
    simp [ih]

theorem chunks_nil (n : Nat) (hn : n ≠ 0) (b : Bytes) : chunks n b = [] ↔ b = [] := by
  rw [chunks]
  split
  · rename_i h; exact ⟨fun _ => h.resolve_right hn, fun _ => rfl⟩
  · rename_i h; exact ⟨fun e => by simp at e, fun e => absurd (Or.inl e) h⟩

theorem chunks_le (n : Nat) (b : Bytes) : ∀ c ∈ chunks n b, c.length ≤ n := by
  induction b using chunks.induct n with
  | case1 b h => rw [chunks, dif_pos h]; simp
  | case2 b h ih =>
    rw [chunks, dif_neg h]
    intro c hc
    rcases List.mem_cons.1 hc with rfl | hc
    · simp; omega
    · exact ih c hc

end Candy
