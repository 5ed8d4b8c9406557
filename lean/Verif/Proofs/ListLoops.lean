import Verif.Proofs.ListOps
/-!
# List operations: reading, popping, compacting, discarding
-/
namespace Candy
open Spec LItems

/-- The trivial invariant. -/
abbrev noInv : Map → Prop := fun _ => True

theorem wp_getFromList {cfg m lk μ L} (ik : Bytes) (h : LRep cfg m lk μ L) {I : Map → Prop} (hI : I m) :
    wp cfg I (getFromList cfg lk ik) m (fun m' r => m' = m ∧ r = .ok ((vis L).get ik)) := by
  unfold getFromList
  rw [wp_bind, wp_getRaw]
  refine ⟨hI, ?_⟩
  dsimp only [seqPost]
  rw [h.items.get_item, vis_get]
  cases hb : byKey L ik with
  | none => exact ⟨hI, rfl, rfl⟩
  | some e =>
    dsimp only [Option.map_some]
    rw [splitVal_append, wp_bind]
    exact ⟨hI, hI, rfl, rfl⟩

theorem wp_listLen {cfg m lk μ L} (h : LRep cfg m lk μ L) {I : Map → Prop} (hI : I m) :
    wp cfg I (listLen lk) m (fun m' r => m' = m ∧ ∃ n, r = .ok n ∧ L.length ≤ n ∧ (Exact μ L → n = L.length)) := by
  unfold listLen
  rw [wp_bind, wp_getRaw]
  refine ⟨hI, ?_⟩
  dsimp only [seqPost]
  rw [h.record]
  cases μ with
  | none =>
    have := h.nil rfl; subst this
    exact ⟨hI, rfl, 0, rfl, Nat.le_refl _, fun _ => rfl⟩
  | some x =>
    have h1 := h.span x rfl
    have h2 := h.tail_lt x rfl
    dsimp only [Option.map_some]
    rw [wp_bind, wp_decMeta (by omega) h2 (by omega)]
    exact ⟨hI, hI, rfl, x.num, rfl, h.cnt x rfl, fun hx => hx x rfl⟩

/-- The range of indices of a list. -/
def rangeOf (μ : Option Meta) : Option (Nat × Nat) := μ.map (fun x => (x.head, x.tail))

theorem wp_listRange {cfg m lk μ L} (h : LRep cfg m lk μ L) {I : Map → Prop} (hI : I m) {Q : Map → Res (Option (Nat × Nat)) → Prop}
    (hQ : Q m (.ok (rangeOf μ))) : wp cfg I (listRange cfg lk) m Q := by
  unfold listRange
  rw [wp_bind, wp_withLock, wp_getRaw]
  refine ⟨hI, ?_⟩
  dsimp only [seqPost]
  rw [h.record]
  cases μ with
  | none => exact ⟨hI, hQ⟩
  | some x =>
    have h1 := h.span x rfl
    have h2 := h.tail_lt x rfl
    dsimp only [Option.map_some]
    rw [wp_bind, wp_decMeta (by omega) h2 (by omega)]
    exact ⟨hI, hI, hQ⟩

theorem wp_collectIdx {cfg m lph L} (h : LItems cfg m lph L) {I : Map → Prop} (hI : I m) : ∀ (is : List Nat), (∀ i ∈ is, i < U64) →
    wp cfg I (collectIdx lph is) m (fun m' r => m' = m ∧ r = .ok ((is.filterMap (byIdx L)).map Prod.snd))
  | [], _ => ⟨hI, rfl, rfl⟩
  | i :: is, hlt => by
    have ih := wp_collectIdx h hI is (fun j hj => hlt j (List.mem_cons_of_mem _ hj))
    unfold collectIdx
    rw [wp_bind]
    apply h.wp_getAtIndexT (hlt i (by simp)) hI
    dsimp only [seqPost]
    cases hb : byIdx L i with
    | none =>
      rw [List.filterMap_cons_none hb]
      exact ih
    | some e =>
      rw [List.filterMap_cons_some hb]
      dsimp only [Option.map_some]
      rw [wp_bind]
      refine ih.conseq ?_
      rintro m' r ⟨rfl, rfl⟩
      exact ⟨hI, rfl, rfl⟩

/-- The order in which an iterator returns the items. -/
def dirOrder (fwd : Bool) (l : OList) : OList := if fwd then l else l.reverse

theorem wp_iterList {cfg m lk μ L} (fwd : Bool) (h : LRep cfg m lk μ L) {I : Map → Prop} (hI : I m) :
    wp cfg I (iterList cfg lk fwd) m (fun m' r => m' = m ∧ r = .ok (dirOrder fwd (vis L))) := by
  unfold iterList
  rw [wp_bind]
  apply wp_listRange h hI
  dsimp only [seqPost]
  cases μ with
  | none =>
    have := h.nil rfl; subst this
    refine ⟨hI, rfl, ?_⟩
    cases fwd <;> rfl
  | some x =>
    have h2 := h.tail_lt x rfl
    refine (wp_collectIdx h.items hI _ (fun i hi => by have := mem_idxs.1 hi; omega)).conseq ?_
    rintro m' r ⟨rfl, rfl⟩
    refine ⟨rfl, ?_⟩
    rw [filterMap_idxs h.items.sorted (h.bnd x rfl)]
    unfold dirOrder vis
    cases fwd <;> simp

theorem wp_firstIdx {cfg m lph L} (h : LItems cfg m lph L) {I : Map → Prop} (hI : I m) : ∀ (is : List Nat), (∀ i ∈ is, i < U64) →
    wp cfg I (firstIdx lph is) m (fun m' r => m' = m ∧ r = .ok ((is.filterMap (byIdx L)).head?.map Prod.snd))
  | [], _ => ⟨hI, rfl, rfl⟩
  | i :: is, hlt => by
    have ih := wp_firstIdx h hI is (fun j hj => hlt j (List.mem_cons_of_mem _ hj))
    unfold firstIdx
    rw [wp_bind]
    apply h.wp_getAtIndexT (hlt i (by simp)) hI
    dsimp only [seqPost]
    cases hb : byIdx L i with
    | none =>
      rw [List.filterMap_cons_none hb]
      exact ih
    | some e =>
      rw [List.filterMap_cons_some hb]
      exact ⟨hI, rfl, rfl⟩

theorem head_dirOrder (fwd : Bool) (L : List Entry) :
    (if fwd then L else L.reverse).head?.map Prod.snd = (dirOrder fwd (vis L)).head? := by
  unfold dirOrder vis
  cases fwd <;> simp

theorem wp_peekList {cfg m lk μ L} (fwd : Bool) (h : LRep cfg m lk μ L) {I : Map → Prop} (hI : I m) :
    wp cfg I (peekList cfg lk fwd) m (fun m' r => m' = m ∧ r = .ok (dirOrder fwd (vis L)).head?) := by
  unfold peekList
  rw [wp_bind]
  apply wp_listRange h hI
  dsimp only [seqPost]
  cases μ with
  | none =>
    have := h.nil rfl; subst this
    refine ⟨hI, rfl, ?_⟩
    cases fwd <;> rfl
  | some x =>
    have h2 := h.tail_lt x rfl
    refine (wp_firstIdx h.items hI _ (fun i hi => by have := mem_idxs.1 hi; omega)).conseq ?_
    rintro m' r ⟨rfl, rfl⟩
    refine ⟨rfl, ?_⟩
    rw [filterMap_idxs h.items.sorted (h.bnd x rfl), head_dirOrder]

theorem wp_removeFromList {cfg m lk μ L} (ik : Bytes) (h : LRep cfg m lk μ L) :
    wp cfg noInv (removeFromList cfg lk ik) m (RemPost cfg m lk μ L ik) :=
  wp_withLock.2 (wp_removeBody ik h trivial (fun _ _ _ _ _ => ⟨trivial, trivial, trivial⟩))

/-- Postcondition of a pop. -/
def PopPost (cfg : Cfg) (m : Map) (lk : Bytes) (μ : Option Meta) (L : List Entry) (res : Option KV) (m' : Map) (r : Res (Option KV)) : Prop :=
  SameOutside (LFoot cfg lk) m m' ∧ r = .ok res ∧
  ∃ μ' L', LRep cfg m' lk μ' L' ∧ Evolves 0 μ L μ' L' ∧
    vis L' = match res with | none => vis L | some kv => (vis L).erase kv.1

theorem wp_popIdx {cfg m lk μ L} (h : LRep cfg m lk μ L) : ∀ (is : List Nat), (∀ i ∈ is, i < U64) →
    wp cfg noInv (popIdx cfg lk is) m (PopPost cfg m lk μ L ((is.filterMap (byIdx L)).head?.map Prod.snd))
  | [], _ => ⟨trivial, SameOutside.refl _ _, rfl, μ, L, h, Evolves.refl _ _ _, rfl⟩
  | i :: is, hlt => by
    have ih := wp_popIdx h is (fun j hj => hlt j (List.mem_cons_of_mem _ hj))
    unfold popIdx
    rw [wp_bind]
    apply h.items.wp_getAtIndexT (hlt i (by simp)) (I := noInv) trivial
    dsimp only [seqPost]
    cases hb : byIdx L i with
    | none =>
      rw [List.filterMap_cons_none hb]
      exact ih
    | some e =>
      rw [List.filterMap_cons_some hb]
      dsimp only [Option.map_some]
      rw [wp_bind]
      refine (wp_removeFromList e.2.1 h).conseq ?_
      rintro m' r ⟨h1, rfl, μ', L', h2, h3, h4⟩
      have hg : (vis L).get e.2.1 = some e.2.2 := by
        rw [vis_get]
        cases hk : byKey L e.2.1 with
        | none => exact absurd rfl (byKey_none hk e (byIdx_some hb).1)
        | some e' =>
          rw [h.items.key_unique (byKey_some hk).1 (byIdx_some hb).1 (byKey_some hk).2]; rfl
      rw [hg]
      exact ⟨trivial, h1, rfl, μ', L', h2, h3, h4⟩

theorem wp_popList {cfg m lk μ L} (fwd : Bool) (h : LRep cfg m lk μ L) :
    wp cfg noInv (popList cfg lk fwd) m (PopPost cfg m lk μ L (dirOrder fwd (vis L)).head?) := by
  unfold popList
  rw [wp_bind]
  apply wp_listRange h (I := noInv) trivial
  dsimp only [seqPost]
  cases μ with
  | none =>
    have hn := h.nil rfl; subst hn
    have : (dirOrder fwd (vis [])).head? = none := by cases fwd <;> rfl
    rw [this]
    exact ⟨trivial, SameOutside.refl _ _, rfl, none, [], h, Evolves.refl _ _ _, rfl⟩
  | some x =>
    have h2 := h.tail_lt x rfl
    have := wp_popIdx h (idxs fwd x.head x.tail) (fun i hi => by have := mem_idxs.1 hi; omega)
    rw [filterMap_idxs h.items.sorted (h.bnd x rfl), head_dirOrder] at this
    exact this

/-! ### Discarding -/

theorem wp_discardIdx {cfg lk} {I : Map → Prop} {m0 : Map} (hI : ∀ m', SameOutside (LFoot cfg lk) m0 m' → I m') :
    ∀ (is : List Nat) (L : List Entry) (m : Map), LItems cfg m (cfg.listPh lk) L → SameOutside (LFoot cfg lk) m0 m → (∀ i ∈ is, i < U64) →
    m (listKey lk) = m0 (listKey lk) →
    wp cfg I (discardIdx (cfg.listPh lk) is) m (fun m' r => r = .ok () ∧ SameOutside (LFoot cfg lk) m0 m' ∧ m' (listKey lk) = m0 (listKey lk) ∧
      ∃ L', LItems cfg m' (cfg.listPh lk) L' ∧ ∀ e ∈ L', e ∈ L ∧ e.1 ∉ is)
  | [], L, m, h, hs, _, hl => ⟨hI m hs, rfl, hs, hl, L, h, fun e he => ⟨he, by simp⟩⟩
  | i :: is, L, m, h, hs, hlt, hl => by
    unfold discardIdx
    rw [wp_bind]
    apply h.wp_getAtIndex (hlt i (by simp)) (hI m hs)
    dsimp only [seqPost]
    cases hb : byIdx L i with
    | none =>
      refine (wp_discardIdx hI is L m h hs (fun j hj => hlt j (List.mem_cons_of_mem _ hj)) hl).conseq ?_
      rintro m' r ⟨h1, h2, h3, L', h4, h5⟩
      refine ⟨h1, h2, h3, L', h4, fun e he => ⟨(h5 e he).1, ?_⟩⟩
      rw [List.mem_cons]
      rintro (e' | e')
      · exact byIdx_none hb e (h5 e he).1 e'
      · exact (h5 e he).2 e'
    | some e0 =>
      obtain ⟨h0, rfl⟩ := byIdx_some hb
      dsimp only [Option.map_some]
      have s1 := hs.upd (x := none) (LFoot.chain cfg lk e0.1)
      have s2 := s1.upd (x := none) (LFoot.item cfg lk e0.2.1)
      rw [wp_bind, wp_removeRaw]
      refine ⟨hI _ hs, hI _ s1, ?_⟩
      dsimp only [seqPost]
      rw [wp_bind, wp_removeRaw]
      refine ⟨hI _ s1, hI _ s2, ?_⟩
      dsimp only [seqPost]
      refine (wp_discardIdx hI is _ _ (h.remove_item h0) s2 (fun j hj => hlt j (List.mem_cons_of_mem _ hj)) ?_).conseq ?_
      · rw [Map.upd_other _ _ (listKey_ne_item _ _ _), Map.upd_other _ _ (listKey_ne_chain _ _ _)]; exact hl
      rintro m' r ⟨h1, h2, h3, L', h4, h5⟩
      refine ⟨h1, h2, h3, L', h4, fun e he => ?_⟩
      obtain ⟨h6, h7⟩ := h5 e he
      obtain ⟨h8, h9⟩ := mem_dropIdx.1 h6
      refine ⟨h8, ?_⟩
      rw [List.mem_cons]
      rintro (e' | e')
      · exact h9 e'
      · exact h7 e'

/-- Postcondition of `discard_list`. -/
def DiscardPost (cfg : Cfg) (m : Map) (lk : Bytes) (μ : Option Meta) (m' : Map) (r : Res Bool) : Prop :=
  SameOutside (LFoot cfg lk) m m' ∧ r = .ok μ.isSome ∧ LRep cfg m' lk none []

theorem wp_discardListBody {cfg m lk μ L} (h : LRep cfg m lk μ L) :
    wp cfg noInv (discardListBody cfg lk) m (DiscardPost cfg m lk μ) := by
  unfold discardListBody
  rw [wp_bind, wp_getRaw]
  refine ⟨trivial, ?_⟩
  dsimp only [seqPost]
  rw [h.record]
  cases μ with
  | none =>
    have hn := h.nil rfl; subst hn
    exact ⟨trivial, SameOutside.refl _ _, rfl, h⟩
  | some x =>
    have h1 := h.span x rfl
    have h2 := h.tail_lt x rfl
    dsimp only [Option.map_some]
    rw [wp_bind, wp_decMeta (by omega) h2 (by omega)]
    refine ⟨trivial, ?_⟩
    dsimp only [seqPost]
    rw [wp_bind]
    refine (wp_discardIdx (I := noInv) (m0 := m) (fun _ _ => trivial) _ L m h.items (SameOutside.refl _ _)
      (fun i hi => by have := mem_idxs.1 hi; omega) rfl).conseq ?_
    rintro m' r ⟨rfl, h3, h4, L', h5, h6⟩
    dsimp only [seqPost]
    rw [wp_bind, wp_removeRaw]
    refine ⟨trivial, trivial, ?_⟩
    have hL' : L' = [] := by
      apply List.eq_nil_iff_forall_not_mem.2
      intro e he
      obtain ⟨h7, h8⟩ := h6 e he
      exact h8 (mem_idxs.2 (h.bnd x rfl e h7))
    subst hL'
    refine ⟨trivial, h3.upd (LFoot.list cfg lk), rfl, ?_⟩
    exact ⟨h5.upd_other (fun ik => listKey_ne_item lk _ ik) (fun i => listKey_ne_chain lk _ i), by simp, fun _ => rfl,
      by simp, by simp, by simp, by simp, by simp⟩

/-! ### Compaction -/

theorem byIdx_append_lt {P N : List Entry} {i : Nat} (h : ∀ e ∈ N, e.1 ≠ i) : byIdx (P ++ N) i = byIdx P i := by
  unfold byIdx
  rw [List.find?_append]
  have : N.find? (fun e => decide (e.1 = i)) = none := by
    rw [List.find?_eq_none]; intro e he; simpa using h e he
  rw [this, Option.or_none]

/-- The loop of `compact_list_if_needed`: `P` is what is left at the old indices, `N` what has been moved. -/
theorem wp_compactIdx {cfg lk m0} {tail : Nat} :
    ∀ (n i new : Nat) (P N : List Entry) (m : Map), LItems cfg m (cfg.listPh lk) (P ++ N) → SameOutside (LFoot cfg lk) m0 m →
    m (listKey lk) = m0 (listKey lk) → i + n = tail → (∀ e ∈ P, i ≤ e.1 ∧ e.1 < tail) → (∀ e ∈ N, tail ≤ e.1 ∧ e.1 < new) →
    new = tail + N.length → new < U64 →
    wp cfg noInv (compactIdx (cfg.listPh lk) (List.range' i n) new) m (fun m' r =>
      (r = .exhausted ∧ U64 ≤ tail + (P.length + N.length)) ∨
      (SameOutside (LFoot cfg lk) m0 m' ∧ m' (listKey lk) = m0 (listKey lk) ∧
        ∃ N', LItems cfg m' (cfg.listPh lk) N' ∧ vis N' = vis N ++ vis P ∧ (∀ e ∈ N', tail ≤ e.1 ∧ e.1 < tail + N'.length) ∧
          tail + N'.length < U64 ∧ r = .ok (tail + N'.length)))
  | 0, i, new, P, N, m, h, hs, hl, hi, hP, hN, hnew, hlt => by
    have : P = [] := by
      apply List.eq_nil_iff_forall_not_mem.2
      intro e he; have := hP e he; omega
    subst this
    refine ⟨trivial, Or.inr ⟨hs, hl, N, by simpa using h, by simp [vis], ?_, by omega, by rw [hnew]⟩⟩
    rw [← hnew]; exact hN
  | n + 1, i, new, P, N, m, h, hs, hl, hi, hP, hN, hnew, hlt => by
    rw [List.range'_succ]
    unfold compactIdx
    rw [wp_bind]
    apply h.wp_getAtIndex (by omega) (I := noInv) trivial
    dsimp only [seqPost]
    have hfreeN : ∀ e ∈ N, e.1 ≠ i := fun e he => by have := hN e he; omega
    rw [byIdx_append_lt hfreeN]
    cases hb : byIdx P i with
    | none =>
      refine wp_compactIdx n (i + 1) new P N m h hs hl (by omega) ?_ hN hnew hlt
      intro e he
      have h1 := hP e he
      have h2 := byIdx_none hb e he
      omega
    | some e0 =>
      obtain ⟨h0, rfl⟩ := byIdx_some hb
      have h0' : e0 ∈ P ++ N := List.mem_append_left _ h0
      have hbig : ∀ e ∈ P ++ N, e.1 < new := by
        intro e he
        rcases List.mem_append.1 he with he | he
        · have := hP e he; omega
        · exact (hN e he).2
      have hne : P ++ N ≠ [] := List.ne_nil_of_mem h0'
      have hfit : sizeErr cfg (itemKey (cfg.listPh lk) e0.2.1) (e0.2.2 ++ enc64 new) = none := by
        rw [← h.fits e0 h0']; apply sizeErr_congr; simp
      have etake : (e0.2.2 ++ enc64 e0.1).take ((e0.2.2 ++ enc64 e0.1).length - 8) = e0.2.2 := by
        rw [List.length_append, enc64_length, Nat.add_sub_cancel, List.take_left]
      dsimp only [Option.map_some]
      rw [etake]
      rw [wp_bind, wp_setRaw, sizeErr_chain, h.chainFits hne]
      refine ⟨trivial, trivial, ?_⟩
      dsimp only [seqPost]
      rw [wp_bind, wp_setRaw, hfit]
      refine ⟨trivial, trivial, ?_⟩
      dsimp only [seqPost]
      rw [wp_bind, wp_removeRaw]
      refine ⟨trivial, trivial, ?_⟩
      dsimp only [seqPost]
      have hm := h.move_item h0' hlt hbig
      have hP' : ∃ P', P = e0 :: P' := by
        cases P with
        | nil => simp at h0
        | cons a l =>
          have hsort := h.sorted
          rw [List.cons_append, List.pairwise_cons] at hsort
          rcases List.mem_cons.1 h0 with rfl | h1
          · exact ⟨l, rfl⟩
          · have h2 := hsort.1 e0 (List.mem_append_left _ h1)
            have h3 := hP a (by simp)
            omega
      obtain ⟨P', rfl⟩ := hP'
      have hsort := h.sorted
      rw [List.cons_append, List.pairwise_cons] at hsort
      have hdrop : dropIdx (e0 :: P' ++ N) e0.1 = P' ++ N := by
        unfold dropIdx
        rw [List.cons_append, List.filter_cons_of_neg (by simp)]
        apply List.filter_eq_self.2
        intro e he
        have := hsort.1 e he
        simp; omega
      rw [hdrop, List.append_assoc] at hm
      rw [wp_bind]
      unfold idxSucc
      by_cases hx : new + 1 < U64
      · rw [if_pos hx]
        refine ⟨trivial, ?_⟩
        dsimp only [seqPost]
        refine (wp_compactIdx (tail := tail) (m0 := m0) n (e0.1 + 1) (new + 1) P' (N ++ [(new, e0.2)]) _ hm
          (((hs.upd (LFoot.chain cfg lk _)).upd (LFoot.item cfg lk _)).upd (LFoot.chain cfg lk _)) ?_ (by omega) ?_ ?_ ?_ hx).conseq ?_
        · rw [Map.upd_other _ _ (listKey_ne_chain _ _ _), Map.upd_other _ _ (listKey_ne_item _ _ _),
            Map.upd_other _ _ (listKey_ne_chain _ _ _)]; exact hl
        · intro e he
          have h1 := hsort.1 e (List.mem_append_left _ he)
          have h2 := hP e (List.mem_cons_of_mem _ he)
          omega
        · intro e he
          rcases List.mem_append.1 he with he | he
          · have := hN e he; omega
          · rw [List.mem_singleton.1 he]; dsimp only; omega
        · simp; omega
        · intro m' r hr
          rcases hr with ⟨h1, h2⟩ | ⟨h1, h2, N', h3, h4, h5⟩
          · refine Or.inl ⟨h1, ?_⟩
            simp at h2 ⊢; omega
          · refine Or.inr ⟨h1, h2, N', h3, ?_, h5⟩
            rw [h4]; simp [vis]
      · rw [if_neg hx]
        refine ⟨trivial, Or.inl ⟨rfl, ?_⟩⟩
        simp; omega

/-- Postcondition of `compact_list_if_needed`: the same items in the same order; if it compacted (`true`), no holes are left. -/
def CompactPost (cfg : Cfg) (m : Map) (lk : Bytes) (μ : Option Meta) (L : List Entry) (m' : Map) (r : Res Bool) : Prop :=
  (r = .exhausted ∧ ∃ x, μ = some x ∧ U64 ≤ x.tail + L.length) ∨
  (SameOutside (LFoot cfg lk) m m' ∧ ∃ b μ' L', r = .ok b ∧ LRep cfg m' lk μ' L' ∧ Evolves L.length μ L μ' L' ∧ vis L' = vis L ∧
    (b = true → Exact μ' L' ∧ ∀ x, μ' = some x → x.tail - x.head = L'.length) ∧ (b = false → m' = m))

theorem wp_compactListBody {cfg m lk μ L} (par : CompactParams) (h : LRep cfg m lk μ L) :
    wp cfg noInv (compactListBody cfg lk par) m (CompactPost cfg m lk μ L) := by
  have hno : CompactPost cfg m lk μ L m (.ok false) :=
    Or.inr ⟨SameOutside.refl _ _, false, μ, L, rfl, h, Evolves.refl _ _ _, rfl, by simp, fun _ => rfl⟩
  unfold compactListBody
  rw [wp_bind, wp_getRaw]
  refine ⟨trivial, ?_⟩
  dsimp only [seqPost]
  rw [h.record]
  cases μ with
  | none => exact ⟨trivial, hno⟩
  | some x =>
    have h1 := h.span x rfl
    have h2 := h.tail_lt x rfl
    dsimp only [Option.map_some]
    rw [wp_bind, wp_decMeta (by omega) h2 (by omega)]
    refine ⟨trivial, ?_⟩
    dsimp only [seqPost]
    rw [if_neg (by omega)]
    by_cases c1 : x.tail - x.head < par.minLength
    · rw [if_pos c1]; exact ⟨trivial, hno⟩
    rw [if_neg c1, if_neg (by omega)]
    by_cases c2 : par.tooFew (x.tail - x.head - x.num) (x.tail - x.head) = true
    · rw [if_pos c2]; exact ⟨trivial, hno⟩
    rw [if_neg c2, wp_bind]
    have hloop := wp_compactIdx (cfg := cfg) (lk := lk) (m0 := m) (tail := x.tail) (x.tail - x.head) x.head x.tail L [] m
      (by simpa using h.items) (SameOutside.refl _ _) rfl (by omega) (h.bnd x rfl) (by simp) (by simp) h2
    have hix : idxs true x.head x.tail = List.range' x.head (x.tail - x.head) := rfl
    rw [hix]
    refine hloop.conseq ?_
    rintro m' r (⟨rfl, hx⟩ | ⟨h3, h4, N', h5, h6, h7, h8, rfl⟩)
    · exact Or.inl ⟨rfl, x, rfl, by simpa using hx⟩
    · dsimp only [seqPost]
      have hv : vis N' = vis L := by rw [h6]; simp [vis]
      by_cases hz : N' = []
      · subst hz
        rw [if_pos (by simp), wp_bind, wp_removeRaw]
        refine ⟨trivial, trivial, ?_⟩
        refine ⟨trivial, Or.inr ⟨h3.upd (LFoot.list cfg lk), true, none, [], rfl, ?_, ?_, hv, ?_, by simp⟩⟩
        · exact ⟨h5.upd_other (fun ik => listKey_ne_item lk _ ik) (fun i => listKey_ne_chain lk _ i), by simp, fun _ => rfl,
            by simp, by simp, by simp, by simp, by simp⟩
        · exact ⟨fun _ y hy => by simp at hy, fun _ _ y hy => by simp at hy⟩
        · exact fun _ => ⟨fun y hy => by simp at hy, fun y hy => by simp at hy⟩
      · have hpos : 0 < N'.length := List.length_pos_iff.2 hz
        rw [if_neg (by omega), wp_bind, wp_setRaw, sizeErr_rec, h.fit x rfl]
        refine ⟨trivial, trivial, ?_⟩
        have hr : LRep cfg (m'.upd (listKey lk) (some (encMeta x.tail (x.tail + N'.length) N'.length))) lk
            (some ⟨x.tail, x.tail + N'.length, N'.length⟩) N' := by
          refine ⟨h5.upd_other (fun ik => listKey_ne_item lk _ ik) (fun i => listKey_ne_chain lk _ i), by simp, by simp, ?_, ?_, ?_, ?_, ?_⟩
          · rintro _ ⟨⟩; exact h8
          · rintro _ ⟨⟩; exact Nat.le_refl _
          · rintro _ ⟨⟩; dsimp only; omega
          · rintro _ ⟨⟩; exact h7
          · rintro _ ⟨⟩; exact h.fit x rfl
        have e1 : x.tail + N'.length - x.tail = N'.length := by omega
        rw [e1]
        refine ⟨trivial, Or.inr ⟨h3.upd (LFoot.list cfg lk), true, _, N', rfl, hr, ?_, hv, ?_, by simp⟩⟩
        · constructor
          · rintro _ _ ⟨⟩; rfl
          · rintro n hn _ ⟨⟩
            have h9 := hn x rfl
            have h10 : N'.length = L.length := by
              have := congrArg List.length hv
              simpa [vis] using this
            dsimp only; omega
        · refine fun _ => ⟨?_, ?_⟩
          · rintro _ ⟨⟩; rfl
          · rintro _ ⟨⟩; exact e1

end Candy
