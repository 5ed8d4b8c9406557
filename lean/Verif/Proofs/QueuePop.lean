import Verif.Proofs.Queues
/-!
# Queue operations: pop, remove, discard
-/
namespace Candy
open Spec

/-- Value at an index of a list of labelled elements. -/
abbrev atE (E : List (Nat × Bytes)) (i : Nat) : Option Bytes := (⟨none, E⟩ : Deque).at? i

theorem at_eq (q : Deque) (i : Nat) : q.at? i = atE q.elems i := rfl

theorem upd_none_self {m : Map} {k : Bytes} (h : m k = none) : m.upd k none = m := by
  have := m.upd_self k; rwa [h] at this

theorem atE_none {E : List (Nat × Bytes)} {i : Nat} (h : ∀ e ∈ E, e.1 ≠ i) : atE E i = none := at_none (q := ⟨none, E⟩) h

theorem atE_some {E : List (Nat × Bytes)} {i : Nat} {v : Bytes} (h : atE E i = some v) : (i, v) ∈ E := at_some (q := ⟨none, E⟩) h

theorem le_sum_of_mem {E : List (Nat × Bytes)} {e : Nat × Bytes} (he : e ∈ E) : e.1 ≤ (E.map Prod.fst).sum := by
  induction E with
  | nil => simp at he
  | cons a l ih =>
    rcases List.mem_cons.1 he with rfl | h
    · simp
    · have := ih h; simp; omega

theorem atE_mem {E : List (Nat × Bytes)} (hs : E.Pairwise (fun a b => a.1 < b.1)) {e : Nat × Bytes} (he : e ∈ E) : atE E e.1 = some e.2 :=
  at_mem (q := ⟨some (0, 1 + (E.map Prod.fst).sum), E⟩) ⟨hs, by simp, by
    rintro _ _ ⟨⟩
    exact ⟨Nat.zero_le _, fun e he => ⟨Nat.zero_le _, by have := le_sum_of_mem he; dsimp only at this; omega⟩⟩⟩ he

theorem wp_popHeadLoop {cfg I qk t} {E : List (Nat × Bytes)} (ht : t < U64) (hs : E.Pairwise (fun a b => a.1 < b.1)) (m : Map) (hI : I m)
    (hI' : ∀ e es, E = e :: es → I (m.upd (qitemKey qk e.1) none)) :
    ∀ n head, head + n = t → (∀ e ∈ E, head ≤ e.1 ∧ e.1 < t) → (∀ i, head ≤ i → i < t → m (qitemKey qk i) = atE E i) →
    wp cfg I (popHeadLoop qk n head) m (fun m' r => match E with
      | [] => m' = m ∧ r = .ok (t, none)
      | (i, v) :: _ => m' = m.upd (qitemKey qk i) none ∧ r = .ok (i + 1, some (i, v)))
  | 0, head, hn, hb, hm => by
    cases E with
    | nil => refine ⟨hI, rfl, ?_⟩; rw [← hn]; rfl
    | cons a l => have := hb a (by simp); omega
  | n + 1, head, hn, hb, hm => by
    unfold popHeadLoop
    rw [wp_bind, wp_removeRaw]
    refine ⟨hI, ?_⟩
    dsimp only [seqPost]
    have hh := hm head (Nat.le_refl _) (by omega)
    cases ha : atE E head with
    | some v =>
      rw [ha] at hh
      rw [hh]
      have hmem := atE_some ha
      cases E with
      | nil => simp at hmem
      | cons a l =>
        rw [List.pairwise_cons] at hs
        have : a = (head, v) := by
          rcases List.mem_cons.1 hmem with h | h
          · exact h.symm
          · have h1 := hs.1 _ h; have h2 := hb a (by simp); simp at h1; omega
        subst this
        exact ⟨hI' _ _ rfl, hI' _ _ rfl, rfl, rfl⟩
    | none =>
      rw [ha] at hh
      rw [hh, upd_none_self hh]
      refine ⟨hI, wp_popHeadLoop ht hs m hI hI' n (head + 1) (by omega) ?_ (fun i h1 h2 => hm i (by omega) h2)⟩
      intro e he
      have h1 := hb e he
      have : e.1 ≠ head := by
        intro e'; have h2 := atE_mem hs he; rw [e', ha] at h2; simp at h2
      omega

theorem wp_popTailLoop {cfg I qk head} {E : List (Nat × Bytes)} (hs : E.Pairwise (fun a b => a.1 < b.1)) (m : Map) (hI : I m)
    (hI' : ∀ e, E.getLast? = some e → I (m.upd (qitemKey qk e.1) none)) :
    ∀ n t, head + n = t → t < U64 → (∀ e ∈ E, head ≤ e.1 ∧ e.1 < t) → (∀ i, head ≤ i → i < t → m (qitemKey qk i) = atE E i) →
    wp cfg I (popTailLoop qk n t) m (fun m' r => match E.getLast? with
      | none => m' = m ∧ r = .ok (head, none)
      | some (i, v) => m' = m.upd (qitemKey qk i) none ∧ r = .ok (i, some (i, v)))
  | 0, t, hn, ht, hb, hm => by
    cases E with
    | nil => refine ⟨hI, rfl, ?_⟩; rw [← hn]; rfl
    | cons a l => have := hb a (by simp); omega
  | n + 1, t, hn, ht, hb, hm => by
    unfold popTailLoop
    rw [wp_bind, wp_removeRaw]
    refine ⟨hI, ?_⟩
    dsimp only [seqPost]
    have hh := hm (t - 1) (by omega) (by omega)
    cases ha : atE E (t - 1) with
    | some v =>
      rw [ha] at hh
      rw [hh]
      have hmem := atE_some ha
      have hlast : E.getLast? = some (t - 1, v) := by
        obtain ⟨a, b, rfl⟩ := List.append_of_mem hmem
        cases b with
        | nil => simp
        | cons c d =>
          exfalso
          rw [List.pairwise_append, List.pairwise_cons] at hs
          have h1 := hs.2.1.1 c (by simp)
          have h2 := hb c (by simp)
          simp at h1; omega
      have hI'' := hI' _ hlast
      rw [hlast]
      exact ⟨hI'', hI'', rfl, rfl⟩
    | none =>
      rw [ha] at hh
      rw [hh, upd_none_self hh]
      refine ⟨hI, wp_popTailLoop hs m hI hI' n (t - 1) (by omega) (by omega) ?_ (fun i h1 h2 => hm i h1 (by omega))⟩
      intro e he
      have h1 := hb e he
      have : e.1 ≠ t - 1 := by
        intro e'; have h2 := atE_mem hs he; rw [e', ha] at h2; simp at h2
      omega

/-- Storing or removing the record. -/
theorem wp_putQueueMeta {cfg I qk h t n m} {Q : Map → Res Unit → Prop} (hfit : sizeErr cfg (queueKey qk) (encMeta 0 0 0) = none)
    (hI : I m) (hQ : I (m.upd (queueKey qk) ((Deque.mkRange h t).map (fun p => encMeta p.1 p.2 n))) ∧ Q (m.upd (queueKey qk) ((Deque.mkRange h t).map (fun p => encMeta p.1 p.2 n))) (.ok ())) :
    wp cfg I (putQueueMeta qk h t n) m Q := by
  unfold putQueueMeta
  unfold Deque.mkRange at hQ
  by_cases e : h = t
  · rw [if_pos e] at hQ ⊢
    rw [wp_bind, wp_removeRaw]
    exact ⟨hI, hQ.1, hQ.1, hQ.2⟩
  · rw [if_neg e] at hQ ⊢
    rw [wp_bind, wp_setRaw, sizeErr_qrec, hfit]
    exact ⟨hI, hQ.1, hQ.1, hQ.2⟩

theorem sorted_nodup {E : List (Nat × Bytes)} (h : E.Pairwise (fun a b => a.1 < b.1)) : E.Nodup :=
  h.imp (fun h e => by rw [e] at h; exact Nat.lt_irrefl _ h)

theorem sorted_sublen {E F : List (Nat × Bytes)} (h : E.Pairwise (fun a b => a.1 < b.1)) (hs : ∀ x ∈ E, x ∈ F) : E.length ≤ F.length :=
  (sorted_nodup h).length_le_of_subset (fun _ hx => hs _ hx)

/-- The representation after the record and one item have been updated. -/
theorem QRep.shrink {cfg m qk q n} (h : QRep cfg m qk q n) {hd tl hd' tl' i : Nat} (hr : q.range = some (hd, tl))
    (h1 : hd ≤ hd') (h2 : tl' ≤ tl) (h3 : hd' ≤ tl')
    {E : List (Nat × Bytes)} (hE : ∀ e ∈ E, e ∈ q.elems ∧ e.1 ≠ i ∧ hd' ≤ e.1 ∧ e.1 < tl')
    (hall : ∀ e ∈ q.elems, hd' ≤ e.1 → e.1 < tl' → e.1 ≠ i → e ∈ E) (hsE : E.Pairwise (fun a b => a.1 < b.1))
    {n' : Nat} (hn : E.length ≤ n' ∧ n' < U64) {m' : Map}
    (hrec : m' (queueKey qk) = (Deque.mkRange hd' tl').map (fun p => encMeta p.1 p.2 n'))
    (hi : hd' ≤ i → i < tl' → m' (qitemKey qk i) = none) (hitem : ∀ j, j < U64 → j ≠ i → m' (qitemKey qk j) = m (qitemKey qk j)) :
    QRep cfg m' qk ⟨Deque.mkRange hd' tl', E⟩ n' := by
  have htl := h.tail_lt hd tl hr
  have hsq := h.wf.sorted
  have hmk : ∀ a b, Deque.mkRange hd' tl' = some (a, b) → a = hd' ∧ b = tl' := by
    intro a b e
    unfold Deque.mkRange at e
    split at e <;> simp at e
    exact ⟨e.1.symm, e.2.symm⟩
  refine ⟨⟨hsE, ?_, ?_⟩, hrec, ?_, ?_, ?_, ?_⟩
  · intro e
    unfold Deque.mkRange at e
    split at e
    · apply List.eq_nil_iff_forall_not_mem.2
      intro x hx; have := hE x hx; omega
    · simp at e
  · intro a b e
    obtain ⟨rfl, rfl⟩ := hmk a b e
    exact ⟨h3, fun x hx => (hE x hx).2.2⟩
  · intro a b e; obtain ⟨rfl, rfl⟩ := hmk a b e; omega
  · intro a b e; obtain ⟨rfl, rfl⟩ := hmk a b e; exact hn
  · intro a b e j hj1 hj2
    obtain ⟨rfl, rfl⟩ := hmk a b e
    rw [at_eq]
    by_cases hji : j = i
    · subst hji
      rw [hi hj1 hj2, atE_none]; intro x hx; exact (hE x hx).2.1
    · rw [hitem j (by omega) hji, h.item hd tl hr j (by omega) (by omega), at_eq]
      dsimp only
      cases hq : atE q.elems j with
      | none =>
        rw [atE_none]
        intro x hx e'
        have := atE_mem hsq (hE x hx).1
        rw [e', hq] at this; simp at this
      | some v =>
        have hmem := atE_some hq
        have := atE_mem hsE (hall (j, v) hmem hj1 hj2 hji)
        exact this.symm
  · intro a b _; exact h.fit hd tl hr

/-- The representation after one element has been removed, with the record as it was. -/
theorem QRep.dropItem {cfg m qk q n} (h : QRep cfg m qk q n) {hd tl : Nat} (hr : q.range = some (hd, tl)) {e : Nat × Bytes}
    (he : e ∈ q.elems) {E : List (Nat × Bytes)} (hE : ∀ x ∈ E, x ∈ q.elems ∧ x.1 ≠ e.1)
    (hall : ∀ x ∈ q.elems, x.1 ≠ e.1 → x ∈ E) (hsE : E.Pairwise (fun a b => a.1 < b.1)) :
    QRep cfg (m.upd (qitemKey qk e.1) none) qk ⟨q.range, E⟩ n := by
  have hb := h.wf.bnd hd tl hr
  have htl := h.tail_lt hd tl hr
  have hc := h.cnt hd tl hr
  have hlt := hb.2 e he
  have hmk : Deque.mkRange hd tl = q.range := by
    unfold Deque.mkRange; rw [if_neg (by omega), hr]
  have := h.shrink (i := e.1) (E := E) (n' := n) (m' := m.upd (qitemKey qk e.1) none) hr (Nat.le_refl _) (Nat.le_refl _) hb.1 ?_ ?_ hsE ?_ ?_ ?_ ?_
  · rwa [hmk] at this
  · intro x hx; exact ⟨(hE x hx).1, (hE x hx).2, hb.2 x (hE x hx).1⟩
  · intro x hx _ _ hne; exact hall x hx hne
  · refine ⟨Nat.le_trans (sorted_sublen hsE (fun x hx => (hE x hx).1)) hc.1, hc.2⟩
  · rw [hmk, Map.upd_other _ _ (queueKey_ne_qitem _ _ _), h.record]
  · intro _ _; simp
  · intro j hj hne
    rw [Map.upd_other _ _ (fun e' => hne (qitemKey_inj hj (by omega) e').2)]

theorem GF.drop {m qk q} (hs : q.elems.Pairwise (fun a b => a.1 < b.1)) (hg : GF m qk q) {i : Nat} {E : List (Nat × Bytes)} {r}
    (hE : ∀ e ∈ E, e ∈ q.elems ∧ e.1 ≠ i) (hall : ∀ e ∈ q.elems, e.1 ≠ i → e ∈ E) (hsE : E.Pairwise (fun a b => a.1 < b.1)) {m' : Map}
    (hi : m' (qitemKey qk i) = none) (hitem : ∀ j, j < U64 → j ≠ i → m' (qitemKey qk j) = m (qitemKey qk j)) :
    GF m' qk ⟨r, E⟩ := by
  intro j hj
  rw [at_eq]
  by_cases hji : j = i
  · subst hji
    rw [hi, atE_none]; intro x hx; exact (hE x hx).2
  · rw [hitem j hj hji, hg j hj, at_eq]
    dsimp only
    cases hq : atE q.elems j with
    | none =>
      rw [atE_none]
      intro x hx e'
      have := atE_mem hs (hE x hx).1
      rw [e', hq] at this; simp at this
    | some v =>
      have hmem := atE_some hq
      have := atE_mem hsE (hall (j, v) hmem hji)
      exact this.symm

theorem GF.nil {m qk q} (hg : GF m qk q) (he : q.elems = []) {m' : Map} (hitem : ∀ j, m' (qitemKey qk j) = m (qitemKey qk j)) {r} :
    GF m' qk ⟨r, []⟩ := by
  intro j hj
  rw [hitem j, hg j hj, at_eq, he]; rfl

/-- Result of a pop. -/
def popRes (q : Deque) : QPos → Option (Nat × Bytes)
  | .head => q.elems.head?
  | .tail => q.elems.getLast?
def popped (q : Deque) : QPos → Deque
  | .head => q.popHead
  | .tail => q.popTail

theorem getLast?_eq_append {α : Type} {l : List α} {a : α} (h : l.getLast? = some a) : l = l.dropLast ++ [a] := by
  obtain ⟨b, rfl⟩ := List.getLast?_eq_some_iff.1 h
  simp

/-- Invariant during a pop: the old queue, the queue with the element gone but the record not yet updated, or the new queue. -/
structure PopInv (cfg : Cfg) (I : Map → Prop) (m : Map) (qk : Bytes) (q : Deque) (n : Nat) (pos : QPos) : Prop where
  start : I m
  drop : ∀ m', QRep cfg m' qk ⟨q.range, (popped q pos).elems⟩ n → I m'
  done : ∀ m', QRep cfg m' qk (popped q pos) (n - 1) → I m'

theorem PopInv.noInv {cfg m qk q n pos} : PopInv cfg noInv m qk q n pos := ⟨trivial, fun _ _ => trivial, fun _ _ => trivial⟩

theorem and_fin {I A B C D : Prop} (h : C → I) (hh : A ∧ B ∧ C ∧ D) : I ∧ I ∧ A ∧ B ∧ C ∧ D := ⟨h hh.2.2.1, h hh.2.2.1, hh⟩

set_option maxHeartbeats 1000000 in
theorem wp_popQueueBody' {cfg I m qk q n} (pos : QPos) (h : QRep cfg m qk q n) (hI : PopInv cfg I m qk q n pos) :
    wp cfg I (popQueueBody qk pos) m (fun m' r => SameOutside (QFoot qk) m m' ∧ r = .ok (popRes q pos) ∧
      QRep cfg m' qk (popped q pos) (n - 1) ∧ (GF m qk q → GF m' qk (popped q pos))) := by
  unfold popQueueBody
  rw [wp_bind, wp_getRaw]
  refine ⟨hI.start, ?_⟩
  dsimp only [seqPost]
  rw [h.record]
  obtain ⟨range, E⟩ := q
  cases range with
  | none =>
    have he : E = [] := h.wf.nil rfl
    subst he
    refine ⟨hI.start, SameOutside.refl _ _, by cases pos <;> rfl, ?_⟩
    have : popped ⟨none, []⟩ pos = ⟨none, []⟩ := by cases pos <;> rfl
    rw [this]
    exact ⟨⟨h.wf, h.record, by simp, by simp, by simp, by simp⟩, id⟩
  | some ht =>
    obtain ⟨hd, tl⟩ := ht
    have hc := h.cnt hd tl rfl
    have htl := h.tail_lt hd tl rfl
    have hb := h.wf.bnd hd tl rfl
    have hsort : E.Pairwise (fun a b => a.1 < b.1) := h.wf.sorted
    have hfit := h.fit hd tl rfl
    dsimp only [Option.map_some] at hc hb ⊢
    rw [wp_bind, wp_decMeta (by omega) htl (by omega)]
    refine ⟨hI.start, ?_⟩
    dsimp only [seqPost]
    cases pos with
    | head =>
      dsimp only
      rw [wp_bind]
      have hdrop : ∀ e es, E = e :: es → I (m.upd (qitemKey qk e.1) none) := by
        rintro e es rfl
        have hp := List.pairwise_cons.1 hsort
        exact hI.drop _ (h.dropItem rfl (by simp) (fun x hx => ⟨List.mem_cons_of_mem _ hx, by have := hp.1 x hx; omega⟩)
          (fun x hx hne => (List.mem_cons.1 hx).resolve_left (fun e => hne (by rw [e]))) hp.2)
      refine (wp_popHeadLoop htl hsort m hI.start hdrop (tl - hd) hd (by omega) hb.2 (h.item hd tl rfl)).conseq ?_
      intro m' r hr
      cases E with
      | nil =>
        obtain ⟨rfl, rfl⟩ := hr
        dsimp only [seqPost]
        rw [if_neg (by simp)]
        show wp cfg I (putQueueMeta qk tl tl n >>= _) _ _
        rw [wp_bind]
        refine wp_putQueueMeta hfit hI.start ?_
        refine and_fin (hI.done _) ⟨(SameOutside.refl _ _).upd (QFoot.queue qk), rfl, ?_⟩
        show QRep cfg _ qk ⟨none, []⟩ _ ∧ (_ → GF _ qk ⟨none, []⟩)
        exact ⟨⟨⟨List.Pairwise.nil, fun _ => rfl, by simp⟩, by simp [Deque.mkRange], by simp, by simp, by simp, by simp⟩,
          fun hg => hg.nil rfl (fun j => Map.upd_other _ _ (fun e => queueKey_ne_qitem qk qk j e.symm))⟩
      | cons a es =>
        obtain ⟨i, v⟩ := a
        obtain ⟨rfl, rfl⟩ := hr
        have hIm := hdrop _ _ rfl
        have hdone := hI.done
        dsimp only [seqPost]
        rw [if_pos (by simp), wp_bind]
        unfold numPred
        simp only [List.length_cons] at hc
        rw [if_pos (by omega)]
        refine ⟨hIm, ?_⟩
        dsimp only [seqPost]
        rw [wp_bind]
        refine wp_putQueueMeta hfit hIm ?_
        refine and_fin (hdone _) ⟨((SameOutside.refl _ _).upd (QFoot.item qk _)).upd (QFoot.queue qk), rfl, ?_⟩
        show QRep cfg _ qk ⟨Deque.mkRange (i + 1) tl, es⟩ _ ∧ (_ → GF _ qk ⟨Deque.mkRange (i + 1) tl, es⟩)
        rw [List.pairwise_cons] at hsort
        have hi := hb.2 (i, v) (by simp)
        dsimp only at hi
        refine ⟨?_, fun hg => GF.drop (i := i) h.wf.sorted hg ?_ ?_ hsort.2 ?_ ?_⟩
        rotate_left
        · intro e he
          have h1 := hsort.1 e he
          dsimp only at h1
          exact ⟨List.mem_cons_of_mem _ he, by omega⟩
        · intro e he h1
          rcases List.mem_cons.1 he with rfl | he
          · exact absurd rfl h1
          · exact he
        · rw [Map.upd_other _ _ (fun e => queueKey_ne_qitem qk qk i e.symm)]; simp
        · intro j hj hne
          rw [Map.upd_other _ _ (fun e => queueKey_ne_qitem qk qk j e.symm), Map.upd_other _ _ (fun e => hne (qitemKey_inj hj (by omega) e).2)]
        refine h.shrink (i := i) rfl (by omega) (Nat.le_refl _) (by omega) ?_ ?_ hsort.2 ?_ (by simp) (fun _ => by omega) ?_
        · intro e he
          have h1 := hsort.1 e he
          have h2 := hb.2 e (List.mem_cons_of_mem _ he)
          dsimp only at h1
          exact ⟨List.mem_cons_of_mem _ he, by omega, by omega, by omega⟩
        · intro e he h1 _ _
          rcases List.mem_cons.1 he with rfl | he
          · dsimp only at h1; omega
          · exact he
        · constructor <;> omega
        · intro j hj hne
          rw [Map.upd_other _ _ (fun e => queueKey_ne_qitem qk qk j e.symm), Map.upd_other _ _ (fun e => hne (qitemKey_inj hj (by omega) e).2)]
    | tail =>
      dsimp only
      rw [wp_bind]
      have hdrop : ∀ e, E.getLast? = some e → I (m.upd (qitemKey qk e.1) none) := by
        intro e he
        have hE := getLast?_eq_append he
        have hpop : (popped ⟨some (hd, tl), E⟩ .tail).elems = E.dropLast := by
          unfold popped Deque.popTail; dsimp only; rw [he]
        have hdr := hI.drop
        rw [hpop] at hdr
        have hp := hsort
        rw [hE, List.pairwise_append] at hp
        refine hdr _ (h.dropItem rfl (by rw [hE]; simp) (fun x hx => ⟨?_, by have := hp.2.2 x hx e (by simp); omega⟩) ?_ hp.1)
        · show x ∈ E
          rw [hE]; exact List.mem_append_left _ hx
        · intro x (hx : x ∈ E) hne
          rw [hE] at hx
          exact (List.mem_append.1 hx).resolve_right (fun e => hne (by rw [List.mem_singleton.1 e]))
      refine (wp_popTailLoop hsort m hI.start hdrop (tl - hd) tl (by omega) htl hb.2 (h.item hd tl rfl)).conseq ?_
      intro m' r hr
      cases hl : E.getLast? with
      | none =>
        rw [hl] at hr
        have hE : E = [] := List.getLast?_eq_none_iff.1 hl
        subst hE
        obtain ⟨rfl, rfl⟩ := hr
        dsimp only [seqPost]
        rw [if_neg (by simp)]
        show wp cfg I (putQueueMeta qk hd hd n >>= _) _ _
        rw [wp_bind]
        refine wp_putQueueMeta hfit hI.start ?_
        refine and_fin (hI.done _) ⟨(SameOutside.refl _ _).upd (QFoot.queue qk), rfl, ?_⟩
        show QRep cfg _ qk ⟨none, []⟩ _ ∧ (_ → GF _ qk ⟨none, []⟩)
        exact ⟨⟨⟨List.Pairwise.nil, fun _ => rfl, by simp⟩, by simp [Deque.mkRange], by simp, by simp, by simp, by simp⟩,
          fun hg => hg.nil rfl (fun j => Map.upd_other _ _ (fun e => queueKey_ne_qitem qk qk j e.symm))⟩
      | some a =>
        rw [hl] at hr
        obtain ⟨i, v⟩ := a
        obtain ⟨rfl, rfl⟩ := hr
        have hE := getLast?_eq_append hl
        have hpop : popped ⟨some (hd, tl), E⟩ .tail = ⟨Deque.mkRange hd i, E.dropLast⟩ := by
          unfold popped Deque.popTail; dsimp only; rw [hl]
        have hres : popRes ⟨some (hd, tl), E⟩ .tail = some (i, v) := hl
        have hIm := hdrop _ hl
        have hdone := hI.done
        rw [hpop] at hdone
        rw [hpop, hres]
        clear hdrop
        generalize E.dropLast = es at *
        subst hE
        dsimp only [seqPost]
        rw [if_pos (by simp), wp_bind]
        unfold numPred
        simp only [List.length_append, List.length_cons, List.length_nil] at hc
        rw [if_pos (by omega)]
        refine ⟨hIm, ?_⟩
        dsimp only [seqPost]
        rw [wp_bind]
        refine wp_putQueueMeta hfit hIm ?_
        refine and_fin (hdone _) ⟨((SameOutside.refl _ _).upd (QFoot.item qk _)).upd (QFoot.queue qk), rfl, ?_⟩
        rw [List.pairwise_append] at hsort
        have hi := hb.2 (i, v) (by simp)
        dsimp only at hi
        refine ⟨?_, fun hg => GF.drop (i := i) h.wf.sorted hg ?_ ?_ hsort.1 ?_ ?_⟩
        rotate_left
        · intro e he
          have h1 := hsort.2.2 e he (i, v) (by simp)
          dsimp only at h1
          exact ⟨List.mem_append_left _ he, by omega⟩
        · intro e he h1
          rcases List.mem_append.1 he with he | he
          · exact he
          · rw [List.mem_singleton.1 he] at h1; exact absurd rfl h1
        · rw [Map.upd_other _ _ (fun e => queueKey_ne_qitem qk qk i e.symm)]; simp
        · intro j hj hne
          rw [Map.upd_other _ _ (fun e => queueKey_ne_qitem qk qk j e.symm), Map.upd_other _ _ (fun e => hne (qitemKey_inj hj (by omega) e).2)]
        refine h.shrink (i := i) rfl (Nat.le_refl _) (by omega) (by omega) ?_ ?_ hsort.1 ?_ (by simp) (fun _ => by omega) ?_
        · intro e he
          have h1 := hsort.2.2 e he (i, v) (by simp)
          have h2 := hb.2 e (List.mem_append_left _ he)
          dsimp only at h1
          exact ⟨List.mem_append_left _ he, by omega, by omega, by omega⟩
        · intro e he _ h1 _
          rcases List.mem_append.1 he with he | he
          · exact he
          · rw [List.mem_singleton.1 he] at h1; dsimp only at h1; omega
        · constructor <;> omega
        · intro j hj hne
          rw [Map.upd_other _ _ (fun e => queueKey_ne_qitem qk qk j e.symm), Map.upd_other _ _ (fun e => hne (qitemKey_inj hj (by omega) e).2)]

theorem wp_popQueueBody {cfg m qk q n} (pos : QPos) (h : QRep cfg m qk q n) :
    wp cfg noInv (popQueueBody qk pos) m (fun m' r => SameOutside (QFoot qk) m m' ∧ r = .ok (popRes q pos) ∧
      QRep cfg m' qk (popped q pos) (n - 1) ∧ (GF m qk q → GF m' qk (popped q pos))) := wp_popQueueBody' pos h .noInv

end Candy
