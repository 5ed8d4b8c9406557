import Verif.Proofs.CallList
/-!
# Queue and big-value calls refine the ideal store
-/
namespace Candy
open Spec

theorem recFits_of {cfg qk} (h : queueRecFits cfg qk) : sizeErr cfg (queueKey qk) (encMeta 0 0 0) = none := by
  obtain ⟨h1, h2⟩ := h
  rw [sizeErr_none, queueKey_length, encMeta_length]
  have e1 : MAX_TOTAL_KEY_SIZE = 16383 := rfl
  have e2 : MAX_TOTAL_VALUE_SIZE = 65535 := rfl
  omega

theorem itemFits_of {cfg qk v} (h : queueItemFits cfg qk v.length) : sizeErr cfg (qitemKey qk 0) v = none := by
  obtain ⟨h1, h2, h3⟩ := h
  rw [sizeErr_none, qitemKey_length]
  have e1 : MAX_TOTAL_KEY_SIZE = 16383 := rfl
  have e2 : MAX_TOTAL_VALUE_SIZE = 65535 := rfl
  omega

/-- Outcome of a queue call. -/
def QOut (cfg : Cfg) (m : Map) (qk : Bytes) (s : QState) (op : QOp) (m' : Map) (r : Res Resp) : Prop :=
  ∃ s', qStep cfg qk s op r s' ∧ (r ≠ .exhausted → SameOutside (QFoot qk) m m' ∧ QueueAbs cfg m' qk s')

theorem QOut.ofOk {cfg m qk s op m'} {a : Resp} {q' : Deque} {n' : Nat}
    (hs : SameOutside (QFoot qk) m m') (hrep : QRep cfg m' qk q' n')
    (hcl : s.clean = true → (q'.range ≠ none → n' = q'.elems.length) ∧ GF m' qk q')
    (hu : QUsed q' n' (s.used + QOp.cost op)) (ha : qAnswer s op a q') : QOut cfg m qk s op m' (.ok a) :=
  ⟨⟨q', s.clean, s.used + QOp.cost op⟩, ⟨ha, rfl, rfl⟩, fun _ => ⟨hs, n', hrep, hcl, hu⟩⟩

theorem wp_readQ {cfg m qk s op} {n : Nat} {α : Type} {f : α → Resp} {p : Prog α} {a : α} (h : QRep cfg m qk s.dq n)
    (hcl : s.clean = true → (s.dq.range ≠ none → n = s.dq.elems.length) ∧ GF m qk s.dq) (hu : QUsed s.dq n s.used)
    (hp : wp cfg noInv p m (fun m' r => m' = m ∧ r = .ok a)) (ha : qAnswer s op (f a) s.dq) :
    wp cfg noInv (p.tag f) m (QOut cfg m qk s op) := by
  apply wp_tag
  refine hp.conseq ?_
  rintro m' r ⟨rfl, rfl⟩
  refine ⟨trivial, QOut.ofOk (SameOutside.refl _ _) h hcl (fun a b e => ?_) ha⟩
  have := hu a b e; omega

theorem QFull.cost {q : Deque} {n u : Nat} {pos : QPos} (hu : QUsed q n u) (h : QFull q n pos) : 9223372036854775808 ≤ u + 1 := by
  have e : U64 = 18446744073709551616 := rfl
  have e' : FIRST = 9223372036854775808 := rfl
  cases pos <;> (obtain ⟨a, b, h1, h2⟩ := h; have := hu a b h1; omega)

theorem QUsed.pushed {q : Deque} {n u : Nat} (hu : QUsed q n u) (v : Bytes) (pos : QPos) :
    QUsed (pushed q v pos) (if q.range = none then 1 else n + 1) (u + 1) := by
  obtain ⟨range, E⟩ := q
  cases range with
  | none =>
    rw [if_pos rfl]
    cases pos <;> (rintro a b ⟨⟩; simp [Deque.headIdx, Deque.tailIdx]; try omega)
  | some p =>
    obtain ⟨hd, tl⟩ := p
    have := hu hd tl rfl
    rw [if_neg (by simp)]
    cases pos <;> (rintro a b ⟨⟩; simp only [Deque.headIdx, Deque.tailIdx, Option.getD_some]; omega)

theorem QUsed.of_range {q q' : Deque} {n u : Nat} (h : QUsed q n u) (hr : q'.range = q.range) : QUsed q' n u :=
  fun a b e => h a b (hr ▸ e)

theorem bumped_cases (m : Map) (qk : Bytes) (q : Deque) (pos : QPos) : (∃ v, bumped m qk q pos = pushed q v pos) ∨
    bumped m qk q pos = { pushed q [] pos with elems := q.elems } := by
  unfold bumped
  split
  · rename_i v _; exact Or.inl ⟨v, rfl⟩
  · right; cases pos <;> rfl

theorem pushed_exact {q : Deque} {n : Nat} {v pos} (h : q.WF) (hn : q.range ≠ none → n = q.elems.length) :
    (if q.range = none then 1 else n + 1) = (pushed q v pos).elems.length := by
  have : (pushed q v pos).elems.length = q.elems.length + 1 := by
    cases pos
    · rfl
    · simp [pushed, Deque.pushTail]
  rw [this]
  by_cases e : q.range = none
  · rw [if_pos e, h.nil e]; rfl
  · rw [if_neg e, hn e]

theorem wp_pushOut {cfg m qk s n} (v : Bytes) (pos : QPos) (h : QRep cfg m qk s.dq n)
    (hcl : s.clean = true → (s.dq.range ≠ none → n = s.dq.elems.length) ∧ GF m qk s.dq) (hu : QUsed s.dq n s.used) :
    wp cfg noInv ((pushQueue cfg qk v pos).tag .num) m (QOut cfg m qk s (.push pos v)) := by
  apply wp_tag
  unfold pushQueue
  rw [wp_withLock]
  refine (wp_pushQueueBody v pos h).conseq ?_
  rintro m' r ⟨hs, hr⟩
  cases r with
  | ok i =>
    obtain ⟨rfl, h1, h2, h3⟩ := hr
    refine ⟨trivial, QOut.ofOk hs h1 (fun hc => ⟨fun _ => pushed_exact h.wf (hcl hc).1, h3 (hcl hc).2⟩) (hu.pushed v pos) ?_⟩
    cases pos <;> exact ⟨rfl, rfl⟩
  | err e =>
    obtain ⟨h1, h2⟩ := hr
    have hnf : ¬ QOp.fits cfg qk (.push pos v) := fun hf => h1 ⟨recFits_of hf.1, itemFits_of hf.2⟩
    rcases h2 with h2 | h2
    · refine ⟨⟨s.dq, false, s.used + 1⟩, ⟨hnf, ?_, rfl, rfl⟩, fun _ => ⟨hs, n, h2, by simp, ?_⟩⟩
      · cases pos <;> exact Or.inl rfl
      · intro a b e; have := hu a b e; dsimp only; omega
    · refine ⟨⟨bumped m qk s.dq pos, false, s.used + 1⟩, ⟨hnf, ?_, rfl, rfl⟩, fun _ => ⟨hs, _, h2, by simp, ?_⟩⟩
      · rcases bumped_cases m qk s.dq pos with ⟨x, hx⟩ | hx
        · dsimp only
          rw [hx]; cases pos <;> exact Or.inr (Or.inl ⟨x, rfl⟩)
        · dsimp only
          rw [hx]; cases pos <;> exact Or.inr (Or.inr rfl)
      · rcases bumped_cases m qk s.dq pos with ⟨x, hx⟩ | hx
        · rw [hx]; exact hu.pushed x pos
        · rw [hx]; exact (hu.pushed [] pos).of_range rfl
  | panic => exact absurd hr id
  | exhausted => exact ⟨s, QFull.cost hu hr, fun h => absurd rfl h⟩

theorem mkRange_some {h t a b : Nat} (e : Deque.mkRange h t = some (a, b)) : a = h ∧ b = t := by
  unfold Deque.mkRange at e
  split at e
  · simp at e
  · simp only [Option.some.injEq, Prod.mk.injEq] at e; exact ⟨e.1.symm, e.2.symm⟩

theorem popped_range {q : Deque} (h : q.WF) (pos : QPos) {a b : Nat} (e : (popped q pos).range = some (a, b)) :
    ∃ c d, q.range = some (c, d) ∧ c ≤ a ∧ b ≤ d := by
  obtain ⟨range, E⟩ := q
  cases range with
  | none => cases pos <;> simp [popped, Deque.popHead, Deque.popTail, Deque.empty] at e
  | some p =>
    obtain ⟨hd, tl⟩ := p
    have hb := (h.bnd hd tl rfl).2
    cases pos with
    | head =>
      cases E with
      | nil => simp [popped, Deque.popHead, Deque.empty] at e
      | cons x xs =>
        have := mkRange_some (h := x.1 + 1) (t := tl) e
        have hx := hb x (by simp)
        exact ⟨hd, tl, rfl, by omega, by omega⟩
    | tail =>
      unfold popped Deque.popTail at e
      dsimp only at e
      cases hl : E.getLast? with
      | none => rw [hl] at e; simp [Deque.empty] at e
      | some x =>
        rw [hl] at e
        have := mkRange_some e
        have hx := hb x (List.mem_of_getLast? hl)
        exact ⟨hd, tl, rfl, by omega, by omega⟩

theorem popped_len {q : Deque} (h : q.WF) (pos : QPos) : (popped q pos).elems.length = q.elems.length - 1 := by
  obtain ⟨range, E⟩ := q
  cases range with
  | none => rw [h.nil rfl]; cases pos <;> rfl
  | some p =>
    cases pos with
    | head => cases E <;> rfl
    | tail =>
      unfold popped Deque.popTail
      dsimp only
      cases hl : E.getLast? with
      | none => have := List.getLast?_eq_none_iff.1 hl; subst this; rfl
      | some x => simp

theorem wp_popOut {cfg m qk s n} (pos : QPos) (h : QRep cfg m qk s.dq n)
    (hcl : s.clean = true → (s.dq.range ≠ none → n = s.dq.elems.length) ∧ GF m qk s.dq) (hu : QUsed s.dq n s.used) :
    wp cfg noInv ((popQueue cfg qk pos).tag .elem) m (QOut cfg m qk s (.pop pos)) := by
  apply wp_tag
  unfold popQueue
  rw [wp_withLock]
  refine (wp_popQueueBody pos h).conseq ?_
  rintro m' r ⟨hs, rfl, h1, h2⟩
  refine ⟨trivial, QOut.ofOk hs h1 (fun hc => ⟨fun hr => ?_, h2 (hcl hc).2⟩) ?_ ?_⟩
  · rw [popped_len h.wf]
    cases hr' : (popped s.dq pos).range with
    | none => exact absurd hr' hr
    | some p =>
      obtain ⟨c, d, h3, _⟩ := popped_range h.wf pos hr'
      rw [(hcl hc).1 (by rw [h3]; simp)]
  · intro a b e
    obtain ⟨c, d, h3, h4, h5⟩ := popped_range h.wf pos e
    have := hu c d h3
    omega
  · cases pos <;> exact ⟨rfl, rfl⟩

theorem wp_discardOut {cfg m qk s n} {op : QOp} (hop : op = .discard ∨ op = .removeBig) (h : QRep cfg m qk s.dq n)
    (hcl : s.clean = true → (s.dq.range ≠ none → n = s.dq.elems.length) ∧ GF m qk s.dq) :
    wp cfg noInv ((discardQueue cfg qk).tag .flag) m (QOut cfg m qk s op) := by
  apply wp_tag
  unfold discardQueue
  rw [wp_withLock]
  refine (wp_discardQueueBody h).conseq ?_
  rintro m' r ⟨hs, rfl, h1, h2⟩
  refine ⟨trivial, QOut.ofOk hs h1 (fun hc => ⟨fun h => absurd rfl h, h2 (hcl hc).2⟩) (fun a b e => by simp [Deque.empty] at e) ?_⟩
  rcases hop with rfl | rfl <;> exact ⟨rfl, rfl⟩

theorem touched_eq (q : Deque) : touched q = q.extend [] := rfl

theorem QUsed.extend {q : Deque} {n u : Nat} (hu : QUsed q n u) (vs : List Bytes) :
    QUsed (q.extend vs) (lenOf q n + vs.length) (u + vs.length) := by
  rw [extend_eq]
  rintro a b ⟨⟩
  obtain ⟨range, E⟩ := q
  cases range with
  | none => simp [lenOf, Deque.tailIdx]
  | some p =>
    obtain ⟨hd, tl⟩ := p
    have := hu hd tl rfl
    simp [lenOf, Deque.tailIdx]; omega

theorem extend_len {q : Deque} {n : Nat} (h : q.WF) (hn : q.range ≠ none → n = q.elems.length) (vs : List Bytes) :
    lenOf q n + vs.length = (q.extend vs).elems.length := by
  rw [extend_eq]
  simp only [List.length_append, labelled_length]
  unfold lenOf
  by_cases e : q.range = none
  · rw [if_pos e, h.nil e]; rfl
  · rw [if_neg e, hn e]

theorem QUsed.mono {q : Deque} {n u u' : Nat} (h : QUsed q n u) (hu : u ≤ u') : QUsed q n u' :=
  fun a b e => by have := h a b e; omega

theorem ExtendFits_of {cfg qk vs} (h : QOp.fits cfg qk (.extend vs)) : ExtendFits cfg qk vs :=
  ⟨recFits_of h.1, fun v hv => itemFits_of (h.2 v hv)⟩

theorem lenOf_le {q : Deque} {n u : Nat} (hu : QUsed q n u) : lenOf q n ≤ u := by
  unfold lenOf
  split
  · omega
  · rename_i h
    cases hr : q.range with
    | none => exact absurd hr h
    | some p => exact (hu p.1 p.2 hr).2.2

theorem QUsed.len {q : Deque} {n u : Nat} (hu : QUsed q n u) : QUsed q (lenOf q n) u := by
  intro a b e
  have h1 := hu a b e
  have h2 := lenOf_le hu
  omega

theorem wp_extendOut {cfg m qk s n} (vs : List Bytes) (h : QRep cfg m qk s.dq n)
    (hcl : s.clean = true → (s.dq.range ≠ none → n = s.dq.elems.length) ∧ GF m qk s.dq) (hu : QUsed s.dq n s.used) :
    wp cfg noInv ((extendQueue cfg qk vs).tag .range) m (QOut cfg m qk s (.extend vs)) := by
  apply wp_tag
  unfold extendQueue
  rw [wp_withLock]
  refine (wp_extendQueueBody h vs).conseq ?_
  rintro m' r ⟨hs, hr⟩
  cases r with
  | ok rg =>
    obtain ⟨rfl, h1, h2, h3⟩ := hr
    exact ⟨trivial, QOut.ofOk hs h1 (fun hc => ⟨fun _ => extend_len h.wf (hcl hc).1 vs, h3 (hcl hc).2⟩) (hu.extend vs) ⟨rfl, rfl⟩⟩
  | err e =>
    obtain ⟨h1, h2⟩ := hr
    have hnf : ¬ QOp.fits cfg qk (.extend vs) := fun hf => h1 (ExtendFits_of hf)
    rcases h2 with h2 | h2
    · refine ⟨⟨s.dq, false, s.used + vs.length⟩, ⟨hnf, Or.inl rfl, rfl, rfl⟩, fun _ => ⟨hs, _, h2, by simp, ?_⟩⟩
      exact hu.len.mono (Nat.le_add_right _ _)
    · refine ⟨⟨touched s.dq, false, s.used + vs.length⟩, ⟨hnf, Or.inr rfl, rfl, rfl⟩, fun _ => ⟨hs, _, h2, by simp, ?_⟩⟩
      exact (hu.extend []).mono (Nat.le_add_right _ _)
  | panic => exact absurd hr id
  | exhausted =>
    refine ⟨s, ?_, fun h => absurd rfl h⟩
    show _ ≤ s.used + vs.length
    have e : U64 = 18446744073709551616 := rfl
    have e' : FIRST = 9223372036854775808 := rfl
    have h1 := lenOf_le hu
    have h2 : s.dq.tailIdx ≤ FIRST + s.used := by
      unfold Deque.tailIdx
      cases hr : s.dq.range with
      | none => dsimp only; omega
      | some p => exact (hu p.1 p.2 hr).2.1
    rcases hr with hr | hr <;> omega

theorem removeAt_range {q : Deque} (h2 : TwoIdx q) {i a b : Nat} (e : (q.removeAt i).range = some (a, b)) :
    ∃ c d, q.range = some (c, d) ∧ c ≤ a ∧ b ≤ d := by
  unfold Deque.removeAt at e
  split at e
  · rename_i hd tl v hr ha
    have := mkRange_some e
    refine ⟨hd, tl, hr, ?_, ?_⟩
    · rw [this.1]; split <;> omega
    · rw [this.2]; split <;> omega
  · exact ⟨a, b, e, Nat.le_refl _, Nat.le_refl _⟩

theorem filter_ne_length {E : List (Nat × Bytes)} (hs : E.Pairwise (fun a b => a.1 < b.1)) {e : Nat × Bytes} (he : e ∈ E) :
    (E.filter (fun x => decide (x.1 ≠ e.1))).length = E.length - 1 := by
  induction E with
  | nil => simp at he
  | cons a l ih =>
    rw [List.pairwise_cons] at hs
    rcases List.mem_cons.1 he with rfl | h
    · have : (e :: l).filter (fun x => decide (x.1 ≠ e.1)) = l := by
        rw [List.filter_cons_of_neg (by simp)]
        apply List.filter_eq_self.2
        intro x hx; have := hs.1 x hx; simp; omega
      rw [this]; rfl
    · have ha : a.1 ≠ e.1 := by have := hs.1 e h; omega
      rw [List.filter_cons_of_pos (by simpa using ha)]
      have hl := List.length_pos_of_mem h
      simp only [List.length_cons, ih hs.2 h]; omega

theorem wp_removeOut {cfg m qk s n} (i : UInt64) (hpre : qPre s (.remove i)) (h : QRep cfg m qk s.dq n)
    (hcl : s.clean = true → (s.dq.range ≠ none → n = s.dq.elems.length) ∧ GF m qk s.dq) (hu : QUsed s.dq n s.used) :
    wp cfg noInv ((removeFromQueue cfg qk i.toNat).tag .val) m (QOut cfg m qk s (.remove i)) := by
  have hi : i.toNat < U64 := i.toNat_lt
  have hpre' : ∀ a b, s.dq.range = some (a, b) → a + 2 ≤ b ∧ (s.clean = true ∨ (a ≤ i.toNat ∧ i.toNat < b)) := by
    intro a b e; unfold qPre at hpre; rw [e] at hpre; exact hpre
  have hnone : s.dq.range = none → s.clean = true := by
    intro e; unfold qPre at hpre; rw [e] at hpre; exact hpre
  have htwo : TwoIdx s.dq := fun a b e => (hpre' a b e).1
  have hg : m (qitemKey qk i.toNat) = s.dq.at? i.toNat := by
    by_cases hc : s.clean = true
    · exact (hcl hc).2 _ hi
    · cases hr : s.dq.range with
      | none => exact absurd (hnone hr) hc
      | some p =>
        have := (hpre' p.1 p.2 hr).2.resolve_left hc
        exact h.item p.1 p.2 hr _ this.1 this.2
  apply wp_tag
  unfold removeFromQueue
  rw [wp_withLock]
  refine (wp_removeFromQueueBody h htwo hg).conseq ?_
  rintro m' r ⟨hs, rfl, h1, h2⟩
  refine ⟨trivial, QOut.ofOk hs h1 (fun hc => ⟨fun hr => ?_, h2 (hcl hc).2⟩) ?_ ⟨rfl, rfl⟩⟩
  · cases hr' : (s.dq.removeAt i.toNat).range with
    | none => exact absurd hr' hr
    | some p =>
      obtain ⟨c, d, h3, _⟩ := removeAt_range htwo hr'
      rw [(hcl hc).1 (by rw [h3]; simp)]
      unfold Deque.removeAt
      rw [h3]
      cases ha : s.dq.at? i.toNat with
      | none => rfl
      | some v =>
        have hm := at_some ha
        simp only [Option.isSome_some, if_true]
        exact (filter_ne_length h.wf.sorted hm).symm
  · intro a b e
    obtain ⟨c, d, h3, h4, h5⟩ := removeAt_range htwo e
    have := hu c d h3
    split <;> omega

theorem chunks_le_len (n : Nat) (b : Bytes) : ∀ c ∈ chunks n b, c.length ≤ b.length := by
  induction b using chunks.induct n with
  | case1 b h => rw [chunks, dif_pos h]; simp
  | case2 b h ih =>
    rw [chunks, dif_neg h]
    intro c hc
    rcases List.mem_cons.1 hc with rfl | hc
    · simp; omega
    · have := ih c hc; simp at this; omega

theorem chunks_count (n : Nat) (b : Bytes) : (chunks n b).length ≤ b.length := by
  induction b using chunks.induct n with
  | case1 b h => rw [chunks, dif_pos h]; simp
  | case2 b h ih =>
    rw [chunks, dif_neg h]
    have h1 : b.length ≠ 0 := fun e => h (Or.inl (List.length_eq_zero_iff.1 e))
    have h2 : n ≠ 0 := fun e => h (Or.inr e)
    simp at ih ⊢; omega

set_option maxHeartbeats 1000000 in
theorem wp_setBigOut {cfg m qk s n} (v : Bytes) (h : QRep cfg m qk s.dq n)
    (hcl : s.clean = true → (s.dq.range ≠ none → n = s.dq.elems.length) ∧ GF m qk s.dq) :
    wp cfg noInv ((setBig cfg qk v).tag .flag) m (QOut cfg m qk s (.setBig v)) := by
  apply wp_tag
  unfold setBig discardQueue extendQueue
  rw [wp_bind, wp_withLock]
  refine (wp_discardQueueBody h).conseq ?_
  rintro m1 r ⟨hs1, rfl, h1, hg1⟩
  dsimp only [seqPost]
  rw [wp_bind, wp_withLock]
  have hcount := chunks_count MAX_VALUE_SIZE v
  have hue : QUsed Deque.empty 0 s.used := fun a b e => by simp [Deque.empty] at e
  refine (wp_extendQueueBody h1 (chunks MAX_VALUE_SIZE v)).conseq ?_
  rintro m' r ⟨hs2, hr⟩
  have hs := hs1.trans hs2
  have hn0 : lenOf Deque.empty 0 = 0 := rfl
  cases r with
  | ok rg =>
    obtain ⟨rfl, h2, h3, h4⟩ := hr
    refine ⟨trivial, trivial, QOut.ofOk hs h2 (fun hc => ⟨fun _ => ?_, h4 (hg1 (hcl hc).2)⟩) ?_ ⟨⟨_, rfl, ?_, ?_⟩, rfl⟩⟩
    · exact extend_len (n := 0) h1.wf (fun h => absurd rfl h) _
    · refine (hue.extend _).mono ?_
      show _ ≤ s.used + v.length
      omega
    · exact chunks_flatten _ (by decide) v
    · exact chunks_nil _ (by decide) v
  | err e =>
    obtain ⟨h2, h3⟩ := hr
    have hnf : ¬ QOp.fits cfg qk (.setBig v) := by
      intro hf
      refine h2 ⟨recFits_of hf.1, fun c hc => itemFits_of ?_⟩
      have b1 := chunks_le MAX_VALUE_SIZE v c hc
      have b2 := chunks_le_len MAX_VALUE_SIZE v c hc
      have e : MAX_VALUE_SIZE = 65280 := rfl
      obtain ⟨f1, f2, f3⟩ := hf.2
      have b3 : c.length ≤ Nat.min v.length 65280 := Nat.le_min.2 ⟨b2, by omega⟩
      exact ⟨f1, by omega, by omega⟩
    rcases h3 with h3 | h3
    · refine ⟨⟨Deque.empty, false, s.used + v.length⟩, ⟨hnf, Or.inl rfl, rfl, rfl⟩, fun _ => ⟨hs, _, h3, by simp, ?_⟩⟩
      intro a b e; simp [Deque.empty] at e
    · refine ⟨⟨touched Deque.empty, false, s.used + v.length⟩, ⟨hnf, Or.inr rfl, rfl, rfl⟩, fun _ => ⟨hs, _, h3, by simp, ?_⟩⟩
      exact (hue.extend []).mono (Nat.le_add_right _ _)
  | panic => exact absurd hr id
  | exhausted =>
    refine ⟨s, ?_, fun h => absurd rfl h⟩
    show _ ≤ s.used + v.length
    have e : U64 = 18446744073709551616 := rfl
    have e' : Deque.empty.tailIdx = 9223372036854775808 := rfl
    rw [hn0] at hr
    rcases hr with hr | hr <;> omega

theorem wp_queueOp {cfg m qk s} (op : QOp) (hpre : qPre s op) (h : QueueAbs cfg m qk s) : wp cfg noInv (op.prog cfg qk) m (QOut cfg m qk s op) := by
  obtain ⟨n, h, hcl, hu⟩ := h
  cases op with
  | push pos v => exact wp_pushOut v pos h hcl hu
  | pop pos => exact wp_popOut pos h hcl hu
  | remove i => exact wp_removeOut i hpre h hcl hu
  | discard => exact wp_discardOut (Or.inl rfl) h hcl
  | extend vs => exact wp_extendOut vs h hcl hu
  | iter fwd => exact wp_readQ h hcl hu (wp_iterQueue fwd h trivial) ⟨rfl, rfl⟩
  | peek fwd =>
    refine wp_readQ h hcl hu (wp_peekQueue fwd h trivial) ⟨rfl, ?_⟩
    cases fwd <;> simp [Deque.dir]
  | len =>
    refine wp_readQ h hcl hu (wp_queueLen h trivial) ⟨rfl, _, rfl, fun hc => ?_⟩
    split
    · rename_i e; rw [h.wf.nil e]; rfl
    · rename_i e; exact (hcl hc).1 e
  | range => exact wp_readQ h hcl hu (wp_queueRange h trivial) ⟨rfl, rfl⟩
  | setBig v => exact wp_setBigOut v h hcl
  | getBig =>
    refine wp_readQ (f := .val) h hcl hu (a := if s.dq.elems = [] then none else some (s.dq.elems.map Prod.snd).flatten) ?_ ⟨rfl, rfl⟩
    unfold getBig
    rw [wp_bind]
    refine (wp_iterQueue true h trivial).conseq ?_
    rintro m' r ⟨rfl, rfl⟩
    dsimp only [seqPost, dirElems]
    rw [if_pos rfl]
    split <;> exact ⟨trivial, rfl, rfl⟩
  | removeBig => exact wp_discardOut (Or.inr rfl) h hcl

end Candy
