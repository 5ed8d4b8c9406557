import Verif.Proofs.Calls
/-!
# A call that is cut off
-/
namespace Candy
open Spec

/-! ## Reading calls write nothing -/

abbrev NoKey : Bytes → Prop := fun _ => False

theorem Prog.Within.same {cfg : Cfg} {α : Type} {Q : α → Prop} {m m' : Map} {p p' : Prog α} (h : p.Within NoKey Q)
    (hs : AExec cfg m p m' p') : m' = m := by
  funext k; exact (h.exec hs).1 k id

section
variable {cfg : Cfg} {lk qk : Bytes}

theorem nw_getAtIndexT {ph : PH} {idx} : (getAtIndexT ph idx).Within NoKey anyRes := by
  unfold getAtIndexT getAtIndex
  refine Prog.Within.bind' (Q := anyRes) (Prog.Within.bind' (Q := anyRes) (within_getRaw _) (fun _ _ => ?_)) (fun o _ => ?_)
  · split
    · trivial
    · split
      · trivial
      · intro l hl
        dsimp only
        split <;> trivial
  · split <;> trivial

theorem nw_listRange : (listRange cfg lk).Within NoKey anyRes := by
  unfold listRange; within

theorem nw_collectIdx {ph : PH} : ∀ is, (collectIdx ph is).Within NoKey anyRes
  | [] => trivial
  | i :: is => by
    unfold collectIdx
    refine Prog.Within.bind' nw_getAtIndexT (fun o _ => ?_)
    split
    · exact nw_collectIdx is
    · exact Prog.Within.bind' (nw_collectIdx is) (fun _ _ => trivial)

theorem nw_firstIdx {ph : PH} : ∀ is, (firstIdx ph is).Within NoKey anyRes
  | [] => trivial
  | i :: is => by
    unfold firstIdx
    refine Prog.Within.bind' nw_getAtIndexT (fun o _ => ?_)
    split
    · exact nw_firstIdx is
    · trivial

theorem nw_fetchQueue : (fetchQueue cfg qk).Within NoKey anyRes := by
  unfold fetchQueue; within

theorem nw_collectQ : ∀ is, (collectQ qk is).Within NoKey anyRes
  | [] => trivial
  | i :: is => by
    unfold collectQ
    refine Prog.Within.bind' (Q := anyRes) (within_getRaw _) (fun _ _ => ?_)
    split
    · exact nw_collectQ is
    · exact Prog.Within.bind' (nw_collectQ is) (fun _ _ => trivial)

theorem nw_firstQ : ∀ is, (firstQ qk is).Within NoKey anyRes
  | [] => trivial
  | i :: is => by
    unfold firstQ
    refine Prog.Within.bind' (Q := anyRes) (within_getRaw _) (fun _ _ => ?_)
    split
    · exact nw_firstQ is
    · trivial

theorem nw_iterQueue {fwd} : (iterQueue cfg qk fwd).Within NoKey anyRes := by
  unfold iterQueue
  refine Prog.Within.bind' (Q := anyRes) nw_fetchQueue (fun _ _ => ?_)
  split
  · trivial
  · exact nw_collectQ _

theorem nw_queue (op : QOp) (h : QOp.reads op = true) : (op.prog cfg qk).Within NoKey anyRes := by
  cases op <;> simp only [QOp.reads, reduceCtorEq] at h <;> refine within_tag (Q := anyRes) ?_
  · exact nw_iterQueue
  · unfold peekQueue
    refine Prog.Within.bind' (Q := anyRes) nw_fetchQueue (fun _ _ => ?_)
    split
    · trivial
    · exact nw_firstQ _
  · unfold queueLen
    refine Prog.Within.bind' (Q := anyRes) nw_fetchQueue (fun _ _ => ?_)
    split <;> trivial
  · unfold queueRange
    refine Prog.Within.bind' (Q := anyRes) nw_fetchQueue (fun _ _ => ?_)
    split <;> trivial
  · unfold Candy.getBig
    refine Prog.Within.bind' (Q := anyRes) nw_iterQueue (fun _ _ => ?_)
    split <;> trivial

/-- The list calls that only read. -/
def LOp.reads : LOp → Bool
  | .get _ => true
  | .iter _ => true
  | .peek _ => true
  | .len => true
  | _ => false

theorem nw_list (op : LOp) (h : LOp.reads op = true) : (op.prog cfg lk).Within NoKey anyRes := by
  cases op <;> simp only [LOp.reads, reduceCtorEq] at h <;> refine within_tag (Q := anyRes) ?_
  · unfold getFromList; within
  · unfold iterList
    refine Prog.Within.bind' (Q := anyRes) nw_listRange (fun _ _ => ?_)
    split
    · trivial
    · exact nw_collectIdx _
  · unfold peekList
    refine Prog.Within.bind' (Q := anyRes) nw_listRange (fun _ _ => ?_)
    split
    · trivial
    · exact nw_firstIdx _
  · unfold listLen; within

end

/-! ## Lists -/

/-- What an insertion stores is what the call answers. -/
theorem InsResult.answer {s : LState} {ik v : Bytes} {mode : Mode} {l' : OList} {st : ListIns} (h : InsResult s.items ik v mode l' st) :
    (mode = .set → ∃ a, lAnswer s (.set ik v) a l') ∧ (∀ e, mode = .replace e → ∃ a, lAnswer s (.replace ik v e) a l') ∧
    (mode = .getOrCreate → ∃ a, lAnswer s (.getOrCreate ik v) a l') := by
  unfold InsResult at h
  refine ⟨?_, ?_, ?_⟩
  · rintro rfl
    cases hg : s.items.get ik with
    | none => rw [hg] at h; exact ⟨_, h.1, rfl⟩
    | some old => rw [hg] at h; exact ⟨_, h.1, rfl⟩
  · rintro e rfl
    cases e with
    | none =>
      cases hg : s.items.get ik with
      | none => rw [hg] at h; exact ⟨.replaceStatus .doesNotExist, by simp only [lAnswer]; rw [hg]; exact ⟨h.1, trivial⟩⟩
      | some old => rw [hg] at h; exact ⟨.replaceStatus (.prevValue old), by simp only [lAnswer]; rw [hg]; exact ⟨h.1, rfl⟩⟩
    | some e =>
      cases hg : s.items.get ik with
      | none => rw [hg] at h; exact ⟨.replaceStatus .doesNotExist, by simp only [lAnswer]; rw [hg]; exact ⟨h.1, trivial⟩⟩
      | some old =>
        rw [hg] at h
        rcases h with ⟨h1, _⟩ | ⟨h0, h1, _⟩
        · exact ⟨.replaceStatus (.wrongValue old), by simp only [lAnswer]; rw [hg]; exact Or.inl ⟨h1, rfl⟩⟩
        · exact ⟨.replaceStatus (.prevValue old), by simp only [lAnswer]; rw [hg]; exact Or.inr ⟨h0, h1, rfl⟩⟩
  · rintro rfl
    cases hg : s.items.get ik with
    | none => rw [hg] at h; exact ⟨.gocStatus (.createdNew v), by simp only [lAnswer]; rw [hg]; exact ⟨h.1, trivial⟩⟩
    | some old => rw [hg] at h; exact ⟨.gocStatus (.existingValue old), by simp only [lAnswer]; rw [hg]; exact ⟨h.1, rfl⟩⟩

/-- An insertion that is cut off. -/
theorem ins_crash {cfg m m' lk s} {ik v : Bytes} {mode : Mode} {α : Type} {f : α → Resp} {g : ListIns → Prog α} {p} (h : ListAbs cfg m lk s)
    (hg : ∀ st, (g st).Within NoKey anyRes)
    (hx : AExec cfg m ((do let st ← insertToList cfg lk ik v mode; g st).tag f) m' p) :
    ∃ l, (l = s.items ∨ ∃ st, InsResult s.items ik v mode l st) ∧ ListAbs cfg m' lk ⟨l, false, s.used + 1⟩ := by
  obtain ⟨μ, L, h1, hvis, hcl, hu⟩ := h
  have hw : wp cfg (InsInv cfg m lk μ L ik v mode) ((do let st ← insertToList cfg lk ik v mode; g st).tag f) m (fun _ _ => True) := by
    apply wp_tag
    rw [wp_bind]
    unfold insertToList
    rw [wp_withLock]
    refine (wp_insertToListBody ik v mode h1).conseqI ?_
    intro m1 r hI hr
    cases r with
    | ok st =>
      show wp cfg _ (g st) m1 _
      have := hg st
      generalize g st = q at this
      induction q with
      | ret a => exact ⟨hI, hI, trivial⟩
      | err | panic | exhausted => exact ⟨hI, trivial⟩
      | get k c ih => exact ⟨hI, ih _ (this _)⟩
      | ins k v mode c ih => exact absurd this.1 id
      | rem k c ih => exact absurd this.1 id
      | byHash ph suf c ih => exact ⟨hI, fun l hl => ih _ (this l hl.suffix)⟩
      | lock i c ih => exact ⟨hI, ih this⟩
      | unlock c ih => exact ⟨hI, ih this⟩
    | err e => trivial
    | panic => trivial
    | exhausted => trivial
  obtain ⟨_, μ', L', h2, h3, h4⟩ := (wp.exec hx hw).inv
  refine ⟨vis L', ?_, μ', L', h2, rfl, fun e => by simp at e, h3 _ hu⟩
  rw [hvis] at h4
  exact h4

theorem list_crash {cfg m m' lk s} {p} (op : LOp) (h : ListAbs cfg m lk s) (hx : AExec cfg m (op.prog cfg lk) m' p) :
    ∃ x, lCrash s op x ∧ ∀ s', x = some s' → ListAbs cfg m' lk s' := by
  have read : LOp.reads op = true → lCrash s op (some s) → ∃ x, lCrash s op x ∧ ∀ s', x = some s' → ListAbs cfg m' lk s' := by
    intro hr hc
    refine ⟨some s, hc, ?_⟩
    rintro s' ⟨⟩
    rw [(nw_list op hr).same hx]; exact h
  have lift : ∀ {l : OList} {P : Prop}, P → ListAbs cfg m' lk ⟨l, false, s.used + 1⟩ →
      ∀ s', some (⟨l, false, s.used + 1⟩ : LState) = some s' → ListAbs cfg m' lk s' := by
    rintro l P _ hh s' ⟨⟩; exact hh
  cases op with
  | get ik => exact read rfl rfl
  | iter fwd => exact read rfl rfl
  | peek fwd => exact read rfl rfl
  | len => exact read rfl rfl
  | remove ik => exact ⟨none, rfl, by simp⟩
  | pop fwd => exact ⟨none, rfl, by simp⟩
  | compact b => exact ⟨none, rfl, by simp⟩
  | discard => exact ⟨none, rfl, by simp⟩
  | setPromoting ik v => exact ⟨none, rfl, by simp⟩
  | set ik v =>
    obtain ⟨l, h1, h2⟩ := ins_crash (mode := .set) h (fun st => by cases st <;> trivial) hx
    refine ⟨_, ⟨l, h1.imp id (fun ⟨st, h⟩ => h.answer.1 rfl), rfl⟩, lift h1 h2⟩
  | replace ik v e =>
    obtain ⟨l, h1, h2⟩ := ins_crash (mode := .replace e) h (fun st => by cases st <;> trivial) hx
    refine ⟨_, ⟨l, h1.imp id (fun ⟨st, h⟩ => h.answer.2.1 e rfl), rfl⟩, lift h1 h2⟩
  | getOrCreate ik v =>
    obtain ⟨l, h1, h2⟩ := ins_crash (mode := .getOrCreate) h (fun st => by cases st <;> trivial) hx
    refine ⟨_, ⟨l, h1.imp id (fun ⟨st, h⟩ => h.answer.2.2 rfl), rfl⟩, lift h1 h2⟩

/-! ## Queues -/

/-- What may be found during a queue call. -/
def QMid (cfg : Cfg) (qk : Bytes) (s : QState) (op : QOp) (m' : Map) : Prop :=
  ∃ q' n', QRep cfg m' qk q' n' ∧ QUsed q' n' (s.used + QOp.cost op) ∧ (q' = s.dq ∨ (∃ a, qAnswer s op a q') ∨ qPartial s op q')

theorem QMid.abs {cfg qk s op m'} (h : QMid cfg qk s op m') (hr : QOp.reads op = false) :
    ∃ x, qCrash s op x ∧ ∀ s', x = some s' → QueueAbs cfg m' qk s' := by
  obtain ⟨q', n', h1, h2, h3⟩ := h
  refine ⟨some ⟨q', false, s.used + QOp.cost op⟩, ?_, ?_⟩
  · unfold qCrash; rw [hr]; exact ⟨q', h3, rfl⟩
  · rintro s' ⟨⟩
    exact ⟨n', h1, by simp, h2⟩

/-- In a clean state a push that only reserved its index shows nothing new. -/
theorem bumped_clean {cfg m qk q n pos} (h : QRep cfg m qk q n) (hg : GF m qk q) (hf : ¬ QFull q n pos) :
    bumped m qk q pos = { pushed q [] pos with elems := q.elems } := by
  have hidx := pushIdx_lt h pos
  have : m (qitemKey qk (pushIdx q pos)) = none := by
    rw [hg _ hidx]
    apply at_none
    intro e he
    cases hr : q.range with
    | none => rw [h.wf.nil hr] at he; simp at he
    | some p =>
      obtain ⟨hd, tl⟩ := p
      have hb := (h.wf.bnd hd tl hr).2 e he
      cases pos with
      | head =>
        have h0 : hd ≠ 0 := fun e0 => hf ⟨hd, tl, hr, Or.inl e0⟩
        show e.1 ≠ q.headIdx
        unfold Deque.headIdx; rw [hr]; dsimp only; omega
      | tail =>
        show e.1 ≠ q.tailIdx
        unfold Deque.tailIdx; rw [hr]; dsimp only; omega
  unfold bumped
  rw [this]
  cases pos <;> rfl

theorem QUsed.shrink {q q' : Deque} {n u : Nat} (hu : QUsed q n u) (hr : q'.range = q.range) (c : Nat) : QUsed q' n (u + c) :=
  (hu.of_range hr).mono (Nat.le_add_right _ _)

theorem wp_noWrite_tail {cfg I} {α β : Type} {f : α → Resp} {p : Prog α} {m : Map} (h : wp cfg I p m (fun _ _ => True)) :
    wp cfg I (p.tag f) m (fun _ _ => True) := by
  apply wp_tag
  refine h.conseqI ?_
  intro m' r hI _
  cases r with
  | ok a => exact ⟨hI, trivial⟩
  | err => trivial
  | panic => trivial
  | exhausted => trivial

theorem popped_elems (q : Deque) (h : q.WF) : (popped q .head).elems = q.elems.tail ∧ (popped q .tail).elems = q.elems.dropLast := by
  obtain ⟨range, E⟩ := q
  cases range with
  | none => rw [h.nil rfl]; exact ⟨rfl, rfl⟩
  | some p =>
    constructor
    · cases E <;> rfl
    · unfold popped Deque.popTail
      dsimp only
      cases hl : E.getLast? with
      | none => have := List.getLast?_eq_none_iff.1 hl; subst this; rfl
      | some x => rfl

theorem queue_mid {cfg m qk s} (op : QOp) (hpre : qPre s op) (h : QueueAbs cfg m qk s) (hrd : QOp.reads op = false) :
    wp cfg (QMid cfg qk s op) (op.prog cfg qk) m (fun _ _ => True) := by
  obtain ⟨n, h, hcl, hu⟩ := h
  have hstart : QMid cfg qk s op m := ⟨s.dq, n, h, hu.shrink rfl _, Or.inl rfl⟩
  cases op with
  | iter | peek | len | range | getBig => simp [QOp.reads] at hrd
  | push pos v =>
    refine wp_noWrite_tail (β := Unit) ?_
    unfold pushQueue
    rw [wp_withLock]
    refine (wp_pushQueueBody' v pos h ⟨hstart, ?_, ?_⟩).conseq (fun _ _ _ => trivial)
    · intro m' hf hr
      refine ⟨_, _, hr, ?_, Or.inr (Or.inr ?_)⟩
      · rcases bumped_cases m qk s.dq pos with ⟨x, hx⟩ | hx
        · rw [hx]; exact hu.pushed x pos
        · rw [hx]; exact (hu.pushed [] pos).of_range rfl
      · by_cases hc : s.clean = true
        · rw [bumped_clean h (hcl hc).2 hf]
          cases pos <;> exact Or.inl rfl
        · have hc' : s.clean = false := by simpa using hc
          rcases bumped_cases m qk s.dq pos with ⟨x, hx⟩ | hx
          · rw [hx]; cases pos <;> exact Or.inr ⟨hc', x, rfl⟩
          · rw [hx]; cases pos <;> exact Or.inl rfl
    · intro m' hr
      exact ⟨_, _, hr, hu.pushed v pos, Or.inr (Or.inl (by cases pos <;> exact ⟨_, rfl, rfl⟩))⟩
  | pop pos =>
    refine wp_noWrite_tail (β := Unit) ?_
    unfold popQueue
    rw [wp_withLock]
    refine (wp_popQueueBody' pos h ⟨hstart, ?_, ?_⟩).conseq (fun _ _ _ => trivial)
    · intro m' hr
      refine ⟨_, _, hr, hu.shrink rfl _, Or.inr (Or.inr ?_)⟩
      obtain ⟨e1, e2⟩ := popped_elems s.dq h.wf
      cases pos
      · rw [e1]; rfl
      · rw [e2]; rfl
    · intro m' hr
      refine ⟨_, _, hr, ?_, Or.inr (Or.inl (by cases pos <;> exact ⟨_, rfl, rfl⟩))⟩
      intro a b e
      obtain ⟨c, d, h3, h4, h5⟩ := popped_range h.wf pos e
      have := hu c d h3
      omega
  | remove i =>
    refine wp_noWrite_tail (β := Unit) ?_
    unfold removeFromQueue
    rw [wp_withLock]
    have hi : i.toNat < U64 := i.toNat_lt
    have hpre' : ∀ a b, s.dq.range = some (a, b) → a + 2 ≤ b ∧ (s.clean = true ∨ (a ≤ i.toNat ∧ i.toNat < b)) := by
      intro a b e; unfold qPre at hpre; rw [e] at hpre; exact hpre
    have hnone : s.dq.range = none → s.clean = true := by
      intro e; unfold qPre at hpre; rw [e] at hpre; exact hpre
    have htwo : TwoIdx s.dq := fun a b e => (hpre' a b e).1
    have hg : m (qitemKey qk i.toNat) = s.dq.at? i.toNat := by
      by_cases hc : s.clean = true
      · exact (hcl hc).2 _ hi
      · cases hr : s.dq.range with
        | none => exact absurd (hnone hr) hc
        | some p =>
          have := (hpre' p.1 p.2 hr).2.resolve_left hc
          exact h.item p.1 p.2 hr _ this.1 this.2
    refine (wp_removeFromQueueBody' h htwo hg ⟨hstart, ?_, ?_⟩).conseq (fun _ _ _ => trivial)
    · intro m' hr
      exact ⟨_, _, hr, hu.shrink rfl _, Or.inr (Or.inr rfl)⟩
    · intro m' hr
      refine ⟨_, _, hr, ?_, Or.inr (Or.inl ⟨_, rfl, rfl⟩)⟩
      intro a b e
      obtain ⟨c, d, h3, h4, h5⟩ := removeAt_range htwo e
      have := hu c d h3
      omega
  | discard =>
    refine wp_noWrite_tail (β := Unit) ?_
    unfold discardQueue
    rw [wp_withLock]
    refine (wp_discardQueueBody' h ⟨hstart, ?_, ?_⟩).conseq (fun _ _ _ => trivial)
    · intro m' j hr
      exact ⟨_, _, hr, hu.shrink rfl _, Or.inr (Or.inr ⟨j, rfl⟩)⟩
    · intro m' hr
      exact ⟨_, _, hr, fun a b e => by simp [Deque.empty] at e, Or.inr (Or.inl ⟨_, rfl, rfl⟩)⟩
  | removeBig =>
    refine wp_noWrite_tail (β := Unit) ?_
    unfold removeBig discardQueue
    rw [wp_withLock]
    refine (wp_discardQueueBody' h ⟨hstart, ?_, ?_⟩).conseq (fun _ _ _ => trivial)
    · intro m' j hr
      exact ⟨_, _, hr, hu.shrink rfl _, Or.inr (Or.inr ⟨j, rfl⟩)⟩
    · intro m' hr
      exact ⟨_, _, hr, fun a b e => by simp [Deque.empty] at e, Or.inr (Or.inl ⟨_, rfl, rfl⟩)⟩
  | extend vs =>
    refine wp_noWrite_tail (β := Unit) ?_
    unfold extendQueue
    rw [wp_withLock]
    refine (wp_extendQueueBody' h vs ⟨hstart, ?_, ?_⟩).conseq (fun _ _ _ => trivial)
    · intro m' hr
      exact ⟨_, _, hr, (hu.extend []).mono (Nat.le_add_right _ _), Or.inr (Or.inr rfl)⟩
    · intro m' hr
      exact ⟨_, _, hr, hu.extend vs, Or.inr (Or.inl ⟨_, rfl, rfl⟩)⟩
  | setBig v =>
    refine wp_noWrite_tail (β := Unit) ?_
    unfold setBig discardQueue extendQueue
    have hue : QUsed Deque.empty 0 s.used := fun a b e => by simp [Deque.empty] at e
    have hempty : ∀ m', QRep cfg m' qk Deque.empty 0 → QMid cfg qk s (.setBig v) m' := fun m' hr =>
      ⟨_, _, hr, fun a b e => by simp [Deque.empty] at e, Or.inr (Or.inr (Or.inl rfl))⟩
    rw [wp_bind, wp_withLock]
    refine (wp_discardQueueBody' h ⟨hstart, ?_, hempty⟩).conseqI ?_
    · intro m' j hr
      exact ⟨_, _, hr, hu.shrink rfl _, Or.inr (Or.inr (Or.inr (Or.inr ⟨j, rfl⟩)))⟩
    · rintro m1 r hI ⟨hs1, rfl, h1, hg1⟩
      dsimp only [seqPost]
      rw [wp_bind, wp_withLock]
      have hcount := chunks_count MAX_VALUE_SIZE v
      refine (wp_extendQueueBody' h1 (chunks MAX_VALUE_SIZE v) ⟨hI, ?_, ?_⟩).conseqI ?_
      · intro m' hr
        exact ⟨_, _, hr, (hue.extend []).mono (Nat.le_add_right _ _), Or.inr (Or.inr (Or.inr (Or.inl rfl)))⟩
      · intro m' hr
        refine ⟨_, _, hr, (hue.extend _).mono ?_, Or.inr (Or.inl ⟨_, ⟨_, rfl, chunks_flatten _ (by decide) v, chunks_nil _ (by decide) v⟩, rfl⟩)⟩
        show _ ≤ s.used + v.length
        omega
      · intro m' r hI' _
        cases r with
        | ok a => exact ⟨hI', trivial⟩
        | err => trivial
        | panic => trivial
        | exhausted => trivial

/-! ## Every call -/

/-- **A call that is cut off** leaves the store in one of the promised states. -/
theorem call_crash {cfg m w m' p} (c : Call) (h : MAbs cfg m w) (hx : AExec cfg m (c.prog cfg) m' p) :
    ∃ w', w.crash cfg (some c) w' ∧ MAbs cfg m' w' := by
  have hfoot := ((within_call cfg c).exec hx).1
  cases c with
  | kv k op =>
    have hw := wp_kvOp' cfg (fun m' => m' = m ∨ (kvError cfg k op = none ∧ m' = m.upd (userKey k) (kvAnswer (m (userKey k)) op).2)) k op m
      (Or.inl rfl) (fun e => Or.inr ⟨e, rfl⟩)
    rcases (wp.exec hx hw).inv with rfl | ⟨e, rfl⟩
    · exact ⟨w, ⟨w.kv, Or.inl rfl, rfl⟩, h⟩
    · rw [h.kv]
      exact ⟨_, ⟨_, Or.inr ⟨e, rfl⟩, rfl⟩, h.setKv _ _⟩
  | typed k op =>
    have hw := wp_typedOp' cfg (fun m' => m' = m ∨ (typedError cfg k op = none ∧ m' = m.upd (typedKey k) (kvAnswer (m (typedKey k)) op).2)) k op m
      (Or.inl rfl) (fun e => Or.inr ⟨e, rfl⟩)
    rcases (wp.exec hx hw).inv with rfl | ⟨e, rfl⟩
    · exact ⟨w, ⟨w.typed, Or.inl rfl, rfl⟩, h⟩
    · rw [h.typed]
      exact ⟨_, ⟨_, Or.inr ⟨e, rfl⟩, rfl⟩, h.setTyped _ _⟩
  | list lk op =>
    cases hl : w.lists lk with
    | none => exact ⟨_, ⟨none, by rw [hl]; rfl, rfl⟩, h.setList hfoot (by simp)⟩
    | some s =>
      obtain ⟨x, h1, h2⟩ := list_crash op (h.lists lk s hl) hx
      exact ⟨_, ⟨x, by rw [hl]; exact h1, rfl⟩, h.setList hfoot h2⟩
  | queue qk op =>
    cases hl : w.queues qk with
    | none => exact ⟨_, ⟨none, by rw [hl]; rfl, rfl⟩, h.setQueue hfoot (by simp)⟩
    | some s =>
      by_cases hpre : qPre s op
      · obtain ⟨x, h1, h2⟩ : ∃ x, qCrash s op x ∧ ∀ s', x = some s' → QueueAbs cfg m' qk s' := by
          cases hr : QOp.reads op with
          | true =>
            refine ⟨some s, by unfold qCrash; rw [hr]; rfl, ?_⟩
            rintro s' ⟨⟩
            rw [(nw_queue op hr).same hx]; exact h.queues qk s hl
          | false => exact (wp.exec hx (queue_mid op hpre (h.queues qk s hl) hr)).inv.abs hr
        exact ⟨_, ⟨x, by rw [hl]; exact ⟨fun _ => h1, fun hn => absurd hpre hn⟩, rfl⟩, h.setQueue hfoot h2⟩
      · exact ⟨_, ⟨none, by rw [hl]; exact ⟨fun hn => absurd hn hpre, fun _ => rfl⟩, rfl⟩, h.setQueue hfoot (by simp)⟩

end Candy
