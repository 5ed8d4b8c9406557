import Verif.Proofs.Runner
/-!
# C32 - C36: queues and big values
-/
namespace Candy.Props
open Candy.Spec

/-! ## Helpers (proofs only) -/

/-- The state of a sane store represents queue `qk` as `s`. -/
def QI (cfg : Cfg) (qk : Bytes) (t : Tree) (s : QState) : Prop := (∃ ex, Sane cfg ex t) ∧ QueueAbs cfg (t.get cfg) qk s

theorem QI.step {cfg qk t s op r t'} (h : QI cfg qk t s) (hc : Calls cfg t (.queue qk op) r t') (hne : r ≠ .exhausted) (hpre : qPre s op) :
    ∃ s', qStep cfg qk s op r s' ∧ QI cfg qk t' s' := by
  obtain ⟨⟨ex, hs⟩, ha⟩ := h
  obtain ⟨p, h1, h2⟩ := hc
  obtain ⟨h3, h4⟩ := h1.sim hs.ok
  obtain ⟨s', h5, h6⟩ := (wp_queueOp op hpre ha).sound h4 h2
  exact ⟨s', h5, ⟨ex, hs.bound, h3⟩, (h6 hne).2⟩

theorem QI.wf {cfg qk t s} (h : QI cfg qk t s) : s.dq.WF := h.2.choose_spec.1.wf

/-- Calls that store nothing succeed. -/
theorem ok_of_qStep {cfg qk s op r s'} (h : qStep cfg qk s op r s') (hst : QOp.fits cfg qk op) (hne : r ≠ .exhausted) :
    ∃ a, r = .ok a ∧ qAnswer s op a s'.dq ∧ s'.clean = s.clean := by
  cases r with
  | ok a => exact ⟨a, rfl, h.1, h.2.1⟩
  | err e => exact absurd hst h.1
  | panic => exact h.elim
  | exhausted => exact absurd rfl hne

theorem QI.iter {cfg qk t s fwd r t'} (h : QI cfg qk t s) (hc : Calls cfg t (.queue qk (.iter fwd)) r t') (hne : r ≠ .exhausted) :
    r = .ok (.elems (s.dq.dir fwd)) ∧ ∃ s', QI cfg qk t' s' ∧ s'.dq = s.dq ∧ s'.clean = s.clean := by
  obtain ⟨s', h1, h2⟩ := h.step hc hne trivial
  obtain ⟨a, rfl, ⟨e1, e2⟩, e3⟩ := ok_of_qStep h1 trivial hne
  exact ⟨by rw [e2], s', h2, e1, e3⟩

theorem QI.range {cfg qk t s r t'} (h : QI cfg qk t s) (hc : Calls cfg t (.queue qk .range) r t') (hne : r ≠ .exhausted) :
    r = .ok (.range (s.dq.range.getD (FIRST, FIRST))) ∧ ∃ s', QI cfg qk t' s' ∧ s'.dq = s.dq ∧ s'.clean = s.clean := by
  obtain ⟨s', h1, h2⟩ := h.step hc hne trivial
  obtain ⟨a, rfl, ⟨e1, e2⟩, e3⟩ := ok_of_qStep h1 trivial hne
  exact ⟨by rw [e2], s', h2, e1, e3⟩

/-- In the history `remove_from_queue` was not used on the queue. -/
def NoQRemove (qk : Bytes) (es : List Event) : Prop := ∀ e ∈ es, ∀ i, e.begun ≠ some (.queue qk (.remove i))

/-- In the history no call on the queue failed or was cut off by a crash. -/
def NoFailedQueue (qk : Bytes) (es : List Event) : Prop :=
  ∀ op, (∀ r, Event.call (.queue qk op) r ∈ es → ∃ a, r = .ok a) ∧ Event.crash (some (.queue qk op)) ∉ es

theorem NoQRemove.tail {qk e es} (h : NoQRemove qk (e :: es)) : NoQRemove qk es := fun x hx => h x (List.mem_cons_of_mem _ hx)
theorem NoFailedQueue.tail {qk e es} (h : NoFailedQueue qk (e :: es)) : NoFailedQueue qk es :=
  fun op => ⟨fun r hm => (h op).1 r (List.mem_cons_of_mem _ hm), fun hm => (h op).2 (List.mem_cons_of_mem _ hm)⟩

/-! ## C32 -/

/-- The answers to the calls on queue `qk` in a history are those of an ideal deque (`Spec.qStep`, `Spec.qAnswer`, `Spec.Deque`) that starts as
`s`, up to the first `remove_from_queue` outside its specification (`Spec.qPre`; then the state is `none`). Calls on other queues, of
other APIs, `merge_small_shards` and reopening have no effect on it; `clear` empties it. After a crash inside a call on the queue, it is as
`Spec.qCrash` says. -/
def LikeIdealQueue (cfg : Cfg) (qk : Bytes) : Option QState → List Event → Prop
  | _, [] => True
  | s, .call (.queue k op) r :: es => if k = qk then ∃ x, queueStep cfg qk op r s x ∧ LikeIdealQueue cfg qk x es else LikeIdealQueue cfg qk s es
  | s, .call _ _ :: es => LikeIdealQueue cfg qk s es
  | s, .merge _ :: es => LikeIdealQueue cfg qk s es
  | _, .clear :: es => LikeIdealQueue cfg qk (some QState.new) es
  | s, .reopen :: es => LikeIdealQueue cfg qk s es
  | s, .crash (some (.queue k op)) :: es => if k = qk then ∃ x, queueCrash op s x ∧ LikeIdealQueue cfg qk x es else LikeIdealQueue cfg qk s es
  | s, .crash _ :: es => LikeIdealQueue cfg qk s es

theorem specRun_queue {cfg w es w' qk} (h : SpecRun cfg w es w') : LikeIdealQueue cfg qk (w.queues qk) es ∧
    (∀ s, w.queues qk = some s → NoQRemove qk es → ∃ s', w'.queues qk = some s' ∧ ((s.clean = true ∧ NoFailedQueue qk es) → s'.clean = true)) := by
  induction h with
  | nil w => exact ⟨trivial, fun s hs _ => ⟨s, hs, fun h => h.1⟩⟩
  | @call w w1 w2 c r es h _ ih =>
    cases c with
    | kv k op =>
      obtain ⟨m', h1, rfl⟩ := h
      refine ⟨ih.1, fun s hs hn => ?_⟩
      obtain ⟨s', i2, i3⟩ := ih.2 s hs hn.tail
      exact ⟨s', i2, fun x => i3 ⟨x.1, x.2.tail⟩⟩
    | typed k op =>
      obtain ⟨m', h1, rfl⟩ := h
      refine ⟨ih.1, fun s hs hn => ?_⟩
      obtain ⟨s', i2, i3⟩ := ih.2 s hs hn.tail
      exact ⟨s', i2, fun x => i3 ⟨x.1, x.2.tail⟩⟩
    | list k op =>
      obtain ⟨m', h1, rfl⟩ := h
      refine ⟨ih.1, fun s hs hn => ?_⟩
      obtain ⟨s', i2, i3⟩ := ih.2 s hs hn.tail
      exact ⟨s', i2, fun x => i3 ⟨x.1, x.2.tail⟩⟩
    | queue k op =>
      obtain ⟨x, h1, rfl⟩ := h
      unfold LikeIdealQueue
      by_cases e : k = qk
      · subst e
        rw [if_pos rfl]
        have hx : setAt w.queues k x k = x := by simp [setAt]
        dsimp only at ih
        rw [hx] at ih
        refine ⟨⟨x, h1, ih.1⟩, fun s hs hn => ?_⟩
        rw [hs] at h1
        have hpre : qPre s op := by
          cases op with
          | remove i => exact absurd rfl (hn _ List.mem_cons_self i)
          | _ => trivial
        obtain ⟨s1, h2, rfl⟩ := h1.1 hpre
        obtain ⟨s', i2, i3⟩ := ih.2 s1 rfl hn.tail
        refine ⟨s', i2, fun x => i3 ⟨?_, x.2.tail⟩⟩
        cases r with
        | ok a => rw [h2.2.1]; exact x.1
        | err e => obtain ⟨a, ha⟩ := (x.2 op).1 _ List.mem_cons_self; simp at ha
        | panic => exact h2.elim
        | exhausted => obtain ⟨a, ha⟩ := (x.2 op).1 _ List.mem_cons_self; simp at ha
      · rw [if_neg e]
        have hx : setAt w.queues k x qk = w.queues qk := by simp [setAt, Ne.symm e]
        dsimp only at ih
        rw [hx] at ih
        refine ⟨ih.1, fun s hs hn => ?_⟩
        obtain ⟨s', i2, i3⟩ := ih.2 s hs hn.tail
        exact ⟨s', i2, fun x => i3 ⟨x.1, x.2.tail⟩⟩
  | @merge w w2 b es _ ih =>
    refine ⟨ih.1, fun s hs hn => ?_⟩
    obtain ⟨s', i2, i3⟩ := ih.2 s hs hn.tail
    exact ⟨s', i2, fun x => i3 ⟨x.1, x.2.tail⟩⟩
  | @clear w w2 es _ ih =>
    refine ⟨ih.1, fun s hs hn => ?_⟩
    obtain ⟨s', i2, i3⟩ := ih.2 QState.new rfl hn.tail
    exact ⟨s', i2, fun x => i3 ⟨rfl, x.2.tail⟩⟩
  | @reopen w w2 es _ ih =>
    refine ⟨ih.1, fun s hs hn => ?_⟩
    obtain ⟨s', i2, i3⟩ := ih.2 s hs hn.tail
    exact ⟨s', i2, fun x => i3 ⟨x.1, x.2.tail⟩⟩
  | @crash w w1 w2 c es h _ ih =>
    cases c with
    | none =>
      cases h
      refine ⟨ih.1, fun s hs hn => ?_⟩
      obtain ⟨s', i2, i3⟩ := ih.2 s hs hn.tail
      exact ⟨s', i2, fun x => i3 ⟨x.1, x.2.tail⟩⟩
    | some c =>
      cases c with
      | kv k op =>
        obtain ⟨m', h1, rfl⟩ := h
        refine ⟨ih.1, fun s hs hn => ?_⟩
        obtain ⟨s', i2, i3⟩ := ih.2 s hs hn.tail
        exact ⟨s', i2, fun x => i3 ⟨x.1, x.2.tail⟩⟩
      | typed k op =>
        obtain ⟨m', h1, rfl⟩ := h
        refine ⟨ih.1, fun s hs hn => ?_⟩
        obtain ⟨s', i2, i3⟩ := ih.2 s hs hn.tail
        exact ⟨s', i2, fun x => i3 ⟨x.1, x.2.tail⟩⟩
      | list k op =>
        obtain ⟨m', h1, rfl⟩ := h
        refine ⟨ih.1, fun s hs hn => ?_⟩
        obtain ⟨s', i2, i3⟩ := ih.2 s hs hn.tail
        exact ⟨s', i2, fun x => i3 ⟨x.1, x.2.tail⟩⟩
      | queue k op =>
        obtain ⟨x, h1, rfl⟩ := h
        unfold LikeIdealQueue
        by_cases e : k = qk
        · subst e
          rw [if_pos rfl]
          have hx : setAt w.queues k x k = x := by simp [setAt]
          dsimp only at ih
          rw [hx] at ih
          refine ⟨⟨x, h1, ih.1⟩, fun s hs hn => ?_⟩
          rw [hs] at h1
          have hpre : qPre s op := by
            cases op with
            | remove i => exact absurd rfl (hn _ List.mem_cons_self i)
            | _ => trivial
          obtain ⟨s1, rfl⟩ : ∃ s1, x = some s1 := by
            have := h1.1 hpre
            unfold qCrash at this
            split at this
            · exact ⟨_, this⟩
            · obtain ⟨_, _, h⟩ := this; exact ⟨_, h⟩
          obtain ⟨s', i2, i3⟩ := ih.2 s1 rfl hn.tail
          exact ⟨s', i2, fun x => absurd List.mem_cons_self (x.2 op).2⟩
        · rw [if_neg e]
          have hx : setAt w.queues k x qk = w.queues qk := by simp [setAt, Ne.symm e]
          dsimp only at ih
          rw [hx] at ih
          refine ⟨ih.1, fun s hs hn => ?_⟩
          obtain ⟨s', i2, i3⟩ := ih.2 s hs hn.tail
          exact ⟨s', i2, fun x => i3 ⟨x.1, x.2.tail⟩⟩

theorem queue_state {cfg es t} (qk : Bytes) (h : Reachable cfg es t) (hn : NoQRemove qk es) :
    ∃ s, QI cfg qk t s ∧ (NoFailedQueue qk es → s.clean = true) := by
  obtain ⟨w, h1, h2, h3⟩ := h.world
  obtain ⟨s, h4, h5⟩ := (specRun_queue h1).2 QState.new rfl hn
  exact ⟨s, ⟨⟨_, h2⟩, h3.queues qk s h4⟩, fun hf => h5 ⟨rfl, hf⟩⟩

/-- **C32.** In every history, the calls on a queue answer as an ideal deque does. -/
theorem C32_queue_is_a_deque {cfg : Cfg} {es : List Event} {t : Tree} {qk : Bytes} (h : Reachable cfg es t) :
    LikeIdealQueue cfg qk (some QState.new) es := by
  obtain ⟨w, h1, _, _⟩ := h.world
  exact (specRun_queue h1).1

/-- What `iter_queue` shows before and after a call is related as the specification says. -/
theorem C32_before_after {cfg es t t1 t2 t3 qk op r l l'} (h : Reachable cfg es t) (hn : NoQRemove qk es)
    (h1 : Calls cfg t (.queue qk (.iter true)) (.ok (.elems l)) t1) (hop : ∀ i, op ≠ .remove i) (h2 : Calls cfg t1 (.queue qk op) r t2)
    (hne : r ≠ .exhausted) (h3 : Calls cfg t2 (.queue qk (.iter true)) (.ok (.elems l')) t3) :
    ∃ s s', s.dq.elems = l ∧ s'.dq.elems = l' ∧ (NoFailedQueue qk es → s.clean = true) ∧ s.dq.WF ∧ s'.dq.WF ∧ qStep cfg qk s op r s' := by
  obtain ⟨s, a1, a2⟩ := queue_state qk h hn
  obtain ⟨e1, s1, b1, b2, b3⟩ := a1.iter h1 (by simp)
  have hpre : qPre s1 op := by
    cases op with
    | remove i => exact absurd rfl (hop i)
    | _ => trivial
  obtain ⟨s2, c1, c2⟩ := b1.step h2 hne hpre
  obtain ⟨e2, s3, d1, d2, d3⟩ := c2.iter h3 (by simp)
  simp only [Deque.dir, if_true, Res.ok.injEq, Resp.elems.injEq] at e1 e2
  exact ⟨s1, s2, b2 ▸ e1.symm, e2.symm, fun x => b3.trans (a2 x), b1.wf, c2.wf, c1⟩

/-- Indices in a queue are strictly increasing, and a pushed element gets an index beyond all of them. -/
theorem C32_push {cfg es t t1 t2 t3 qk pos v r l l'} (h : Reachable cfg es t) (hn : NoQRemove qk es)
    (hfit : queueRecFits cfg qk ∧ queueItemFits cfg qk v.length)
    (h1 : Calls cfg t (.queue qk (.iter true)) (.ok (.elems l)) t1) (h2 : Calls cfg t1 (.queue qk (.push pos v)) r t2)
    (hne : r ≠ .exhausted) (h3 : Calls cfg t2 (.queue qk (.iter true)) (.ok (.elems l')) t3) :
    ∃ i, r = .ok (.num i) ∧ match pos with
      | .head => l' = (i, v) :: l ∧ ∀ e ∈ l, i < e.1
      | .tail => l' = l ++ [(i, v)] ∧ ∀ e ∈ l, e.1 < i := by
  obtain ⟨s, s', rfl, rfl, _, hw, hw', hs⟩ := C32_before_after h hn h1 (by simp) h2 hne h3
  obtain ⟨a, rfl, ha, _⟩ := ok_of_qStep hs hfit hne
  cases pos with
  | head =>
    refine ⟨s.dq.headIdx, by rw [ha.2], ?_⟩
    have e : s'.dq.elems = (s.dq.headIdx, v) :: s.dq.elems := by rw [ha.1]; rfl
    refine ⟨e, ?_⟩
    have := hw'.sorted
    rw [e] at this
    exact (List.pairwise_cons.1 this).1
  | tail =>
    refine ⟨s.dq.tailIdx, by rw [ha.2], ?_⟩
    have e : s'.dq.elems = s.dq.elems ++ [(s.dq.tailIdx, v)] := by rw [ha.1]; rfl
    refine ⟨e, ?_⟩
    have := hw'.sorted
    rw [e] at this
    exact fun x hx => (List.pairwise_append.1 this).2.2 x hx _ (List.mem_singleton.2 rfl)

/-- `pop_queue_head/tail` return and remove the first / last element. -/
theorem C32_pop {cfg es t t1 t2 t3 qk pos r l l'} (h : Reachable cfg es t) (hn : NoQRemove qk es)
    (h1 : Calls cfg t (.queue qk (.iter true)) (.ok (.elems l)) t1) (h2 : Calls cfg t1 (.queue qk (.pop pos)) r t2)
    (hne : r ≠ .exhausted) (h3 : Calls cfg t2 (.queue qk (.iter true)) (.ok (.elems l')) t3) :
    match pos with
    | .head => r = .ok (.elem l.head?) ∧ l' = l.tail
    | .tail => r = .ok (.elem l.getLast?) ∧ l' = l.dropLast := by
  obtain ⟨s, s', rfl, rfl, _, hw, hw', hs⟩ := C32_before_after h hn h1 (by simp) h2 hne h3
  obtain ⟨a, rfl, ha, _⟩ := ok_of_qStep hs trivial hne
  cases pos with
  | head =>
    refine ⟨by rw [ha.2], ?_⟩
    rw [ha.1]
    unfold Deque.popHead
    split
    · rename_i e; rw [e]; rfl
    · rename_i hno
      cases hr : s.dq.range with
      | none => rw [hw.nil hr]; rfl
      | some p =>
        cases he : s.dq.elems with
        | nil => rfl
        | cons x l => exact absurd he (hno _ _ _ _ _ hr)
  | tail =>
    refine ⟨by rw [ha.2], ?_⟩
    rw [ha.1]
    unfold Deque.popTail
    split
    · rfl
    · rename_i hno
      cases hr : s.dq.range with
      | none => rw [hw.nil hr]; rfl
      | some p =>
        cases he : s.dq.elems.getLast? with
        | none => rw [List.getLast?_eq_none_iff.1 he]; rfl
        | some x => exact absurd he (hno _ _ _ _ hr)

/-- `peek_queue_head/tail`, and iterating backwards. -/
theorem C32_peek {cfg es t t1 t2 qk fwd r l} (h : Reachable cfg es t) (hn : NoQRemove qk es)
    (h1 : Calls cfg t (.queue qk (.iter true)) (.ok (.elems l)) t1) (h2 : Calls cfg t1 (.queue qk (.peek fwd)) r t2) (hne : r ≠ .exhausted) :
    r = .ok (.elem (if fwd then l.head? else l.getLast?)) := by
  obtain ⟨s, a1, a2⟩ := queue_state qk h hn
  obtain ⟨e1, s1, b1, b2, b3⟩ := a1.iter h1 (by simp)
  obtain ⟨s2, c1, c2⟩ := b1.step h2 hne trivial
  simp only [Deque.dir, if_true, Res.ok.injEq, Resp.elems.injEq] at e1
  obtain ⟨a, rfl, ⟨_, e2⟩, _⟩ := ok_of_qStep c1 trivial hne
  rw [e2]
  unfold Deque.dir
  rw [b2, ← e1]
  cases fwd <;> simp

theorem C32_reverse {cfg es t t1 t2 qk r l} (h : Reachable cfg es t) (hn : NoQRemove qk es)
    (h1 : Calls cfg t (.queue qk (.iter true)) (.ok (.elems l)) t1) (h2 : Calls cfg t1 (.queue qk (.iter false)) r t2) (hne : r ≠ .exhausted) :
    r = .ok (.elems l.reverse) := by
  obtain ⟨s, a1, a2⟩ := queue_state qk h hn
  obtain ⟨e1, s1, b1, b2, b3⟩ := a1.iter h1 (by simp)
  obtain ⟨e2, _⟩ := b1.iter h2 hne
  simp only [Deque.dir, if_true, Res.ok.injEq, Resp.elems.injEq] at e1
  rw [e2, b2, e1]; rfl

/-- `discard_queue` empties the queue. -/
theorem C32_discard {cfg es t t1 t2 t3 qk r l l'} (h : Reachable cfg es t) (hn : NoQRemove qk es)
    (h1 : Calls cfg t (.queue qk (.iter true)) (.ok (.elems l)) t1) (h2 : Calls cfg t1 (.queue qk .discard) r t2)
    (hne : r ≠ .exhausted) (h3 : Calls cfg t2 (.queue qk (.iter true)) (.ok (.elems l')) t3) :
    l' = [] ∧ ∃ b, r = .ok (.flag b) ∧ (l ≠ [] → b = true) := by
  obtain ⟨s, s', rfl, rfl, _, hw, hw', hs⟩ := C32_before_after h hn h1 (by simp) h2 hne h3
  obtain ⟨a, rfl, ha, _⟩ := ok_of_qStep hs trivial hne
  refine ⟨by rw [ha.1]; rfl, _, by rw [ha.2], fun hl => ?_⟩
  cases hr : s.dq.range with
  | none => exact absurd (hw.nil hr) hl
  | some p => rfl

/-! ## C33 -/

/-- **C33** (partial: only while `queue_range` reports at least two indices, and no earlier `remove_from_queue`). `remove_from_queue` returns and removes
exactly the element with that index. -/
theorem C33_remove_partial {cfg es t t0 t1 t2 t3 qk i a b r l l'} (h : Reachable cfg es t) (hn : NoQRemove qk es) (hf : NoFailedQueue qk es)
    (h0 : Calls cfg t (.queue qk .range) (.ok (.range (a, b))) t0) (hab : a + 2 ≤ b)
    (h1 : Calls cfg t0 (.queue qk (.iter true)) (.ok (.elems l)) t1) (h2 : Calls cfg t1 (.queue qk (.remove i)) r t2)
    (hne : r ≠ .exhausted) (h3 : Calls cfg t2 (.queue qk (.iter true)) (.ok (.elems l')) t3) :
    l' = l.filter (fun e => decide (e.1 ≠ i.toNat)) ∧
    (∀ v, (i.toNat, v) ∈ l → r = .ok (.val (some v))) ∧ ((∀ e ∈ l, e.1 ≠ i.toNat) → r = .ok (.val none)) := by
  obtain ⟨s, a1, a2⟩ := queue_state qk h hn
  obtain ⟨e0, s0, z1, z2, z3⟩ := a1.range h0 (by simp)
  obtain ⟨e1, s1, b1, b2, b3⟩ := z1.iter h1 (by simp)
  simp only [Res.ok.injEq, Resp.range.injEq] at e0
  have hr : s1.dq.range = some (a, b) := by
    rw [b2, z2]
    cases hr : s.dq.range with
    | none => rw [hr] at e0; simp only [Option.getD_none, Prod.mk.injEq] at e0; omega
    | some p => rw [hr] at e0; exact congrArg some e0.symm
  have hpre : qPre s1 (.remove i) := by
    unfold qPre; rw [hr]; exact ⟨hab, Or.inl ((b3.trans z3).trans (a2 hf))⟩
  obtain ⟨s2, c1, c2⟩ := b1.step h2 hne hpre
  obtain ⟨e2, s3, d1, d2, d3⟩ := c2.iter h3 (by simp)
  simp only [Deque.dir, if_true, Res.ok.injEq, Resp.elems.injEq] at e1 e2
  obtain ⟨x, rfl, ⟨f1, f2⟩, _⟩ := ok_of_qStep c1 trivial hne
  have hl : s1.dq.elems = l := b2 ▸ e1.symm
  rw [e2, f1, f2]
  have hat : ∀ v, (i.toNat, v) ∈ l → s1.dq.at? i.toNat = some v := by
    intro v hv
    have hw := b1.wf.sorted
    rw [hl] at hw
    unfold Deque.at?
    rw [hl]
    obtain ⟨x, y, e⟩ := List.append_of_mem hv
    rw [e] at hw ⊢
    rw [List.find?_append, List.find?_eq_none.2 (fun p hp => by
      have := (List.pairwise_append.1 hw).2.2 p hp (i.toNat, v) List.mem_cons_self
      simp only [decide_eq_true_eq]; omega)]
    simp
  have hat' : (∀ e ∈ l, e.1 ≠ i.toNat) → s1.dq.at? i.toNat = none := by
    intro hk
    unfold Deque.at?
    rw [hl, List.find?_eq_none.2 (fun p hp => by simpa using hk p hp)]; rfl
  refine ⟨?_, fun v hv => by rw [hat v hv], fun hk => by rw [hat' hk]⟩
  unfold Deque.removeAt
  cases ha : s1.dq.at? i.toNat with
  | some v => rw [hr]; dsimp only; rw [hl]
  | none =>
    rw [hr]; dsimp only; rw [hl]
    refine (List.filter_eq_self.2 ?_).symm
    intro e he
    simp only [decide_eq_true_eq]
    intro hi
    have := hat e.2 (by rw [← hi]; exact he)
    rw [ha] at this; simp at this

/-- **C33 does not hold** in general: after removing the only element of a queue by its index, the next pushed element is lost. -/
theorem C33_refuted : ∃ es t t', Reachable runCfg es t ∧ Run runCfg t
    [.call (.queue [81] (.iter true)) (.ok (.elems [(9223372036854775808, [1])])),
     .call (.queue [81] (.remove 9223372036854775808)) (.ok (.val (some [1]))),
     .call (.queue [81] (.push .tail [2])) (.ok (.num 9223372036854775808)),
     .call (.queue [81] (.iter true)) (.ok (.elems [])),
     .call (.queue [81] (.pop .head)) (.ok (.elem none))] t' := by
  obtain ⟨t, t', h1, h2⟩ := checkHist_append (cfg := runCfg) (cs := [(.queue [81] (.push .tail [1]), .ok (.num 9223372036854775808))])
    (ds := [(.queue [81] (.iter true), .ok (.elems [(9223372036854775808, [1])])),
     (.queue [81] (.remove 9223372036854775808), .ok (.val (some [1]))),
     (.queue [81] (.push .tail [2]), .ok (.num 9223372036854775808)),
     (.queue [81] (.iter true), .ok (.elems [])),
     (.queue [81] (.pop .head), .ok (.elem none))]) (by decide +kernel)
  exact ⟨_, t, t', h1, h2⟩

/-! ## C34 -/

/-- **C34.** `queue_range` covers the indices of all elements, and `queue_len` is the number of elements - for queues on which no call failed and
`remove_from_queue` was not used (with it see `C32_queue_is_a_deque`; without these conditions it is false: C31, C33). -/
theorem C34_len_range_partial {cfg es t t1 t2 t3 qk r r' l} (h : Reachable cfg es t) (hn : NoQRemove qk es)
    (h1 : Calls cfg t (.queue qk (.iter true)) (.ok (.elems l)) t1) (h2 : Calls cfg t1 (.queue qk .len) r t2) (hne : r ≠ .exhausted)
    (h3 : Calls cfg t2 (.queue qk .range) r' t3) (hne' : r' ≠ .exhausted) :
    (NoFailedQueue qk es → r = .ok (.num l.length)) ∧ ∃ a b, r' = .ok (.range (a, b)) ∧ a ≤ b ∧ ∀ e ∈ l, a ≤ e.1 ∧ e.1 < b := by
  obtain ⟨s, a1, a2⟩ := queue_state qk h hn
  obtain ⟨e1, s1, b1, b2, b3⟩ := a1.iter h1 (by simp)
  obtain ⟨s2, c1, c2⟩ := b1.step h2 hne trivial
  obtain ⟨e2, _⟩ := c2.range h3 hne'
  simp only [Deque.dir, if_true, Res.ok.injEq, Resp.elems.injEq] at e1
  obtain ⟨x, rfl, ⟨f1, n, f2, f3⟩, _⟩ := ok_of_qStep c1 trivial hne
  have hl : s1.dq.elems = l := b2 ▸ e1.symm
  refine ⟨fun hf => by rw [f2, f3 (b3.trans (a2 hf)), hl], _, _, e2, ?_⟩
  rw [f1]
  cases hr : s1.dq.range with
  | none =>
    have := b1.wf.nil hr
    rw [hl] at this; rw [this]
    exact ⟨Nat.le_refl _, by simp⟩
  | some p => have := b1.wf.bnd p.1 p.2 hr; rw [hl] at this; exact this

/-! ## C35 -/

theorem extend_elems (vs : List Bytes) : ∀ q : Deque, (q.extend vs).elems = q.elems ++ (vs.mapIdx (fun i v => (q.tailIdx + i, v))) := by
  induction vs with
  | nil => intro q; simp [Deque.extend]
  | cons v vs ih =>
    intro q
    unfold Deque.extend
    rw [ih]
    have e1 : (q.pushTail v).elems = q.elems ++ [(q.tailIdx, v)] := rfl
    have e2 : (q.pushTail v).tailIdx = q.tailIdx + 1 := rfl
    rw [e1, e2, List.mapIdx_cons, List.append_assoc]
    simp [Nat.add_assoc, Nat.add_comm 1]

/-- **C35.** `extend_queue` appends the elements in order, at consecutive indices, and returns their range. -/
theorem C35_extend {cfg es t t1 t2 t3 qk vs r l l'} (h : Reachable cfg es t) (hn : NoQRemove qk es)
    (hfit : queueRecFits cfg qk ∧ ∀ v ∈ vs, queueItemFits cfg qk v.length)
    (h1 : Calls cfg t (.queue qk (.iter true)) (.ok (.elems l)) t1) (h2 : Calls cfg t1 (.queue qk (.extend vs)) r t2)
    (hne : r ≠ .exhausted) (h3 : Calls cfg t2 (.queue qk (.iter true)) (.ok (.elems l')) t3) :
    ∃ n, r = .ok (.range (n, n + vs.length)) ∧ l' = l ++ vs.mapIdx (fun i v => (n + i, v)) ∧ ∀ e ∈ l, e.1 < n := by
  obtain ⟨s, s', rfl, rfl, _, hw, hw', hs⟩ := C32_before_after h hn h1 (by simp) h2 hne h3
  obtain ⟨a, rfl, ha, _⟩ := ok_of_qStep hs hfit hne
  refine ⟨s.dq.tailIdx, by rw [ha.2], by rw [ha.1, extend_elems], ?_⟩
  intro e he
  unfold Deque.tailIdx
  cases hr : s.dq.range with
  | none => rw [hw.nil hr] at he; simp at he
  | some p => exact ((hw.bnd p.1 p.2 hr).2 e he).2

/-- Extending is pushing one by one. -/
theorem C35_as_pushes (q : Deque) (v : Bytes) (vs : List Bytes) : q.extend (v :: vs) = (q.pushTail v).extend vs := rfl

/-! ## C36 -/

/-- **C36** (partial: non-empty values). `get_big` returns what `set_big` stored. -/
theorem C36_big_partial {cfg es t t1 t2 qk v r} (h : Reachable cfg es t) (hn : NoQRemove qk es) (hv : v ≠ [])
    (hfit : queueRecFits cfg qk ∧ queueItemFits cfg qk (Nat.min v.length 65280))
    (h1 : Calls cfg t (.queue qk (.setBig v)) r t1) (hne : r ≠ .exhausted) {r'} (h2 : Calls cfg t1 (.queue qk .getBig) r' t2)
    (hne' : r' ≠ .exhausted) : (∃ b, r = .ok (.flag b)) ∧ r' = .ok (.val (some v)) := by
  obtain ⟨s, a1, a2⟩ := queue_state qk h hn
  obtain ⟨s1, b1, b2⟩ := a1.step h1 hne trivial
  obtain ⟨s2, c1, c2⟩ := b2.step h2 hne' trivial
  obtain ⟨x, rfl, ⟨⟨cs, f1, f2, f3⟩, f4⟩, _⟩ := ok_of_qStep b1 hfit hne
  obtain ⟨y, rfl, ⟨g1, g2⟩, _⟩ := ok_of_qStep c1 trivial hne'
  refine ⟨⟨_, by rw [f4]⟩, ?_⟩
  have he : s1.dq.elems = cs.mapIdx (fun i v => (Deque.empty.tailIdx + i, v)) := by rw [f1, extend_elems]; rfl
  have hm : s1.dq.elems.map Prod.snd = cs := by
    rw [he]
    apply List.ext_getElem?
    intro i
    simp only [List.getElem?_map, List.getElem?_mapIdx]
    cases cs[i]? <;> rfl
  have hne : s1.dq.elems ≠ [] := by
    intro e
    rw [e] at hm
    exact hv (f3.1 hm.symm)
  rw [g2, if_neg hne, hm, f2]

/-- The empty value does not round-trip: **C36 does not hold** for it. -/
theorem C36_refuted_empty : ∃ t t', Reachable runCfg [] t ∧ Run runCfg t
    [.call (.queue [81] (.setBig [])) (.ok (.flag false)), .call (.queue [81] .getBig) (.ok (.val none))] t' := by
  obtain ⟨t, t', h1, h2⟩ := checkHist_append (cfg := runCfg) (cs := [])
    (ds := [(.queue [81] (.setBig []), .ok (.flag false)), (.queue [81] .getBig, .ok (.val none))]) (by decide +kernel)
  exact ⟨t, t', h1, h2⟩

/-- `get_big` before and after `remove_big`. -/
theorem C36_remove {cfg es t t1 t2 t3 qk v r r'} (h : Reachable cfg es t) (hn : NoQRemove qk es)
    (h1 : Calls cfg t (.queue qk .getBig) (.ok (.val v)) t1) (h2 : Calls cfg t1 (.queue qk .removeBig) r t2) (hne : r ≠ .exhausted)
    (h3 : Calls cfg t2 (.queue qk .getBig) r' t3) (hne' : r' ≠ .exhausted) :
    (∃ b, r = .ok (.flag b) ∧ (v.isSome → b = true)) ∧ r' = .ok (.val none) := by
  obtain ⟨s, a1, a2⟩ := queue_state qk h hn
  obtain ⟨s1, b1, b2⟩ := a1.step h1 (by simp) trivial
  obtain ⟨s2, c1, c2⟩ := b2.step h2 hne trivial
  obtain ⟨s3, d1, d2⟩ := c2.step h3 hne' trivial
  obtain ⟨x, ex, ⟨f1, f2⟩, _⟩ := ok_of_qStep b1 trivial (by simp)
  obtain ⟨y, rfl, ⟨g1, g2⟩, _⟩ := ok_of_qStep c1 trivial hne
  obtain ⟨z, rfl, ⟨k1, k2⟩, _⟩ := ok_of_qStep d1 trivial hne'
  refine ⟨⟨_, by rw [g2], fun hv => ?_⟩, by rw [k2, g1]; rfl⟩
  simp only [Res.ok.injEq] at ex
  rw [f2] at ex
  simp only [Resp.val.injEq] at ex
  rw [f1]
  cases hr : s.dq.range with
  | some p => rfl
  | none => rw [a1.wf.nil hr] at ex; subst ex; simp at hv

/-! ## The hypotheses can be met -/

/-- After `cs`, an iteration, a call and an iteration have these answers. -/
theorem around_queue {cs : List (Call × Res Resp)} {qk op r l l'} (h : checkHist runCfg
      (cs ++ [(.queue qk (.iter true), .ok (.elems l)), (.queue qk op, r), (.queue qk (.iter true), .ok (.elems l'))]) = true) :
    ∃ t t1 t2 t3, Reachable runCfg (hist cs) t ∧ Calls runCfg t (.queue qk (.iter true)) (.ok (.elems l)) t1 ∧
      Calls runCfg t1 (.queue qk op) r t2 ∧ r ≠ .exhausted ∧ Calls runCfg t2 (.queue qk (.iter true)) (.ok (.elems l')) t3 := by
  obtain ⟨t, t', h1, h2⟩ := checkHist_append h
  obtain ⟨t1, a1, _, h2⟩ := h2.cons_call
  obtain ⟨t2, a2, a3, h2⟩ := h2.cons_call
  obtain ⟨t3, a4, _, h2⟩ := h2.cons_call
  exact ⟨t, t1, t2, t3, h1, a1, a2, a3, a4⟩

/-- A queue holding 3, 1, 2. -/
def demoQ : List (Call × Res Resp) :=
  [(.queue [81] (.push .tail [1]), .ok (.num 9223372036854775808)), (.queue [81] (.push .tail [2]), .ok (.num 9223372036854775809)),
   (.queue [81] (.push .head [3]), .ok (.num 9223372036854775807))]

example := around_queue (cs := demoQ) (qk := [81]) (op := .push .tail [4]) (r := .ok (.num 9223372036854775810))
  (l := [(9223372036854775807, [3]), (9223372036854775808, [1]), (9223372036854775809, [2])])
  (l' := [(9223372036854775807, [3]), (9223372036854775808, [1]), (9223372036854775809, [2]), (9223372036854775810, [4])]) (by decide +kernel)
example := around_queue (cs := demoQ) (qk := [81]) (op := .pop .head) (r := .ok (.elem (some (9223372036854775807, [3]))))
  (l := [(9223372036854775807, [3]), (9223372036854775808, [1]), (9223372036854775809, [2])])
  (l' := [(9223372036854775808, [1]), (9223372036854775809, [2])]) (by decide +kernel)
example := around_queue (cs := demoQ) (qk := [81]) (op := .pop .tail) (r := .ok (.elem (some (9223372036854775809, [2]))))
  (l := [(9223372036854775807, [3]), (9223372036854775808, [1]), (9223372036854775809, [2])])
  (l' := [(9223372036854775807, [3]), (9223372036854775808, [1])]) (by decide +kernel)
example := around_queue (cs := demoQ) (qk := [81]) (op := .remove 9223372036854775808) (r := .ok (.val (some [1])))
  (l := [(9223372036854775807, [3]), (9223372036854775808, [1]), (9223372036854775809, [2])])
  (l' := [(9223372036854775807, [3]), (9223372036854775809, [2])]) (by decide +kernel)
example := around_queue (cs := demoQ) (qk := [81]) (op := .extend [[5], [6]]) (r := .ok (.range (9223372036854775810, 9223372036854775812)))
  (l := [(9223372036854775807, [3]), (9223372036854775808, [1]), (9223372036854775809, [2])])
  (l' := [(9223372036854775807, [3]), (9223372036854775808, [1]), (9223372036854775809, [2]), (9223372036854775810, [5]), (9223372036854775811, [6])])
  (by decide +kernel)
example := around_queue (cs := demoQ) (qk := [81]) (op := .len) (r := .ok (.num 3))
  (l := [(9223372036854775807, [3]), (9223372036854775808, [1]), (9223372036854775809, [2])])
  (l' := [(9223372036854775807, [3]), (9223372036854775808, [1]), (9223372036854775809, [2])]) (by decide +kernel)
example := around_queue (cs := demoQ) (qk := [81]) (op := .range) (r := .ok (.range (9223372036854775807, 9223372036854775810)))
  (l := [(9223372036854775807, [3]), (9223372036854775808, [1]), (9223372036854775809, [2])])
  (l' := [(9223372036854775807, [3]), (9223372036854775808, [1]), (9223372036854775809, [2])]) (by decide +kernel)
example := around_queue (cs := demoQ) (qk := [81]) (op := .discard) (r := .ok (.flag true))
  (l := [(9223372036854775807, [3]), (9223372036854775808, [1]), (9223372036854775809, [2])]) (l' := []) (by decide +kernel)
example : NoQRemove [81] (hist demoQ) ∧ NoFailedQueue [81] (hist demoQ) := by
  refine ⟨?_, fun op => ⟨?_, by simp [hist]⟩⟩
  · intro e hm i
    simp only [hist, demoQ, List.map_cons, List.map_nil, List.mem_cons, List.not_mem_nil, or_false] at hm
    rcases hm with rfl | rfl | rfl <;> simp [Event.begun]
  · intro r hm
    simp only [hist, demoQ, List.map_cons, List.map_nil, List.mem_cons, List.not_mem_nil, or_false, Event.call.injEq] at hm
    rcases hm with h | h | h <;> exact ⟨_, h.2⟩
/-- A big value is stored, replaced, read and removed. -/
example := checkHist_reachable (cfg := runCfg) (cs := [(.queue [66] (.setBig [1, 2, 3]), .ok (.flag false)), (.queue [66] (.setBig [4, 5]), .ok (.flag true)),
  (.queue [66] .getBig, .ok (.val (some [4, 5]))), (.queue [66] .removeBig, .ok (.flag true)), (.queue [66] .getBig, .ok (.val none))]) (by decide +kernel)

end Candy.Props
