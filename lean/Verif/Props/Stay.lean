import Verif.Props.Origin
import Verif.Proofs.QueueStay
/-!
# C71: nothing that stays in a queue is missed
-/
namespace Candy.Props
open Candy.Spec

/-! ## C71 -/

theorem queue_stays {cfg : Cfg} {bs : List Block} {t0 t : Tree} (h : ReachableC cfg bs t0) {qk : Bytes} {L : List (Nat × Bytes)} (hc : Calls cfg t0 (.queue qk (.iter true)) (.ok (.elems L)) t)
    {tr : List CEvent} {S : FState} (hr : FineRun cfg (FState.idle t) tr S) {K : List (Nat × Bytes)} (hK : K.Sublist L) (hs : StaysQ qk K tr) :
    K.Pairwise (fun a b => a.1 < b.1) ∧ (K ≠ [] → ∀ i c r, CEvent.ret i c (.ok r) ∈ tr → ShowsQ qk (elemsAt K) c r) := by
  obtain ⟨p, hx, hp⟩ := hc
  obtain ⟨hok, hx'⟩ := hx.sim h.sane.ok
  have ht : (Call.prog cfg (.queue qk (.iter true))).Types cfg (Frozen (t0.get cfg)) True (fun r => ∀ l, r = .elems l → l.Pairwise (fun a b => a.1 < b.1) ∧
      ∀ x ∈ l, (∃ b, t0.get cfg (queueKey qk) = some b ∧ metaHead b ≤ x.1 ∧ x.1 < metaTail b) ∧ t0.get cfg (qitemKey qk x.1) = some x.2) :=
    types_tag (frozen_iter h.shape) (fun l hl l' e => by cases e; exact hl)
  obtain ⟨g1, g2⟩ := ht.exec frozen_of hx'
  have hm : t.get cfg = t0.get cfg := Frozen.eq g1
  obtain ⟨s1, s2⟩ := (show ∀ l, Resp.elems L = .elems l → _ from g2.result hp) L rfl
  have hsort : K.Pairwise (fun a b => a.1 < b.1) := List.Pairwise.sublist hK s1
  refine ⟨hsort, fun hne i c r hret => ?_⟩
  have hin : Typing.Of (QT cfg qk (elemsAt K)) (t.get cfg) := by
    rw [hm]
    refine fun k => ⟨h.shape k, fun e j v hj => ?_, fun j v _ hj e => ?_⟩
    · obtain ⟨⟨b, b1, b2⟩, _⟩ := s2 _ (hK.mem ((elemsAt_some hsort).1 hj))
      exact ⟨b, by rw [e]; exact b1, b2⟩
    · rw [e]
      exact (s2 _ (hK.mem ((elemsAt_some hsort).1 hj))).2
  have hex : ∃ i v, elemsAt K i = some v := by
    cases K with
    | nil => exact absurd rfl hne
    | cons x K => exact ⟨x.1, x.2, (elemsAt_some hsort).2 List.mem_cons_self⟩
  obtain ⟨A, pen, led, ha, _⟩ := hr.sim (Sim.idle hok)
  rcases ha.typesD hin (fun i c p e => by cases e) (fun i c hi => qtd_call hex c (fun j v hj => hs.remove _ ((elemsAt_some hsort).1 hj) i c hi)) with ⟨_, g⟩ | ⟨j, d, ⟨pos, rfl⟩, g⟩
  · exact g i c _ hret
  · exfalso
    rcases g with ⟨r', h1, h2⟩ | ⟨p', h1⟩
    · obtain ⟨o, rfl, h3⟩ := hs.pop j pos r' h1
      obtain ⟨_, o', _, e, a, v, e2, hv⟩ := (show TakesQ qk _ _ _ from h2)
      cases e
      exact h3 _ e2 ((elemsAt_some hsort).1 hv)
    · rcases ha.pending h1 with ⟨⟨p0, h2⟩, _⟩ | ⟨pre, post, e, h3⟩
      · cases h2
      · obtain ⟨r', h4⟩ := hs.done pre j pos post e
        exact h3 _ _ h4

/-- **C71**. After any life of the store, `iter_queue` returns the elements `L`. Then any number of threads make calls of any kind on any keys, lists and queues, in any interleaving of their memory
accesses; the elements `K` among `L` are not taken out of the queue meanwhile (no call removes one of them or discards the queue, and all pops return something else). Then every iteration
over the queue, forwards or backwards, whenever it begins and ends, shows every one of the elements `K`, once, with its value and in order (among whatever else it shows): iteration misses no
element that stays. -/
theorem C71_iteration_complete {cfg : Cfg} {bs : List Block} {t0 t : Tree} (h : ReachableC cfg bs t0) {qk : Bytes} {L : List (Nat × Bytes)}
    (hc : Calls cfg t0 (.queue qk (.iter true)) (.ok (.elems L)) t) {tr : List CEvent} {S : FState} (hr : FineRun cfg (FState.idle t) tr S) {K : List (Nat × Bytes)} (hK : K.Sublist L)
    (hs : StaysQ qk K tr) {i : Nat} {fwd : Bool} {l : List (Nat × Bytes)} (hret : CEvent.ret i (.queue qk (.iter fwd)) (.ok (.elems l)) ∈ tr) :
    l.filter (fun x => x.1 ∈ K.map Prod.fst) = if fwd then K else K.reverse := by
  obtain ⟨h1, h2⟩ := queue_stays h hc hr hK hs
  by_cases hne : K = []
  · subst hne; cases fwd <;> simp
  · obtain ⟨a, b, h3, h4⟩ := (h2 hne _ _ _ hret).1 fwd l rfl rfl
    rw [← staying_eq h1 h3, ← h4]
    refine List.filter_congr (fun x _ => ?_)
    rw [elemsAt_isSome]

/-- **C71** for `get_big`: the pieces that stay are all there, in order. -/
theorem C71_big_complete {cfg : Cfg} {bs : List Block} {t0 t : Tree} (h : ReachableC cfg bs t0) {qk : Bytes} {L : List (Nat × Bytes)}
    (hc : Calls cfg t0 (.queue qk (.iter true)) (.ok (.elems L)) t) {tr : List CEvent} {S : FState} (hr : FineRun cfg (FState.idle t) tr S) {K : List (Nat × Bytes)} (hK : K.Sublist L)
    (hne : K ≠ []) (hs : StaysQ qk K tr) {i : Nat} {o : Option Bytes} (hret : CEvent.ret i (.queue qk .getBig) (.ok (.val o)) ∈ tr) :
    ∃ l : List (Nat × Bytes), o = some (l.map Prod.snd).flatten ∧ l.filter (fun x => x.1 ∈ K.map Prod.fst) = K := by
  obtain ⟨h1, h2⟩ := queue_stays h hc hr hK hs
  obtain ⟨l, e, a, b, h3, h4⟩ := (h2 hne _ _ _ hret).2.2.2.2 o rfl rfl
  have h5 : l.filter (fun x => x.1 ∈ K.map Prod.fst) = K := by
    refine Eq.trans (Eq.trans (List.filter_congr (fun x _ => ?_)) h4) (staying_eq h1 h3)
    rw [elemsAt_isSome]
  refine ⟨l, ?_, h5⟩
  rw [e, if_neg]
  intro e
  subst e
  exact hne h5.symm

/-- **C71** for `peek_queue_head` (`fwd`) and `peek_queue_tail`: while an element stays, they return something: this element or one nearer to the end in question. -/
theorem C71_peek_complete {cfg : Cfg} {bs : List Block} {t0 t : Tree} (h : ReachableC cfg bs t0) {qk : Bytes} {L : List (Nat × Bytes)}
    (hc : Calls cfg t0 (.queue qk (.iter true)) (.ok (.elems L)) t) {tr : List CEvent} {S : FState} (hr : FineRun cfg (FState.idle t) tr S) {K : List (Nat × Bytes)} (hK : K.Sublist L)
    (hs : StaysQ qk K tr) {i : Nat} {fwd : Bool} {o : Option (Nat × Bytes)} (hret : CEvent.ret i (.queue qk (.peek fwd)) (.ok (.elem o)) ∈ tr) :
    ∀ x ∈ K, ∃ y, o = some y ∧ (if fwd then y.1 ≤ x.1 else x.1 ≤ y.1) ∧ (y.1 = x.1 → y = x) := by
  obtain ⟨h1, h2⟩ := queue_stays h hc hr hK hs
  intro x hx
  obtain ⟨y, e1, e2, e3⟩ := (h2 (List.ne_nil_of_mem hx) _ _ _ hret).2.1 fwd o rfl rfl x.1 x.2 ((elemsAt_some h1).2 hx)
  exact ⟨y, e1, e2, fun e => Prod.ext e (e3 e)⟩

/-- **C71** for `pop_queue_head` and `pop_queue_tail`: while an element stays, they return something, nearer to the end in question. -/
theorem C71_pop_complete {cfg : Cfg} {bs : List Block} {t0 t : Tree} (h : ReachableC cfg bs t0) {qk : Bytes} {L : List (Nat × Bytes)}
    (hc : Calls cfg t0 (.queue qk (.iter true)) (.ok (.elems L)) t) {tr : List CEvent} {S : FState} (hr : FineRun cfg (FState.idle t) tr S) {K : List (Nat × Bytes)} (hK : K.Sublist L)
    (hs : StaysQ qk K tr) {i : Nat} {pos : QPos} {o : Option (Nat × Bytes)} (hret : CEvent.ret i (.queue qk (.pop pos)) (.ok (.elem o)) ∈ tr) :
    ∀ x ∈ K, ∃ y, o = some y ∧ (if pos = .head then y.1 < x.1 else x.1 < y.1) := by
  obtain ⟨h1, h2⟩ := queue_stays h hc hr hK hs
  intro x hx
  obtain ⟨y, e1, _, e3⟩ := (h2 (List.ne_nil_of_mem hx) _ _ _ hret).2.2.1 pos o rfl rfl x.1 x.2 ((elemsAt_some h1).2 hx)
  exact ⟨y, e1, by cases pos <;> exact e3⟩

/-- **C71** for `queue_range`: it covers the indices of the elements that stay. -/
theorem C71_range_complete {cfg : Cfg} {bs : List Block} {t0 t : Tree} (h : ReachableC cfg bs t0) {qk : Bytes} {L : List (Nat × Bytes)}
    (hc : Calls cfg t0 (.queue qk (.iter true)) (.ok (.elems L)) t) {tr : List CEvent} {S : FState} (hr : FineRun cfg (FState.idle t) tr S) {K : List (Nat × Bytes)} (hK : K.Sublist L)
    (hs : StaysQ qk K tr) {i a b : Nat} (hret : CEvent.ret i (.queue qk .range) (.ok (.range (a, b))) ∈ tr) : ∀ x ∈ K, a ≤ x.1 ∧ x.1 < b := by
  obtain ⟨h1, h2⟩ := queue_stays h hc hr hK hs
  intro x hx
  exact (h2 (List.ne_nil_of_mem hx) _ _ _ hret).2.2.2.1 a b rfl rfl x.1 x.2 ((elemsAt_some h1).2 hx)

/-! ### The hypotheses are met -/

/-- A queue with three elements. -/
def stayBefore : List (Call × Res Resp) := [(.queue [81] (.extend [[1], [2], [3]]), .ok (.range (FIRST_IDX, FIRST_IDX + 3)))]
def stayAll : List (Nat × Bytes) := [(FIRST_IDX, [1]), (FIRST_IDX + 1, [2]), (FIRST_IDX + 2, [3])]

/-- Thread 0 begins to iterate; thread 1 pops the first element; thread 2 pushes a fourth; thread 0 goes on; thread 1 iterates backwards. -/
def staySched : List FCmd := [.go 0 (.queue [81] (.iter true)), .step 0 37, .go 1 (.queue [81] (.pop .head)), .step 1 125, .fin 1 (.ok (.elem (some (FIRST_IDX, [1])))),
  .go 2 (.queue [81] (.push .tail [4])), .step 2 658, .fin 2 (.ok (.num (FIRST_IDX + 3))), .go 1 (.queue [81] (.iter false)), .step 0 632,
  .fin 0 (.ok (.elems [(FIRST_IDX + 1, [2]), (FIRST_IDX + 2, [3])])), .step 1 135, .fin 1 (.ok (.elems [(FIRST_IDX + 3, [4]), (FIRST_IDX + 2, [3]), (FIRST_IDX + 1, [2])]))]

def stayTrace : List CEvent := [.inv 0 (.queue [81] (.iter true)), .inv 1 (.queue [81] (.pop .head)), .ret 1 (.queue [81] (.pop .head)) (.ok (.elem (some (FIRST_IDX, [1])))),
  .inv 2 (.queue [81] (.push .tail [4])), .ret 2 (.queue [81] (.push .tail [4])) (.ok (.num (FIRST_IDX + 3))), .inv 1 (.queue [81] (.iter false)),
  .ret 0 (.queue [81] (.iter true)) (.ok (.elems [(FIRST_IDX + 1, [2]), (FIRST_IDX + 2, [3])])),
  .ret 1 (.queue [81] (.iter false)) (.ok (.elems [(FIRST_IDX + 3, [4]), (FIRST_IDX + 2, [3]), (FIRST_IDX + 1, [2])]))]

set_option maxRecDepth 100000 in
theorem stay_demo : checkF fineCfg (stayBefore ++ [(.queue [81] (.iter true), .ok (.elems stayAll))]) 3 staySched = true := by decide +kernel

theorem CExec.after {cfg : Cfg} {t t' : Tree} {p p' : Prog Resp} (h : CExec cfg Tree.Small t p t' p') {t'' : Tree} {p'' : Prog Resp} (h' : CExec cfg Tree.Small t' p' t'' p'') :
    CExec cfg Tree.Small t p t'' p'' := by
  induction h with
  | refl => exact h'
  | step a b _ ih => exact .step a b (ih h')
  | bg s a b _ ih => exact .bg s a b (ih h')

theorem run_nil {cfg : Cfg} {t t' : Tree} (h : Run cfg t [] t') (p : Prog Resp) : CExec cfg Tree.Small t p t' p := by
  generalize e : ([] : List Event) = l at h
  induction h with
  | nil => exact .refl _ _
  | bg s a b _ ih => exact .bg s a b (ih e)
  | call | merge | clear | reopen | crash => cases e

/-- The last call of a history. -/
theorem lastCall {cfg : Cfg} {cs : List (Call × Res Resp)} {c : Call} {r : Res Resp} {t : Tree} (h : Reachable cfg (hist (cs ++ [(c, r)])) t) :
    ∃ t1, ReachableC cfg [.seq (hist cs)] t1 ∧ Calls cfg t1 c r t := by
  obtain ⟨t0, h0, h1⟩ := h
  rw [show hist (cs ++ [(c, r)]) = hist cs ++ [.call c r] by simp [hist]] at h1
  obtain ⟨t1, h2, h3⟩ := h1.split
  obtain ⟨t2, ⟨p, h4, h5⟩, hne, h6⟩ := h3.cons_call
  exact ⟨t1, ⟨t0, h0, .seq h2 (.nil _)⟩, p, CExec.after h4 (run_nil h6 p), h5⟩

/-- The second and third elements stay. -/
example : ∃ t0 t S, ReachableC fineCfg [.seq (hist stayBefore)] t0 ∧ Calls fineCfg t0 (.queue [81] (.iter true)) (.ok (.elems stayAll)) t ∧ FineRun fineCfg (FState.idle t) stayTrace S ∧
    List.Sublist [(FIRST_IDX + 1, [2]), (FIRST_IDX + 2, [3])] stayAll ∧ StaysQ [81] [(FIRST_IDX + 1, [2]), (FIRST_IDX + 2, [3])] stayTrace := by
  obtain ⟨t, S, h1, h2⟩ := checkF_sound stay_demo
  obtain ⟨t0, h3, h4⟩ := lastCall h1
  refine ⟨t0, t, S, h3, h4, h2, .cons _ (List.Sublist.refl _), fun x _ i c hi => ?_, fun i pos r hm => ?_, fun pre i pos post e => ?_⟩
  · simp only [stayTrace, List.mem_cons, CEvent.inv.injEq, reduceCtorEq, List.not_mem_nil, or_false, false_or] at hi
    rcases hi with ⟨_, rfl⟩ | ⟨_, rfl⟩ | ⟨_, rfl⟩ | ⟨_, rfl⟩ <;> (rintro (h | ⟨_, h⟩ | h | ⟨_, h, _⟩) <;> cases h)
  · simp only [stayTrace, List.mem_cons, CEvent.ret.injEq, reduceCtorEq, List.not_mem_nil, or_false, false_or, Call.queue.injEq, true_and, false_and, and_false] at hm
    obtain ⟨_, _, rfl⟩ := hm
    refine ⟨_, rfl, fun x hx => ?_⟩
    cases hx
    simp
  · have hpost : pre = stayTrace.take 1 ∧ i = 1 ∧ pos = .head ∧ post = stayTrace.drop 2 := by
      unfold stayTrace at e
      rcases pre with _ | ⟨a, pre⟩
      · simp at e
      rcases pre with _ | ⟨b, pre⟩
      · simp only [List.cons_append, List.nil_append, List.cons.injEq, CEvent.inv.injEq, Call.queue.injEq, QOp.pop.injEq, true_and] at e
        obtain ⟨rfl, ⟨rfl, rfl⟩, rfl⟩ := e
        exact ⟨rfl, rfl, rfl, rfl⟩
      · exfalso
        simp only [List.cons_append, List.cons.injEq] at e
        have : CEvent.inv i (.queue [81] (.pop pos)) ∈ stayTrace.drop 2 := by
          show _ ∈ [_, _, _, _, _, _]
          rw [e.2.2]
          simp
        simp [stayTrace] at this
    obtain ⟨_, rfl, rfl, rfl⟩ := hpost
    exact ⟨_, List.mem_cons_self⟩

end Candy.Props
