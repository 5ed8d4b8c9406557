import Verif.Props.Stay
import Verif.Proofs.ListKeep
/-!
# C72: nothing that stays in a list is missed
-/
namespace Candy.Props
open Candy.Spec

/-! ## C72 -/

theorem filter_sublist {K M : List Bytes} (h : K.Sublist M) (hn : M.Nodup) : M.filter (fun k => decide (k ∈ K)) = K := by
  induction h with
  | slnil => rfl
  | @cons K M a h ih =>
    obtain ⟨h1, h2⟩ := List.nodup_cons.1 hn
    rw [List.filter_cons_of_neg (by simp; exact fun e => h1 (h.mem e)), ih h2]
  | @cons_cons K M a h ih =>
    obtain ⟨h1, h2⟩ := List.nodup_cons.1 hn
    rw [List.filter_cons_of_pos (by simp)]
    congr 1
    refine Eq.trans (List.filter_congr (fun x hx => ?_)) (ih h2)
    have : x ≠ a := fun e => h1 (e ▸ hx)
    simp [this]

/-- The permitted values of the items: those they have and those they are given. -/
def ValOf (lk : Bytes) (L : OList) (tr : List CEvent) (ik v : Bytes) : Prop := (ik, v) ∈ L ∨ ∃ j c, CEvent.inv j c ∈ tr ∧ c.putsItem lk ik v

theorem list_stays {cfg : Cfg} {bs : List Block} {t0 t : Tree} (h : ReachableC cfg bs t0) {lk : Bytes} {L : OList} (hc : Calls cfg t0 (.list lk (.iter true)) (.ok (.items L)) t)
    {tr : List CEvent} {S : FState} (hr : FineRun cfg (FState.idle t) tr S) (hlk : IntactList cfg lk (bs ++ [.conc tr])) {K : List Bytes} (hK : K.Sublist (L.map Prod.fst))
    (hs : StaysL lk K tr) (hcomp : ∀ i par, CEvent.inv i (.list lk (.compact par)) ∉ tr) :
    ∃ P : List (Nat × Bytes), P.map Prod.snd = K ∧ P.Pairwise (fun a b => a.1 < b.1) ∧ Tells (fun k => decide (k ∈ K)) (elemsAt P) ∧
      (K ≠ [] → ∀ i c r, CEvent.ret i c (.ok r) ∈ tr → ShowsL lk (fun k => decide (k ∈ K)) (elemsAt P) (ValOf lk L tr) c r) := by
  obtain ⟨bs', es, w, h1, h2, h3, h4, h5⟩ := h.inParts
  have hor : Orderly cfg lk es := IntactList.orderly (IntactList.parts (fun b hb => hlk b (List.mem_append_left _ hb)) h1) h2
  obtain ⟨s, hw, _⟩ := specRun_list h3 (lk := lk) LState.new rfl hor
  obtain ⟨p, hx, hp⟩ := hc
  obtain ⟨hok, hx'⟩ := hx.sim h.sane.ok
  obtain ⟨w', ⟨x, hst, rfl⟩, hm⟩ := call_refines _ h5 hx' hp (by simp)
  rw [hw] at hst
  obtain ⟨s', ⟨⟨e1, e2⟩, _⟩, rfl⟩ := hst
  injection e2 with e2
  have e2 : L = s.items := e2
  obtain ⟨μ, E, hE, hvis, _⟩ := hm.lists lk s' (by simp [useList])
  rw [e1, ← e2] at hvis
  have hsh : (Shape cfg).Of (t.get cfg) := (types_call (Pan := True) (.list lk (.iter true)) (fun _ => trivial) |>.exec h.shape hx').1
  -- the entries
  have huniq : ∀ e ∈ E, ∀ e' ∈ E, e.1 = e'.1 → e = e' := fun e he e' he' hee => by
    have := hE.items.sorted
    rcases List.mem_iff_getElem.1 he with ⟨a, ha, rfl⟩
    rcases List.mem_iff_getElem.1 he' with ⟨b, hb, rfl⟩
    rcases Nat.lt_trichotomy a b with hab | rfl | hab
    · have := List.pairwise_iff_getElem.1 this a b ha hb hab; omega
    · rfl
    · have := List.pairwise_iff_getElem.1 this b a hb ha hab; omega
  have hkey : ∀ e ∈ E, ∀ e' ∈ E, e.2.1 = e'.2.1 → e = e' := fun e he e' he' hee => by
    have a1 := hE.items.item e he
    rw [hee, hE.items.item e' he'] at a1
    injection a1 with a1
    exact (huniq e' he' e he (enc64_inj (hE.items.lt _ he') (hE.items.lt _ he) (List.append_inj' a1 (by simp)).2)).symm
  have hnd : (L.map Prod.fst).Nodup := by
    rw [← hvis]
    unfold vis
    rw [List.map_map]
    refine List.nodup_iff_pairwise_ne.2 (List.pairwise_map.2 (List.Pairwise.imp_of_mem (fun {a b} ha hb hab e => ?_) hE.items.sorted))
    have := hkey a ha b hb e
    subst this
    omega
  have hPs : ((E.filter (fun e => decide (e.2.1 ∈ K))).map (fun e => (e.1, e.2.1))).Pairwise (fun a b => a.1 < b.1) :=
    List.pairwise_map.2 (hE.items.sorted.sublist List.filter_sublist)
  have hPk : ((E.filter (fun e => decide (e.2.1 ∈ K))).map (fun e => (e.1, e.2.1))).map Prod.snd = K := by
    have a1 := filter_sublist hK hnd
    rw [← hvis] at a1
    unfold vis at a1
    rw [List.map_map, List.filter_map] at a1
    rw [List.map_map]
    exact a1
  have hat : ∀ i ik, elemsAt ((E.filter (fun e => decide (e.2.1 ∈ K))).map (fun e => (e.1, e.2.1))) i = some ik ↔ ∃ e ∈ E, e.1 = i ∧ e.2.1 = ik ∧ ik ∈ K := by
    intro i ik
    rw [elemsAt_some hPs, List.mem_map]
    constructor
    · rintro ⟨e, he, e1⟩
      obtain ⟨g1, g2⟩ := List.mem_filter.1 he
      simp only [Prod.mk.injEq] at e1
      exact ⟨e, g1, e1.1, e1.2, by rw [← e1.2]; exact of_decide_eq_true g2⟩
    · rintro ⟨e, g1, rfl, rfl, g2⟩
      exact ⟨e, List.mem_filter.2 ⟨g1, decide_eq_true g2⟩, rfl⟩
  have htells : Tells (fun k => decide (k ∈ K)) (elemsAt ((E.filter (fun e => decide (e.2.1 ∈ K))).map (fun e => (e.1, e.2.1)))) := by
    intro ik
    constructor
    · intro hk
      have hk := of_decide_eq_true hk
      have := hK.mem hk
      rw [← hvis] at this
      unfold vis at this
      rw [List.map_map] at this
      obtain ⟨e, g1, g2⟩ := List.mem_map.1 this
      exact ⟨e.1, (hat _ _).2 ⟨e, g1, rfl, g2, hk⟩⟩
    · rintro ⟨i, hi⟩
      obtain ⟨_, _, _, _, hk⟩ := (hat _ _).1 hi
      exact decide_eq_true hk
  refine ⟨_, hPk, hPs, htells, fun hne i c r hret => ?_⟩
  generalize elemsAt ((E.filter (fun e => decide (e.2.1 ∈ K))).map (fun e => (e.1, e.2.1))) = sf at hat htells ⊢
  have hin : Typing.Of (LT cfg lk sf (ValOf lk L tr)) (t.get cfg) := by
    intro k
    refine ⟨hsh k, fun e i ik hi => ?_, fun i ik hlt hi e => ?_, fun ik e => ⟨fun i hi => ?_, fun u j hj hu ik' hik => ?_⟩⟩
    · obtain ⟨e0, g1, rfl, _, _⟩ := (hat _ _).1 hi
      cases hμ : μ with
      | none => rw [hE.nil hμ] at g1; cases g1
      | some q =>
        obtain ⟨b1, b2⟩ := hE.bnd q hμ e0 g1
        have ht := hE.tail_lt q hμ
        refine ⟨encMeta q.head q.tail q.num, by rw [e, hE.record, hμ]; rfl, ?_⟩
        rw [metaHead_enc (by omega), metaTail_enc ht]
        exact ⟨b1, b2⟩
    · obtain ⟨e0, g1, rfl, rfl, _⟩ := (hat _ _).1 hi
      rw [e]
      exact hE.items.chain e0 g1
    · obtain ⟨e0, g1, rfl, rfl, _⟩ := (hat _ _).1 hi
      refine ⟨e0.2.2, .inl ?_, by rw [e]; exact hE.items.item e0 g1⟩
      rw [← hvis]
      exact List.mem_map.2 ⟨e0, g1, rfl⟩
    · rw [e] at hu
      obtain ⟨e1, g1, rfl⟩ := hE.items.only ik _ hu
      rw [hE.items.item e1 g1] at hu
      injection hu with hu
      have hj' := enc64_inj (hE.items.lt _ g1) hj (List.append_inj' hu (by simp)).2
      obtain ⟨e2, g2, e3, rfl, _⟩ := (hat _ _).1 hik
      rw [huniq e2 g2 e1 g1 (by omega)]
  have hlt : ∀ i ik, sf i = some ik → i < U64 := fun i ik hi => by
    obtain ⟨e0, g1, rfl, _⟩ := (hat _ _).1 hi
    exact hE.items.lt _ g1
  have hex : ∃ i ik, sf i = some ik := by
    cases K with
    | nil => exact absurd rfl hne
    | cons x K => obtain ⟨i, hi⟩ := (htells x).1 (by simp); exact ⟨i, x, hi⟩
  have hmem : ∀ i ik, sf i = some ik → ik ∈ K := fun i ik hi => by
    obtain ⟨_, _, _, _, hk⟩ := (hat _ _).1 hi
    exact hk
  obtain ⟨A, pen, led, ha, _⟩ := hr.sim (Sim.idle hok)
  rcases ha.typesD (D := fun c => ∃ fwd, c = .list lk (.pop fwd)) hin (fun i c p e => by cases e) (fun i c hi => ltd_call htells hlt hex c (fun j ik hj => hs.remove ik (hmem _ _ hj) i c hi)
    (fun par e => hcomp i par (e ▸ hi)) (fun lk' op e => (hlk (.conc tr) (List.mem_append_right _ (List.mem_singleton.2 rfl))).1 lk' op ⟨i, e ▸ hi⟩)
    (fun ik v hp => .inr ⟨i, c, hi, hp⟩)) with ⟨_, g⟩ | ⟨j, d, ⟨fwd, rfl⟩, g⟩
  · exact g i c _ hret
  · exfalso
    rcases g with ⟨r', h1, h2⟩ | ⟨p', h1⟩
    · obtain ⟨o, rfl, h3⟩ := hs.pop j fwd r' h1
      obtain ⟨_, o', _, e, kv, a, e2, hv⟩ := (show TakesItem lk _ _ _ from h2)
      cases e
      exact h3 _ e2 (hmem _ _ hv)
    · rcases ha.pending h1 with ⟨⟨p0, h2⟩, _⟩ | ⟨pre, post, e, h3⟩
      · cases h2
      · obtain ⟨r', h4⟩ := hs.done pre j fwd post e
        exact h3 _ _ h4

theorem filterMap_staying (e : Nat → Option Bytes) (is : List Nat) : is.filterMap e = (staying e is).map Prod.snd := by
  unfold staying
  rw [List.map_filterMap]
  refine congrArg (fun f => List.filterMap f is) (funext (fun i => ?_))
  cases e i <;> rfl

theorem filterMap_elemsAt {P : List (Nat × Bytes)} (h : P.Pairwise (fun a b => a.1 < b.1)) {a b : Nat} (hc : ∀ i v, elemsAt P i = some v → a ≤ i ∧ i < b) {fwd : Bool} :
    (idxs fwd a b).filterMap (elemsAt P) = if fwd then P.map Prod.snd else (P.map Prod.snd).reverse := by
  rw [filterMap_staying, staying_eq h hc]
  cases fwd <;> simp

/-- **C72**. After any life of the store in which nothing has gone wrong with list `lk`, `iter_list` returns the items `L`. Then any number of threads make calls of any kind on any keys, lists and
queues (except compacting this list), in any interleaving of their memory accesses; the items with the keys `K` are not taken out of the list meanwhile (no call removes one of them, promotes one or
discards the list, and all pops return something else). Then every iteration over the list, forwards or backwards, whenever it begins and ends, shows every one of these items, once, in
order (among whatever else it shows), and each with a value it had at the beginning or was given meanwhile: iteration misses no item that stays. -/
theorem C72_iteration_complete {cfg : Cfg} {bs : List Block} {t0 t : Tree} (h : ReachableC cfg bs t0) {lk : Bytes} {L : OList} (hc : Calls cfg t0 (.list lk (.iter true)) (.ok (.items L)) t)
    {tr : List CEvent} {S : FState} (hr : FineRun cfg (FState.idle t) tr S) (hlk : IntactList cfg lk (bs ++ [.conc tr])) {K : List Bytes} (hK : K.Sublist (L.map Prod.fst))
    (hs : StaysL lk K tr) (hcomp : ∀ i par, CEvent.inv i (.list lk (.compact par)) ∉ tr) {i : Nat} {fwd : Bool} {l : OList} (hret : CEvent.ret i (.list lk (.iter fwd)) (.ok (.items l)) ∈ tr) :
    (l.map Prod.fst).filter (fun k => k ∈ K) = (if fwd then K else K.reverse) ∧
      ∀ kv ∈ l, kv.1 ∈ K → kv ∈ L ∨ ∃ j c, CEvent.inv j c ∈ tr ∧ c.putsItem lk kv.1 kv.2 := by
  obtain ⟨P, rfl, h1, h2, h3⟩ := list_stays h hc hr hlk hK hs hcomp
  by_cases hne : P.map Prod.snd = []
  · rw [hne]; cases fwd <;> simp
  · obtain ⟨⟨a, b, h4, h5⟩, h6⟩ := (h3 hne _ _ _ hret).1 fwd l rfl rfl
    rw [filterMap_elemsAt h1 h4] at h5
    exact ⟨h5, fun kv hkv hk => h6 kv hkv (decide_eq_true hk)⟩

/-- **C72** for `peek_list_head` (`fwd`) and `peek_list_tail`: while there are items that stay, they return an item, and if it is one that stays, it is the first (last) of them. -/
theorem C72_peek_complete {cfg : Cfg} {bs : List Block} {t0 t : Tree} (h : ReachableC cfg bs t0) {lk : Bytes} {L : OList} (hc : Calls cfg t0 (.list lk (.iter true)) (.ok (.items L)) t)
    {tr : List CEvent} {S : FState} (hr : FineRun cfg (FState.idle t) tr S) (hlk : IntactList cfg lk (bs ++ [.conc tr])) {K : List Bytes} (hK : K.Sublist (L.map Prod.fst))
    (hne : K ≠ []) (hs : StaysL lk K tr) (hcomp : ∀ i par, CEvent.inv i (.list lk (.compact par)) ∉ tr) {i : Nat} {fwd : Bool} {o : Option KV}
    (hret : CEvent.ret i (.list lk (.peek fwd)) (.ok (.item o)) ∈ tr) :
    ∃ kv, o = some kv ∧ (kv.1 ∈ K → some kv.1 = (if fwd then K.head? else K.getLast?) ∧ (kv ∈ L ∨ ∃ j c, CEvent.inv j c ∈ tr ∧ c.putsItem lk kv.1 kv.2)) := by
  obtain ⟨P, rfl, h1, h2, h3⟩ := list_stays h hc hr hlk hK hs hcomp
  obtain ⟨a, b, h4, h5⟩ := (h3 hne _ _ _ hret).2.1 fwd o rfl rfl
  have e : ((idxs fwd a b).filterMap (elemsAt P)).head? = if fwd then (P.map Prod.snd).head? else (P.map Prod.snd).getLast? := by
    rw [filterMap_elemsAt h1 h4]
    cases fwd <;> simp
  have hsome : ∃ ik, ((idxs fwd a b).filterMap (elemsAt P)).head? = some ik := by
    rw [e]
    cases fwd with
    | true => exact ⟨_, List.head?_eq_some_head hne⟩
    | false => exact ⟨_, List.getLast?_eq_some_getLast hne⟩
  obtain ⟨ik, hik⟩ := hsome
  obtain ⟨kv, rfl, h6⟩ := h5 ik hik
  refine ⟨kv, rfl, fun hk => ?_⟩
  rcases h6 with h6 | ⟨rfl, h6⟩
  · obtain ⟨j, hj⟩ := (h2 kv.1).1 (decide_eq_true hk)
    exact absurd hj (h6 j)
  · exact ⟨by rw [← hik, e], h6⟩

/-- **C72** for `pop_list_head` and `pop_list_tail`: while there are items that stay, they return an item. -/
theorem C72_pop_complete {cfg : Cfg} {bs : List Block} {t0 t : Tree} (h : ReachableC cfg bs t0) {lk : Bytes} {L : OList} (hc : Calls cfg t0 (.list lk (.iter true)) (.ok (.items L)) t)
    {tr : List CEvent} {S : FState} (hr : FineRun cfg (FState.idle t) tr S) (hlk : IntactList cfg lk (bs ++ [.conc tr])) {K : List Bytes} (hK : K.Sublist (L.map Prod.fst))
    (hne : K ≠ []) (hs : StaysL lk K tr) (hcomp : ∀ i par, CEvent.inv i (.list lk (.compact par)) ∉ tr) {i : Nat} {fwd : Bool} {o : Option KV}
    (hret : CEvent.ret i (.list lk (.pop fwd)) (.ok (.item o)) ∈ tr) : ∃ kv, o = some kv ∧ kv.1 ∉ K := by
  obtain ⟨P, rfl, h1, h2, h3⟩ := list_stays h hc hr hlk hK hs hcomp
  cases hK' : P.map Prod.snd with
  | nil => exact absurd hK' hne
  | cons x Q =>
    obtain ⟨j, hj⟩ := (h2 x).1 (by simp [hK'])
    obtain ⟨kv, rfl, hf⟩ := (h3 hne _ _ _ hret).2.2 fwd o rfl rfl j x hj
    rw [← hK']
    refine ⟨kv, rfl, fun hk => ?_⟩
    obtain ⟨j, hj⟩ := (h2 kv.1).1 (decide_eq_true hk)
    exact hf j hj

/-- **C72** for `get_from_list`, also during compactions of the list and after whatever has happened to it before: `get_from_list` has returned the item's value `v`; while the item stays, every `get_from_list`
of it finds it, with `v` or a value it is given meanwhile. -/
theorem C72_get_complete {cfg : Cfg} {bs : List Block} {t0 t : Tree} (h : ReachableC cfg bs t0) {lk ik v : Bytes} (hc : Calls cfg t0 (.list lk (.get ik)) (.ok (.val (some v))) t)
    {tr : List CEvent} {S : FState} (hr : FineRun cfg (FState.idle t) tr S) (hclash : ∀ i lk' op, CEvent.inv i (.list lk' op) ∈ tr → cfg.listPh lk' = cfg.listPh lk → lk' = lk)
    (hs : StaysL lk [ik] tr) {i : Nat} {o : Option Bytes} (hret : CEvent.ret i (.list lk (.get ik)) (.ok (.val o)) ∈ tr) :
    ∃ u, o = some u ∧ (u = v ∨ ∃ j c, CEvent.inv j c ∈ tr ∧ c.putsItem lk ik u) := by
  obtain ⟨p, hx, hp⟩ := hc
  obtain ⟨hok, hx'⟩ := hx.sim h.sane.ok
  have ht : (Call.prog cfg (.list lk (.get ik))).Types cfg (Frozen (t0.get cfg)) True (fun r => ∀ o, r = .val o → ∀ v, o = some v → ∃ c, c.length = 8 ∧ t0.get cfg (itemKey (cfg.listPh lk) ik) = some (v ++ c)) := by
    refine types_tag (Q := fun o => ∀ v, o = some v → ∃ c, c.length = 8 ∧ t0.get cfg (itemKey (cfg.listPh lk) ik) = some (v ++ c)) ?_ (fun o ho o' e => by cases e; exact ho)
    unfold getFromList
    refine types_getRaw.bind' (fun o ho => ?_)
    cases o with
    | none => intro v e; cases e
    | some b =>
      have hb : some b = t0.get cfg (itemKey (cfg.listPh lk) ik) := ho
      refine (types_splitVal (shape_item.1 (hb ▸ h.shape _))).bind' (fun x hx => ?_)
      obtain ⟨old, suffix⟩ := x
      intro v e
      cases e
      exact ⟨suffix, hx.2, by rw [← hb, show b = old ++ suffix from hx.1]⟩
  obtain ⟨g1, g2⟩ := ht.exec frozen_of hx'
  have hm : t.get cfg = t0.get cfg := Frozen.eq g1
  obtain ⟨c0, hc0, hraw⟩ := (show ∀ o, Resp.val (some v) = .val o → _ from g2.result hp) (some v) rfl v rfl
  have hin : Typing.Of (KT cfg lk ik (fun u => u = v ∨ ∃ j c, CEvent.inv j c ∈ tr ∧ c.putsItem lk ik u)) (t.get cfg) := by
    rw [hm]
    exact fun k => ⟨h.shape k, fun e => ⟨v, c0, hc0, .inl rfl, by rw [e]; exact hraw⟩⟩
  obtain ⟨A, pen, led, ha, _⟩ := hr.sim (Sim.idle hok)
  rcases ha.typesD (D := fun c => ∃ fwd, c = .list lk (.pop fwd)) hin (fun i c p e => by cases e) (fun i c hi => ktd_call c (hs.remove ik (by simp) i c hi)
      (fun lk' op e => hclash i lk' op (e ▸ hi)) (fun v hp => .inr ⟨i, c, hi, hp⟩)) with ⟨_, g⟩ | ⟨j, d, ⟨fwd, rfl⟩, g⟩
  · exact (show ShowsK lk ik _ _ _ from g i _ _ hret) o rfl rfl
  · exfalso
    rcases g with ⟨r', h1, h2⟩ | ⟨p', h1⟩
    · obtain ⟨o, rfl, h3⟩ := hs.pop j fwd r' h1
      obtain ⟨_, kv, _, e, hv⟩ := (show TakesK lk ik _ _ from h2)
      cases e
      exact h3 kv rfl (by rw [hv]; simp)
    · rcases ha.pending h1 with ⟨⟨p0, h2⟩, _⟩ | ⟨pre, post, e, h3⟩
      · cases h2
      · obtain ⟨r', h4⟩ := hs.done pre j fwd post e
        exact h3 _ _ h4

/-! ### The hypotheses are met -/

/-- A list with three items. -/
def keepBefore : List (Call × Res Resp) := [(.list [76] (.set [97] [1]), .ok (.setStatus .createdNew)), (.list [76] (.set [98] [2]), .ok (.setStatus .createdNew)),
  (.list [76] (.set [99] [3]), .ok (.setStatus .createdNew))]
def keepAll : OList := [([97], [1]), ([98], [2]), ([99], [3])]

/-- Thread 0 begins to iterate; thread 1 pops the first item; thread 2 changes the second; thread 1 appends a fourth; thread 0 goes on; thread 1 iterates backwards. -/
def keepSched : List FCmd := [.go 0 (.list [76] (.iter true)), .step 0 71, .go 1 (.list [76] (.pop true)), .step 1 799, .fin 1 (.ok (.item (some ([97], [1])))),
  .go 2 (.list [76] (.set [98] [5])), .step 2 78, .fin 2 (.ok (.setStatus (.prevValue [2]))), .go 1 (.list [76] (.set [100] [4])), .step 1 1760, .fin 1 (.ok (.setStatus .createdNew)),
  .go 1 (.list [76] (.iter false)), .step 0 1739, .fin 0 (.ok (.items [([98], [5]), ([99], [3])])), .step 1 1830, .fin 1 (.ok (.items [([100], [4]), ([99], [3]), ([98], [5])]))]

def keepTrace : List CEvent := [.inv 0 (.list [76] (.iter true)), .inv 1 (.list [76] (.pop true)), .ret 1 (.list [76] (.pop true)) (.ok (.item (some ([97], [1])))),
  .inv 2 (.list [76] (.set [98] [5])), .ret 2 (.list [76] (.set [98] [5])) (.ok (.setStatus (.prevValue [2]))), .inv 1 (.list [76] (.set [100] [4])),
  .ret 1 (.list [76] (.set [100] [4])) (.ok (.setStatus .createdNew)), .inv 1 (.list [76] (.iter false)), .ret 0 (.list [76] (.iter true)) (.ok (.items [([98], [5]), ([99], [3])])),
  .ret 1 (.list [76] (.iter false)) (.ok (.items [([100], [4]), ([99], [3]), ([98], [5])]))]

set_option maxRecDepth 100000 in
theorem keep_demo : checkF fineCfg (keepBefore ++ [(.list [76] (.iter true), .ok (.items keepAll))]) 3 keepSched = true := by decide +kernel

/-- Histories that use only one list, and are cut off in the middle of nothing, leave it intact. -/
theorem intact_hist {cfg : Cfg} {lk : Bytes} {cs : List (Call × Res Resp)} {tr : List CEvent} (h1 : ∀ c r, (c, r) ∈ cs → ∃ op, c = .list lk op) (h2 : ∀ i c, CEvent.inv i c ∈ tr → ∃ op, c = .list lk op) :
    IntactList cfg lk ([.seq (hist cs)] ++ [.conc tr]) := by
  intro b hb
  simp only [List.cons_append, List.nil_append, List.mem_cons, List.not_mem_nil, or_false] at hb
  rcases hb with rfl | rfl
  · refine ⟨?_, fun op hm => ?_⟩
    · rintro lk' op ⟨e, he, hbb⟩ _
      obtain ⟨⟨c, r⟩, hm, rfl⟩ := List.mem_map.1 he
      injection hbb with hbb
      obtain ⟨op', e⟩ := h1 c r hm
      have hbb : c = .list lk' op := hbb
      rw [hbb] at e
      injection e
    · obtain ⟨⟨c, r⟩, hm, e⟩ := List.mem_map.1 (show Event.crash (some (.list lk op)) ∈ hist cs from hm)
      cases e
  · refine ⟨?_, fun op hm => ?_⟩
    · rintro lk' op ⟨i, hi⟩ _
      obtain ⟨op', e⟩ := h2 i _ hi
      injection e
    · exact hm.elim

/-- The second and third items stay. -/
example : ∃ t0 t S, ReachableC fineCfg [.seq (hist keepBefore)] t0 ∧ Calls fineCfg t0 (.list [76] (.iter true)) (.ok (.items keepAll)) t ∧ FineRun fineCfg (FState.idle t) keepTrace S ∧
    IntactList fineCfg [76] ([.seq (hist keepBefore)] ++ [.conc keepTrace]) ∧ List.Sublist [[98], [99]] (keepAll.map Prod.fst) ∧ StaysL [76] [[98], [99]] keepTrace ∧
    ∀ i par, CEvent.inv i (.list [76] (.compact par)) ∉ keepTrace := by
  obtain ⟨t, S, h1, h2⟩ := checkF_sound keep_demo
  obtain ⟨t0, h3, h4⟩ := lastCall h1
  refine ⟨t0, t, S, h3, h4, h2, intact_hist ?_ ?_, .cons _ (List.Sublist.refl _), ⟨fun x hx i c hi => ?_, fun i pos r hm => ?_, fun pre i pos post e => ?_⟩, fun i par hm => ?_⟩
  · intro c r hm
    simp only [keepBefore, List.mem_cons, Prod.mk.injEq, List.not_mem_nil, or_false] at hm
    rcases hm with ⟨rfl, _⟩ | ⟨rfl, _⟩ | ⟨rfl, _⟩ <;> exact ⟨_, rfl⟩
  · intro i c hi
    simp only [keepTrace, List.mem_cons, CEvent.inv.injEq, reduceCtorEq, List.not_mem_nil, or_false, false_or] at hi
    rcases hi with ⟨_, rfl⟩ | ⟨_, rfl⟩ | ⟨_, rfl⟩ | ⟨_, rfl⟩ | ⟨_, rfl⟩ <;> exact ⟨_, rfl⟩
  · simp only [keepTrace, List.mem_cons, CEvent.inv.injEq, reduceCtorEq, List.not_mem_nil, or_false, false_or] at hi
    rcases hi with ⟨_, rfl⟩ | ⟨_, rfl⟩ | ⟨_, rfl⟩ | ⟨_, rfl⟩ | ⟨_, rfl⟩ <;> (rintro (h | h | ⟨_, h⟩) <;> cases h)
  · simp only [keepTrace, List.mem_cons, CEvent.ret.injEq, reduceCtorEq, List.not_mem_nil, or_false, false_or, Call.list.injEq, true_and, false_and, and_false] at hm
    obtain ⟨_, _, rfl⟩ := hm
    refine ⟨_, rfl, fun x hx => ?_⟩
    cases hx
    simp
  · have hpost : pre = keepTrace.take 1 ∧ i = 1 ∧ pos = true ∧ post = keepTrace.drop 2 := by
      unfold keepTrace at e
      rcases pre with _ | ⟨a, pre⟩
      · simp at e
      rcases pre with _ | ⟨b, pre⟩
      · simp only [List.cons_append, List.nil_append, List.cons.injEq, CEvent.inv.injEq, Call.list.injEq, LOp.pop.injEq, true_and] at e
        obtain ⟨rfl, ⟨rfl, rfl⟩, rfl⟩ := e
        exact ⟨rfl, rfl, rfl, rfl⟩
      · exfalso
        simp only [List.cons_append, List.cons.injEq] at e
        have : CEvent.inv i (.list [76] (.pop pos)) ∈ keepTrace.drop 2 := by
          show _ ∈ [_, _, _, _, _, _, _, _]
          rw [e.2.2]
          simp
        simp [keepTrace] at this
    obtain ⟨_, rfl, rfl, rfl⟩ := hpost
    exact ⟨_, List.mem_cons_self⟩
  · simp [keepTrace] at hm

/-! ### During a compaction -/

def moveBefore : List (Call × Res Resp) := [(.list [76] (.set [97] [1]), .ok (.setStatus .createdNew))]

/-- Thread 0 begins to iterate and reads the range of the indices; thread 1 compacts the list; thread 0 goes on. -/
def moveSched : List FCmd := [.go 0 (.list [76] (.iter true)), .step 0 37, .go 1 (.list [76] (.compact ⟨1, fun _ _ => false⟩)), .step 1 1337, .fin 1 (.ok (.flag true)), .step 0 543, .fin 0 (.ok (.items []))]

def moveTrace : List CEvent := [.inv 0 (.list [76] (.iter true)), .inv 1 (.list [76] (.compact ⟨1, fun _ _ => false⟩)), .ret 1 (.list [76] (.compact ⟨1, fun _ _ => false⟩)) (.ok (.flag true)),
  .ret 0 (.list [76] (.iter true)) (.ok (.items []))]

set_option maxRecDepth 100000 in
theorem move_demo : checkF fineCfg (moveBefore ++ [(.list [76] (.iter true), .ok (.items [([97], [1])]))]) 2 moveSched = true := by decide +kernel

/-- While thread 1 compacts the list, thread 0 reads the item. -/
def moveReadSched : List FCmd := [.go 1 (.list [76] (.compact ⟨1, fun _ _ => false⟩)), .step 1 1250, .go 0 (.list [76] (.get [97])), .step 0 27, .fin 0 (.ok (.val (some [1]))), .step 1 87, .fin 1 (.ok (.flag true))]

def moveReadTrace : List CEvent := [.inv 1 (.list [76] (.compact ⟨1, fun _ _ => false⟩)), .inv 0 (.list [76] (.get [97])), .ret 0 (.list [76] (.get [97])) (.ok (.val (some [1]))),
  .ret 1 (.list [76] (.compact ⟨1, fun _ _ => false⟩)) (.ok (.flag true))]

set_option maxRecDepth 100000 in
theorem moveRead_demo : checkF fineCfg (moveBefore ++ [(.list [76] (.get [97]), .ok (.val (some [1])))]) 2 moveReadSched = true := by decide +kernel

/-- The hypotheses of `C72_get_complete` are met during a compaction. -/
example : ∃ t0 t S, ReachableC fineCfg [.seq (hist moveBefore)] t0 ∧ Calls fineCfg t0 (.list [76] (.get [97])) (.ok (.val (some [1]))) t ∧ FineRun fineCfg (FState.idle t) moveReadTrace S ∧
    (∀ i lk' op, CEvent.inv i (.list lk' op) ∈ moveReadTrace → fineCfg.listPh lk' = fineCfg.listPh [76] → lk' = [76]) ∧ StaysL [76] [[97]] moveReadTrace := by
  obtain ⟨t, S, h1, h2⟩ := checkF_sound moveRead_demo
  obtain ⟨t0, h3, h4⟩ := lastCall h1
  refine ⟨t0, t, S, h3, h4, h2, fun i lk' op hm _ => ?_, ⟨fun x hx i c hi => ?_, fun i pos r hm => ?_, fun pre i pos post e => ?_⟩⟩
  · simp only [moveReadTrace, List.mem_cons, CEvent.inv.injEq, Call.list.injEq, reduceCtorEq, List.not_mem_nil, or_false, false_or] at hm
    rcases hm with ⟨_, h, _⟩ | ⟨_, h, _⟩ <;> exact h
  · simp only [moveReadTrace, List.mem_cons, CEvent.inv.injEq, reduceCtorEq, List.not_mem_nil, or_false, false_or] at hi
    rcases hi with ⟨_, rfl⟩ | ⟨_, rfl⟩ <;> (rintro (h | h | ⟨_, h⟩) <;> cases h)
  · simp [moveReadTrace] at hm
  · have hm : CEvent.inv i (.list [76] (.pop pos)) ∈ moveReadTrace := by rw [e]; simp
    simp [moveReadTrace] at hm

/-- **What C72 excludes is false**: a list has one item. While thread 0 iterates over the list, thread 1 calls `compact_list_if_needed`, and nothing else happens. The iteration shows no item: all hypotheses
of C72 are met but that nobody compacts the list. -/
theorem C72_refuted_compaction : ∃ t0 t S, ReachableC fineCfg [.seq (hist moveBefore)] t0 ∧ Calls fineCfg t0 (.list [76] (.iter true)) (.ok (.items [([97], [1])])) t ∧
    FineRun fineCfg (FState.idle t) moveTrace S ∧ IntactList fineCfg [76] ([.seq (hist moveBefore)] ++ [.conc moveTrace]) ∧ StaysL [76] [[97]] moveTrace ∧
    CEvent.ret 0 (.list [76] (.iter true)) (.ok (.items [])) ∈ moveTrace := by
  obtain ⟨t, S, h1, h2⟩ := checkF_sound move_demo
  obtain ⟨t0, h3, h4⟩ := lastCall h1
  refine ⟨t0, t, S, h3, h4, h2, intact_hist ?_ ?_, ⟨fun x hx i c hi => ?_, fun i pos r hm => ?_, fun pre i pos post e => ?_⟩, by simp [moveTrace]⟩
  · intro c r hm
    simp only [moveBefore, List.mem_cons, Prod.mk.injEq, List.not_mem_nil, or_false] at hm
    obtain ⟨rfl, _⟩ := hm
    exact ⟨_, rfl⟩
  · intro i c hi
    simp only [moveTrace, List.mem_cons, CEvent.inv.injEq, reduceCtorEq, List.not_mem_nil, or_false, false_or] at hi
    rcases hi with ⟨_, rfl⟩ | ⟨_, rfl⟩ <;> exact ⟨_, rfl⟩
  · simp only [moveTrace, List.mem_cons, CEvent.inv.injEq, reduceCtorEq, List.not_mem_nil, or_false, false_or] at hi
    rcases hi with ⟨_, rfl⟩ | ⟨_, rfl⟩ <;> (rintro (h | h | ⟨_, h⟩) <;> cases h)
  · simp [moveTrace] at hm
  · have hm : CEvent.inv i (.list [76] (.pop pos)) ∈ moveTrace := by rw [e]; simp
    simp [moveTrace] at hm

end Candy.Props
