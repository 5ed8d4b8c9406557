import Verif.Props.Durable
import Verif.Spec.Stay
/-!
# C66: `get_from_list` while other threads change the list
-/
namespace Candy.Props
open Candy.Spec

/-! ### The sequential explanation contains only calls of the history -/

theorem lin_begun {ph : Nat → Phase} {tr : List CEvent} {ops : List (Call × Res Resp)} (h : Lin ph tr ops) :
    ∀ c r, (c, r) ∈ ops → r ≠ .exhausted ∧ ((∃ i, ph i = .called c) ∨ ∃ i, CEvent.inv i c ∈ tr) := by
  have unset : ∀ {ph : Nat → Phase} {i : Nat} {x : Phase} {c : Call}, (∀ d, x ≠ .called d) → (∃ j, setN ph i x j = .called c) → ∃ j, ph j = .called c := by
    rintro ph i x c hx ⟨j, hj⟩
    by_cases e : j = i
    · subst e; rw [setN_same] at hj; exact absurd hj (hx c)
    · rw [setN_other _ _ e] at hj; exact ⟨j, hj⟩
  induction h with
  | nil => intro c r hm; cases hm
  | inv i c h _ ih =>
    intro c' r hm
    obtain ⟨h1, h2⟩ := ih c' r hm
    refine ⟨h1, ?_⟩
    rcases h2 with ⟨j, hj⟩ | ⟨j, hj⟩
    · by_cases e : j = i
      · subst e; rw [setN_same] at hj; injection hj with hj; subst hj; exact .inr ⟨j, List.mem_cons_self⟩
      · rw [setN_other _ _ e] at hj; exact .inl ⟨j, hj⟩
    · exact .inr ⟨j, List.mem_cons_of_mem _ hj⟩
  | effect i c r h hne _ ih =>
    intro c' r' hm
    rcases List.mem_cons.1 hm with e | hm
    · injection e with e1 e2
      subst e1 e2
      exact ⟨hne, .inl ⟨i, h⟩⟩
    · obtain ⟨h1, h2⟩ := ih c' r' hm
      exact ⟨h1, h2.imp (unset (by simp)) id⟩
  | ret i c r h _ ih =>
    intro c' r' hm
    obtain ⟨h1, h2⟩ := ih c' r' hm
    exact ⟨h1, h2.imp (unset (by simp)) (fun ⟨j, hj⟩ => ⟨j, List.mem_cons_of_mem _ hj⟩)⟩

theorem lin_ret {ph : Nat → Phase} {tr : List CEvent} {ops : List (Call × Res Resp)} (h : Lin ph tr ops) :
    ∀ i c r, CEvent.ret i c r ∈ tr → ph i = .effect c r ∨ (c, r) ∈ ops := by
  induction h with
  | nil => intro i c r hm; cases hm
  | inv j d h _ ih =>
    intro i c r hm
    rcases List.mem_cons.1 hm with e | hm
    · cases e
    · rcases ih i c r hm with h1 | h1
      · by_cases e : i = j
        · subst e; rw [setN_same] at h1; cases h1
        · rw [setN_other _ _ e] at h1; exact .inl h1
      · exact .inr h1
  | effect j d q h hne _ ih =>
    intro i c r hm
    rcases ih i c r hm with h1 | h1
    · by_cases e : i = j
      · subst e; rw [setN_same] at h1; injection h1 with e1 e2; subst e1 e2; exact .inr List.mem_cons_self
      · rw [setN_other _ _ e] at h1; exact .inl h1
    · exact .inr (List.mem_cons_of_mem _ h1)
  | ret j d q h _ ih =>
    intro i c r hm
    rcases List.mem_cons.1 hm with e | hm
    · injection e with e1 e2 e3; subst e1 e2 e3; exact .inl h
    · rcases ih i c r hm with h1 | h1
      · by_cases e : i = j
        · subst e; rw [setN_same] at h1; cases h1
        · rw [setN_other _ _ e] at h1; exact .inl h1
      · exact .inr h1

theorem linTo_begun {ph ph' : Nat → Phase} {tr : List CEvent} {ops : List (Call × Res Resp)} (h : LinTo ph tr ops ph') :
    ∀ i c, ph' i = .called c → ph i = .called c ∨ CEvent.inv i c ∈ tr := by
  induction h with
  | nil => exact fun i c h => .inl h
  | inv j d h _ ih =>
    intro i c hc
    rcases ih i c hc with h1 | h1
    · by_cases e : i = j
      · subst e; rw [setN_same] at h1; injection h1 with h1; subst h1; exact .inr List.mem_cons_self
      · rw [setN_other _ _ e] at h1; exact .inl h1
    · exact .inr (List.mem_cons_of_mem _ h1)
  | effect j d q h hne _ ih =>
    intro i c hc
    rcases ih i c hc with h1 | h1
    · by_cases e : i = j
      · subst e; rw [setN_same] at h1; cases h1
      · rw [setN_other _ _ e] at h1; exact .inl h1
    · exact .inr h1
  | ret j d q h _ ih =>
    intro i c hc
    rcases ih i c hc with h1 | h1
    · by_cases e : i = j
      · subst e; rw [setN_same] at h1; cases h1
      · rw [setN_other _ _ e] at h1; exact .inl h1
    · exact .inr (List.mem_cons_of_mem _ h1)

theorem linearizes_begun {tr : List CEvent} {ops : List (Call × Res Resp)} (h : Linearizes tr ops) {c : Call} {r : Res Resp} (hm : (c, r) ∈ ops) :
    r ≠ .exhausted ∧ ∃ i, CEvent.inv i c ∈ tr := by
  obtain ⟨h1, h2⟩ := lin_begun h c r hm
  refine ⟨h1, ?_⟩
  rcases h2 with ⟨i, hi⟩ | h2
  · cases hi
  · exact h2

theorem explains_begins {bs : List Block} {es : List Event} (h : Explains bs es) : ∀ e ∈ es, ∀ c, e.begun = some c → ∃ b ∈ bs, b.begins c := by
  have later : ∀ {b : Block} {bs : List Block} {c : Call}, (∃ b ∈ bs, b.begins c) → ∃ b' ∈ b :: bs, b'.begins c := fun ⟨b', h1, h2⟩ => ⟨b', List.mem_cons_of_mem _ h1, h2⟩
  induction h with
  | nil => intro e he; cases he
  | seq es0 rest ih =>
    intro e he c hc
    rcases List.mem_append.1 he with he | he
    · exact ⟨_, List.mem_cons_self, e, he, hc⟩
    · exact later (ih e he c hc)
  | conc ops h rest ih =>
    intro e he c hc
    rcases List.mem_append.1 he with he | he
    · obtain ⟨⟨c', r⟩, ho, rfl⟩ := List.mem_map.1 he
      injection hc with hc
      subst hc
      exact ⟨_, List.mem_cons_self, (linearizes_begun h ho).2⟩
    · exact later (ih e he c hc)
  | died ops pend h rest ih =>
    intro e he c hc
    obtain ⟨ph, h1, h2, h3⟩ := h
    rcases List.mem_append.1 he with he | he
    · obtain ⟨⟨c', r⟩, ho, rfl⟩ := List.mem_map.1 he
      injection hc with hc
      subst hc
      exact ⟨_, List.mem_cons_self, (linearizes_begun h1.lin ho).2⟩
    · rcases List.mem_append.1 he with he | he
      · obtain ⟨⟨i, c'⟩, ho, rfl⟩ := List.mem_map.1 he
        injection hc with hc
        subst hc
        rcases linTo_begun h1 i _ ((h3 i _).1 ho) with h4 | h4
        · cases h4
        · exact ⟨_, List.mem_cons_self, i, h4⟩
      · exact later (ih e he c hc)

/-! ### The ideal list keeps an item that nobody removes -/

theorem oget_set_same (l : OList) (k v : Bytes) : (l.set k v).get k = some v := by
  unfold OList.set
  split
  · rename_i h
    unfold OList.get at *
    rw [Option.isSome_map] at h
    rw [List.find?_map]
    have e : ((fun p : Bytes × Bytes => decide (p.1 = k)) ∘ fun p => if p.1 = k then (k, v) else p) = fun p => decide (p.1 = k) := by
      funext p
      show decide ((if p.1 = k then (k, v) else p).1 = k) = decide (p.1 = k)
      split <;> simp_all
    rw [e]
    cases hf : l.find? (fun p => decide (p.1 = k)) with
    | none => rw [hf] at h; cases h
    | some p =>
      have := List.find?_some hf
      simp only [decide_eq_true_eq] at this
      simp [this]
  · rename_i h
    unfold OList.get at *
    rw [List.find?_append]
    cases hf : l.find? (fun p => decide (p.1 = k)) with
    | none => simp
    | some p => rw [hf] at h; simp at h

theorem oget_set_other (l : OList) {k k' : Bytes} (v : Bytes) (hn : k' ≠ k) : (l.set k v).get k' = l.get k' := by
  unfold OList.set
  split
  · unfold OList.get
    rw [List.find?_map]
    have e : ((fun p : Bytes × Bytes => decide (p.1 = k')) ∘ fun p => if p.1 = k then (k, v) else p) = fun p => decide (p.1 = k') := by
      funext p
      show decide ((if p.1 = k then (k, v) else p).1 = k') = decide (p.1 = k')
      split
      · rename_i hp; simp [hp, Ne.symm hn]
      · rfl
    rw [e]
    cases hf : l.find? (fun p => decide (p.1 = k')) with
    | none => rfl
    | some p =>
      have := List.find?_some hf
      simp only [decide_eq_true_eq] at this
      simp [this, hn]
  · unfold OList.get
    rw [List.find?_append]
    cases hf : l.find? (fun p => decide (p.1 = k')) with
    | none => simp [Ne.symm hn]
    | some p => simp

theorem oget_erase_other (l : OList) {k k' : Bytes} (hn : k' ≠ k) : (l.erase k).get k' = l.get k' := by
  unfold OList.get OList.erase
  rw [List.find?_filter]
  congr 1
  congr 1
  funext p
  by_cases e : p.1 = k'
  · simp [e, hn]
  · simp [e]

theorem oget_set (l : OList) (k v k' : Bytes) : (l.set k v).get k' = if k' = k then some v else l.get k' := by
  split
  · rename_i e; rw [e]; exact oget_set_same l k v
  · rename_i e; exact oget_set_other l v e

/-- One call on the ideal list. -/
theorem lStep_keeps {cfg : Cfg} {lk ik v : Bytes} {s s' : LState} {op : LOp} {r : Res Resp} (h : lStep cfg lk s op r s') (hne : r ≠ .exhausted) (hv : s.items.get ik = some v)
    (h1 : op ≠ .remove ik) (h2 : op ≠ .discard) (h3 : (Call.list lk op).atomic = true ∨ ∃ jk, op = .get jk) :
    ∃ u, s'.items.get ik = some u ∧ (u = v ∨ (Call.list lk op).putsItem lk ik u) := by
  have same : s'.items = s.items → ∃ u, s'.items.get ik = some u ∧ (u = v ∨ (Call.list lk op).putsItem lk ik u) := fun e => ⟨v, by rw [e]; exact hv, .inl rfl⟩
  have put : ∀ jk x, s'.items = s.items.set jk x → (Call.list lk op).putsItem lk jk x → ∃ u, s'.items.get ik = some u ∧ (u = v ∨ (Call.list lk op).putsItem lk ik u) := by
    intro jk x e hp
    rw [e, oget_set]
    by_cases e : ik = jk
    · subst e; exact ⟨x, if_pos rfl, .inr hp⟩
    · exact ⟨v, by rw [if_neg e]; exact hv, .inl rfl⟩
  cases r with
  | ok a =>
    obtain ⟨ha, _⟩ := h
    cases op with
    | set jk x => exact put jk x ha.1 (.inl rfl)
    | replace jk x e =>
      cases e with
      | none =>
        dsimp only [lAnswer] at ha
        split at ha
        · exact same ha.1
        · exact put jk x ha.1 (.inr (.inl ⟨_, rfl⟩))
      | some e =>
        dsimp only [lAnswer] at ha
        split at ha
        · exact same ha.1
        · rcases ha with ha | ha
          · exact same ha.1
          · exact put jk x ha.2.1 (.inr (.inl ⟨_, rfl⟩))
    | getOrCreate jk x =>
      dsimp only [lAnswer] at ha
      split at ha
      · exact put jk x ha.1 (.inr (.inr rfl))
      · exact same ha.1
    | get jk => exact same ha.1
    | remove jk =>
      refine ⟨v, ?_, .inl rfl⟩
      rw [ha.1, oget_erase_other _ (fun e => h1 (by rw [e]))]
      exact hv
    | compact par => exact same ha.1
    | discard => exact absurd rfl h2
    | _ =>
      rcases h3 with h3 | ⟨jk, h3⟩
      · simp [Call.atomic] at h3
      · cases h3
  | err e =>
    obtain ⟨jk, x, l, hst, _, hi, _⟩ := h
    refine same (hi.trans ?_)
    cases op with
    | set | replace | getOrCreate => simp only [LOp.stores?, Option.some.injEq, Prod.mk.injEq] at hst; exact hst.2.2.symm
    | setPromoting =>
      rcases h3 with h3 | ⟨jk, h3⟩
      · simp [Call.atomic] at h3
      · cases h3
    | _ => simp [LOp.stores?] at hst
  | panic => exact h.elim
  | exhausted => exact absurd rfl hne

theorem likeList_keeps {cfg : Cfg} {lk ik : Bytes} : ∀ (ops : List (Call × Res Resp)) (s : LState) (v : Bytes),
    LikeIdealList cfg lk (some s) (ops.map (fun o => .call o.1 o.2)) → s.items.get ik = some v →
    (∀ op r, (Call.list lk op, r) ∈ ops → r ≠ .exhausted ∧ op ≠ .remove ik ∧ op ≠ .discard ∧ ((Call.list lk op).atomic = true ∨ ∃ jk, op = .get jk)) →
    ∀ r, (Call.list lk (.get ik), r) ∈ ops → ∃ u, r = .ok (.val (some u)) ∧ (u = v ∨ ∃ c r', (c, r') ∈ ops ∧ c.putsItem lk ik u)
  | [], _, _, _, _, _, _, hm => by cases hm
  | (c, r0) :: ops, s, v, h, hv, hok, r, hm => by
    have hok' : ∀ op r, (Call.list lk op, r) ∈ ops → r ≠ .exhausted ∧ op ≠ .remove ik ∧ op ≠ .discard ∧ ((Call.list lk op).atomic = true ∨ ∃ jk, op = .get jk) :=
      fun op r hm => hok op r (List.mem_cons_of_mem _ hm)
    by_cases hc : ∃ op, c = .list lk op
    · obtain ⟨op, rfl⟩ := hc
      obtain ⟨g1, g2, g3, g4⟩ := hok op r0 List.mem_cons_self
      rw [List.map_cons] at h
      dsimp only [LikeIdealList] at h
      rw [if_pos rfl] at h
      obtain ⟨x, ⟨s', hs, rfl⟩, hrest⟩ := h
      rcases List.mem_cons.1 hm with e | hm
      · injection e with e1 e2
        injection e1 with _ e1
        subst e1 e2
        cases r with
        | ok a => exact ⟨v, by rw [hs.1.2, hv], .inl rfl⟩
        | err e => obtain ⟨_, _, _, hst, _⟩ := hs; simp [LOp.stores?] at hst
        | panic => exact hs.elim
        | exhausted => exact absurd rfl g1
      · obtain ⟨u, hu, hw⟩ := lStep_keeps hs g1 hv g2 g3 g4
        obtain ⟨u', h1, h2⟩ := likeList_keeps ops s' u hrest hu hok' r hm
        refine ⟨u', h1, ?_⟩
        rcases h2 with rfl | ⟨c, r', h2, h3⟩
        · exact hw.imp id (fun hw => ⟨_, r0, List.mem_cons_self, hw⟩)
        · exact .inr ⟨c, r', List.mem_cons_of_mem _ h2, h3⟩
    · have hrest : LikeIdealList cfg lk (some s) (ops.map (fun o => .call o.1 o.2)) := by
        rw [List.map_cons] at h
        cases c with
        | list lk' op =>
          dsimp only [LikeIdealList] at h
          rw [if_neg (fun e => hc ⟨op, by rw [e]⟩)] at h
          exact h
        | kv => exact h
        | typed => exact h
        | queue => exact h
      rcases List.mem_cons.1 hm with e | hm
      · injection e with e1 _; exact absurd ⟨_, e1.symm⟩ hc
      · obtain ⟨u', h1, h2⟩ := likeList_keeps ops s v hrest hv hok' r hm
        exact ⟨u', h1, h2.imp id (fun ⟨c, r', h2, h3⟩ => ⟨c, r', List.mem_cons_of_mem _ h2, h3⟩)⟩

/-- A call that may have been cut off by the death of the process in a part of the life of a store. -/
def _root_.Candy.Block.cuts (b : Block) (c : Call) : Prop := match b with
  | .seq es => Event.crash (some c) ∈ es
  | .conc _ => False
  | .died tr => ∃ i, CEvent.inv i c ∈ tr

theorem explains_cuts {bs : List Block} {es : List Event} (h : Explains bs es) : ∀ c, Event.crash (some c) ∈ es → ∃ b ∈ bs, b.cuts c := by
  have later : ∀ {b : Block} {bs : List Block} {c : Call}, (∃ b ∈ bs, b.cuts c) → ∃ b' ∈ b :: bs, b'.cuts c := fun ⟨b', h1, h2⟩ => ⟨b', List.mem_cons_of_mem _ h1, h2⟩
  induction h with
  | nil => intro c hm; cases hm
  | seq es0 rest ih =>
    intro c he
    rcases List.mem_append.1 he with he | he
    · exact ⟨_, List.mem_cons_self, he⟩
    · exact later (ih c he)
  | conc ops h rest ih =>
    intro c he
    rcases List.mem_append.1 he with he | he
    · obtain ⟨_, _, e⟩ := List.mem_map.1 he; cases e
    · exact later (ih c he)
  | died ops pend h rest ih =>
    intro c he
    obtain ⟨ph, h1, h2, h3⟩ := h
    rcases List.mem_append.1 he with he | he
    · obtain ⟨_, _, e⟩ := List.mem_map.1 he; cases e
    · rcases List.mem_append.1 he with he | he
      · obtain ⟨⟨i, c'⟩, ho, e⟩ := List.mem_map.1 he
        injection e with e
        injection e with e
        subst e
        rcases linTo_begun h1 i _ ((h3 i _).1 ho) with h4 | h4
        · cases h4
        · exact ⟨_, List.mem_cons_self, i, h4⟩
      · exact later (ih c he)

/-- The list is not one of the cases of C27 and C30: no other list with the same hash has been used, and the process did not die inside a removal, promotion, compaction
or `discard_list` of this list. -/
def IntactList (cfg : Cfg) (lk : Bytes) (bs : List Block) : Prop :=
  ∀ b ∈ bs, (∀ lk' op, b.begins (.list lk' op) → cfg.listPh lk' = cfg.listPh lk → lk' = lk) ∧ ∀ op, b.cuts (.list lk op) → crashSafe op = true

theorem IntactList.orderly {cfg : Cfg} {lk : Bytes} {bs : List Block} {es : List Event} (h : IntactList cfg lk bs) (he : Explains bs es) : Orderly cfg lk es := by
  refine ⟨fun e hm lk' op hb hp => ?_, fun op hm => ?_⟩
  · obtain ⟨b, h1, h2⟩ := explains_begins he e hm _ hb
    exact (h b h1).1 lk' op h2 hp
  · obtain ⟨b, h1, h2⟩ := explains_cuts he _ hm
    exact (h b h1).2 op h2

theorem explains_last {before : List Event} {e : Event} : ∀ {bs : List Block} {es : List Event}, Explains (bs ++ [.seq (before ++ [e])]) es → ∃ es0, es = es0 ++ [e] := by
  intro bs
  induction bs with
  | nil =>
    intro es h1
    cases h1 with
    | seq es0 rest => cases rest; exact ⟨before, by simp⟩
  | cons b bs ih =>
    intro es h1
    cases h1 with
    | seq es0 rest => obtain ⟨x, hx⟩ := ih rest; exact ⟨es0 ++ x, by rw [hx, List.append_assoc]⟩
    | conc ops h rest => obtain ⟨x, hx⟩ := ih rest; exact ⟨_ ++ x, by rw [hx, List.append_assoc]⟩
    | died ops pend h rest => obtain ⟨x, hx⟩ := ih rest; exact ⟨ops.map (fun o => .call o.1 o.2) ++ (pend.map (fun y => .crash (some y.2)) ++ x), by simp only [hx, List.append_assoc]⟩

theorem specRun_split {cfg : Cfg} : ∀ {es es' : List Event} {w w2 : World}, SpecRun cfg w (es ++ es') w2 → ∃ w1, SpecRun cfg w es w1 ∧ SpecRun cfg w1 es' w2 := by
  intro es
  induction es with
  | nil => exact fun h => ⟨_, .nil _, h⟩
  | cons e es ih =>
    intro es' w w2 h
    cases h with
    | call h rest => obtain ⟨w1, g1, g2⟩ := ih rest; exact ⟨w1, .call h g1, g2⟩
    | merge rest => obtain ⟨w1, g1, g2⟩ := ih rest; exact ⟨w1, .merge g1, g2⟩
    | clear rest => obtain ⟨w1, g1, g2⟩ := ih rest; exact ⟨w1, .clear g1, g2⟩
    | reopen rest => obtain ⟨w1, g1, g2⟩ := ih rest; exact ⟨w1, .reopen g1, g2⟩
    | crash h rest => obtain ⟨w1, g1, g2⟩ := ih rest; exact ⟨w1, .crash h g1, g2⟩

/-- **C66**. An item is in a list: `get_from_list` has just returned its value `v`. Then threads make calls concurrently (their memory accesses alternate in any way that the
code's locks allow, with those of compactions and with splits); none of them removes the item. Every `get_from_list` of the item that returns in this period finds it, although it takes no
lock, and returns either `v` or a value that a call of this period gives to the item. (`Serial`: the threads make key-value calls, calls that change lists and queues in
one critical section, and `get_from_list` on lists that no thread discards in this period.) -/
theorem C66_present_item_is_read {cfg : Cfg} {bs : List Block} {before : List Event} {lk ik v : Bytes} {t : Tree}
    (h : ReachableC cfg (bs ++ [.seq (before ++ [.call (.list lk (.get ik)) (.ok (.val (some v)))])]) t) (hat : SerialCalls cfg bs)
    (hlk : IntactList cfg lk (bs ++ [.seq before])) {tr : List CEvent} {S : FState} (hr : FineRun cfg (FState.idle t) tr S) (hat' : Serial cfg tr)
    (hclash : ∀ i lk' op, CEvent.inv i (.list lk' op) ∈ tr → cfg.listPh lk' = cfg.listPh lk → lk' = lk) (hrem : ∀ i, CEvent.inv i (.list lk (.remove ik)) ∉ tr)
    {i : Nat} {r : Res Resp} (hret : CEvent.ret i (.list lk (.get ik)) r ∈ tr) :
    ∃ u, r = .ok (.val (some u)) ∧ (u = v ∨ ∃ j c, CEvent.inv j c ∈ tr ∧ c.putsItem lk ik u) := by
  have hat2 : SerialCalls cfg (bs ++ [.seq (before ++ [.call (.list lk (.get ik)) (.ok (.val (some v)))])]) := by
    intro tr hm
    refine hat tr ?_
    rcases hm with hm | hm <;> rcases List.mem_append.1 hm with hm | hm
    · exact .inl hm
    · cases List.mem_singleton.1 hm
    · exact .inr hm
    · cases List.mem_singleton.1 hm
  have hlk2 : IntactList cfg lk (bs ++ [.seq (before ++ [.call (.list lk (.get ik)) (.ok (.val (some v)))])]) := by
    intro b hb
    rcases List.mem_append.1 hb with hb | hb
    · exact hlk b (List.mem_append_left _ hb)
    · have hb := List.mem_singleton.1 hb
      subst hb
      obtain ⟨g1, g2⟩ := hlk (.seq before) (List.mem_append_right _ (List.mem_singleton.2 rfl))
      refine ⟨?_, fun op hm => ?_⟩
      · rintro lk' op ⟨e, he, hb⟩ hp
        rcases List.mem_append.1 he with he | he
        · exact g1 lk' op ⟨e, he, hb⟩ hp
        · have he := List.mem_singleton.1 he
          subst he
          injection hb with hb
          injection hb with hb _
          exact hb.symm
      · refine g2 op ?_
        have hm : Event.crash (some (.list lk op)) ∈ before ++ [.call (.list lk (.get ik)) (.ok (.val (some v)))] := hm
        rcases List.mem_append.1 hm with hm | hm
        · exact hm
        · cases List.mem_singleton.1 hm
  obtain ⟨es, w, h1, h2, h3, h4⟩ := h.world hat2
  have hord := hlk2.orderly h1
  -- the state of the list
  obtain ⟨s, hs, _⟩ := specRun_list h2 (lk := lk) LState.new rfl hord
  have hv : s.items.get ik = some v := by
    have he := explains_last h1
    obtain ⟨es0, rfl⟩ := he
    obtain ⟨w1, g1, g2⟩ := specRun_split h2
    obtain ⟨s1, hs1, _⟩ := specRun_list g1 (lk := lk) LState.new rfl ⟨fun e hm => hord.1 e (List.mem_append_left _ hm), fun op hm => hord.2 op (List.mem_append_left _ hm)⟩
    cases g2 with
    | call hc hn =>
      cases hn
      obtain ⟨x, hx, rfl⟩ := hc
      rw [hs1] at hx
      obtain ⟨s2, hx, rfl⟩ := hx
      simp only [useList, if_pos] at hs
      injection hs with hs
      subst hs
      obtain ⟨⟨e1, e2⟩, _⟩ := hx
      injection e2 with e2
      rw [e1]; exact e2.symm
  obtain ⟨A, pen, led, h5, h6⟩ := hr.sim (Sim.idle h3.ok)
  obtain ⟨ops, w', h7, h8, _⟩ := h5.idle h4 hat'
  have hlin : ∀ c r, (c, r) ∈ ops → r ≠ .exhausted ∧ ∃ i, CEvent.inv i c ∈ tr := fun c r hm => linearizes_begun h7 hm
  have hmem : (Call.list lk (.get ik), r) ∈ ops := by
    rcases lin_ret h7 i _ r hret with g | g
    · cases g
    · exact g
  obtain ⟨i0, hi0⟩ := (hlin _ _ hmem).2
  have hno : ∀ j op, CEvent.inv j (.list lk op) ∈ tr → op ≠ .discard := by
    intro j op hm
    rcases hat' i0 _ hi0 with g | ⟨lk', ik', e, g⟩
    · simp [Call.atomic] at g
    · injection e with e _
      subst e
      exact (g j _ op hm rfl).1
  have hlike : LikeIdealList cfg lk (some s) (ops.map (fun o => .call o.1 o.2)) := by
    rw [← hs]
    refine specRun_likeList h8 (fun e hm lk' op hb hp => ?_)
    obtain ⟨⟨c, r⟩, ho, rfl⟩ := List.mem_map.1 hm
    injection hb with hb
    subst hb
    obtain ⟨j, hj⟩ := (hlin _ _ ho).2
    exact hclash j lk' op hj hp
  obtain ⟨u, hu, hw⟩ := likeList_keeps ops s v hlike hv (fun op r hm => by
    obtain ⟨g1, j, g2⟩ := hlin _ _ hm
    refine ⟨g1, fun e => hrem j (e ▸ g2), hno j op g2, ?_⟩
    rcases hat' j _ g2 with g | ⟨lk', ik', e, _⟩
    · exact .inl g
    · injection e with _ e; exact .inr ⟨ik', e⟩) r hmem
  refine ⟨u, hu, hw.imp id (fun ⟨c, r', hm, hp⟩ => ?_)⟩
  obtain ⟨_, j, hj⟩ := hlin _ _ hm
  exact ⟨j, c, hj, hp⟩

/-! ### A concrete case -/

def readBefore : List (Call × Res Resp) :=
  [(.list [76] (.set [97] [1]), .ok (.setStatus .createdNew)), (.list [76] (.get [97]), .ok (.val (some [1])))]

/-- While thread 0 changes the value of item 97, thread 1 reads it twice; at the second time it waits for the row and reads the new value before thread 0 has dropped the lock of the list. -/
def readSched : List FCmd := [.go 0 (.list [76] (.set [97] [2])), .go 1 (.list [76] (.get [97])), .step 0 30, .step 1 27, .fin 1 (.ok (.val (some [1]))),
  .go 1 (.list [76] (.get [97])), .step 1 2, .step 0 47, .step 1 25, .fin 1 (.ok (.val (some [2]))), .step 0 3, .fin 0 (.ok (.setStatus (.prevValue [1])))]

set_option maxRecDepth 100000 in
theorem read_demo : checkF fineCfg readBefore 2 readSched = true := by decide +kernel

def readTrace : List CEvent := [.inv 0 (.list [76] (.set [97] [2])), .inv 1 (.list [76] (.get [97])), .ret 1 (.list [76] (.get [97])) (.ok (.val (some [1]))),
  .inv 1 (.list [76] (.get [97])), .ret 1 (.list [76] (.get [97])) (.ok (.val (some [2]))), .ret 0 (.list [76] (.set [97] [2])) (.ok (.setStatus (.prevValue [1])))]

theorem read_serial (cfg : Cfg) : Serial cfg readTrace := by
  intro i c hm
  simp only [readTrace, List.mem_cons, CEvent.inv.injEq, reduceCtorEq, List.not_mem_nil, or_false, false_or] at hm
  rcases hm with ⟨_, rfl⟩ | ⟨_, rfl⟩ | ⟨_, rfl⟩
  · exact .inl rfl
  all_goals
    refine .inr ⟨_, _, rfl, fun j lk' op hj _ => ?_⟩
    simp only [readTrace, List.mem_cons, CEvent.inv.injEq, Call.list.injEq, reduceCtorEq, List.not_mem_nil, or_false, false_or] at hj
    rcases hj with ⟨_, rfl, rfl⟩ | ⟨_, rfl, rfl⟩ | ⟨_, rfl, rfl⟩ <;> exact ⟨by simp, by simp⟩

/-- The hypotheses of C66 are met. -/
example : ∃ t S, ReachableC fineCfg ([] ++ [.seq ([.call (.list [76] (.set [97] [1])) (.ok (.setStatus .createdNew))] ++ [.call (.list [76] (.get [97])) (.ok (.val (some [1])))])]) t ∧
    SerialCalls fineCfg [] ∧ IntactList fineCfg [76] ([] ++ [.seq [.call (.list [76] (.set [97] [1])) (.ok (.setStatus .createdNew))]]) ∧
    FineRun fineCfg (FState.idle t) readTrace S ∧ Serial fineCfg readTrace ∧
    (∀ i lk' op, CEvent.inv i (.list lk' op) ∈ readTrace → fineCfg.listPh lk' = fineCfg.listPh [76] → lk' = [76]) ∧ (∀ i, CEvent.inv i (.list [76] (.remove [97])) ∉ readTrace) ∧
    CEvent.ret 1 (.list [76] (.get [97])) (.ok (.val (some [2]))) ∈ readTrace := by
  obtain ⟨t, S, ⟨t0, h0, h1⟩, h2⟩ := checkF_sound read_demo
  refine ⟨t, S, ⟨t0, h0, .seq h1 (.nil _)⟩, (fun tr hm => by rcases hm with hm | hm <;> cases hm), (fun b hb => ?_), h2, read_serial _, ?_, ?_, ?_⟩
  · have hb := List.mem_singleton.1 hb
    subst hb
    refine ⟨?_, fun op hm => ?_⟩
    · rintro lk' op ⟨e, he, hbb⟩ _
      have he := List.mem_singleton.1 he
      subst he
      injection hbb with hbb
      injection hbb with hbb _
      exact hbb.symm
    · cases List.mem_singleton.1 hm
  · intro i lk' op hj _
    simp only [readTrace, List.mem_cons, CEvent.inv.injEq, Call.list.injEq, reduceCtorEq, List.not_mem_nil, or_false, false_or] at hj
    rcases hj with ⟨_, h, _⟩ | ⟨_, h, _⟩ | ⟨_, h, _⟩ <;> exact h
  · intro i hj
    simp [readTrace] at hj
  · simp [readTrace]

/-! ### What is not serializable -/

def discardBefore : List (Call × Res Resp) := [(.list [76] (.set [97] [1]), .ok (.setStatus .createdNew)), (.list [76] (.set [98] [2]), .ok (.setStatus .createdNew))]

def discardSched : List SCmd :=
  [.go 0 (.list [76] .discard), .step 0, .step 0, .step 0, .step 0, .step 0, .step 0,
   .go 1 (.list [76] (.get [97])), .step 1, .fin 1 (.ok (.val none)), .go 1 (.list [76] (.get [98])), .step 1, .fin 1 (.ok (.val (some [2]))),
   .step 0, .step 0, .step 0, .step 0, .step 0, .step 0, .fin 0 (.ok (.flag true))]

def discardAfter : List (Call × Res Resp) := [(.list [76] (.iter true), .ok (.items []))]

set_option maxRecDepth 100000 in
theorem discard_run : checkC runCfg discardBefore 2 discardSched discardAfter = true := by decide +kernel

/-- **What C66 excludes is false**: `get_from_list` while the list is being discarded. The list has the items 97 and 98. While thread 0 discards it,
thread 1 does not find item 97 and then finds item 98, so the discarding has happened and has not happened; no sequential order of the calls
explains this. -/
theorem C66_refuted_discard : ∃ t,
    ReachableC runCfg [.seq [.call (.list [76] (.set [97] [1])) (.ok (.setStatus .createdNew)), .call (.list [76] (.set [98] [2])) (.ok (.setStatus .createdNew))],
      .conc [.inv 0 (.list [76] .discard), .inv 1 (.list [76] (.get [97])), .ret 1 (.list [76] (.get [97])) (.ok (.val none)),
        .inv 1 (.list [76] (.get [98])), .ret 1 (.list [76] (.get [98])) (.ok (.val (some [2]))), .ret 0 (.list [76] .discard) (.ok (.flag true))],
      .seq [.call (.list [76] (.iter true)) (.ok (.items []))]] t ∧
    ∀ es, Explains [.seq [.call (.list [76] (.set [97] [1])) (.ok (.setStatus .createdNew)), .call (.list [76] (.set [98] [2])) (.ok (.setStatus .createdNew))],
      .conc [.inv 0 (.list [76] .discard), .inv 1 (.list [76] (.get [97])), .ret 1 (.list [76] (.get [97])) (.ok (.val none)),
        .inv 1 (.list [76] (.get [98])), .ret 1 (.list [76] (.get [98])) (.ok (.val (some [2]))), .ret 0 (.list [76] .discard) (.ok (.flag true))],
      .seq [.call (.list [76] (.iter true)) (.ok (.items []))]] es →
      ¬ LikeIdealList runCfg [76] (some LState.new) es := by
  obtain ⟨t, h⟩ := lives_of_check discard_run
  refine ⟨t, h, fun es he hl => ?_⟩
  obtain ⟨ops, h1, rfl⟩ := explains_scs he
  rcases lin_during h1 with rfl | rfl | rfl
  · obtain ⟨_, ⟨s1, ⟨⟨a1, _⟩, _⟩, rfl⟩, hl⟩ := hl
    obtain ⟨_, ⟨s2, ⟨⟨a2, _⟩, _⟩, rfl⟩, hl⟩ := hl
    obtain ⟨_, ⟨s3, ⟨⟨a3, _⟩, _⟩, rfl⟩, hl⟩ := hl
    obtain ⟨_, ⟨s4, ⟨⟨a4, b4⟩, _⟩, rfl⟩, hl⟩ := hl
    obtain ⟨_, ⟨s5, ⟨⟨a5, b5⟩, _⟩, rfl⟩, hl⟩ := hl
    simp [a4, a3, OList.get] at b5
  all_goals
    obtain ⟨_, ⟨s1, ⟨⟨a1, _⟩, _⟩, rfl⟩, hl⟩ := hl
    obtain ⟨_, ⟨s2, ⟨⟨a2, _⟩, _⟩, rfl⟩, hl⟩ := hl
    obtain ⟨_, ⟨s3, ⟨⟨a3, b3⟩, _⟩, rfl⟩, hl⟩ := hl
    simp [a2, a1, LState.new, OList.set, OList.get] at b3

end Candy.Props
