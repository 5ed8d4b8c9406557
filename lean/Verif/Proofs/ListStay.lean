import Verif.Proofs.QueueStay
/-!
# Items of a list that nobody removes stay where they are
-/
namespace Candy
open Spec

/-- What an item with key `ik` may contain: an item that stays ends with its index and has a permitted value; nothing else ends with the index of an item that stays. -/
structure ItemT (s : Nat → Option Bytes) (W : Bytes → Bytes → Prop) (ik : Bytes) (o : Option Bytes) : Prop where
  stays : ∀ i, s i = some ik → ∃ v, W ik v ∧ o = some (v ++ enc64 i)
  own : ∀ u j, j < U64 → o = some (u ++ enc64 j) → ∀ ik', s j = some ik' → ik' = ik

/-- The items `s` (index to key) are in the list. -/
structure LT (cfg : Cfg) (lk : Bytes) (s : Nat → Option Bytes) (W : Bytes → Bytes → Prop) (k : Bytes) (o : Option Bytes) : Prop where
  shape : Shape cfg k o
  record : k = listKey lk → ∀ i ik, s i = some ik → ∃ b, o = some b ∧ metaHead b ≤ i ∧ i < metaTail b
  chain : ∀ i ik, i < U64 → s i = some ik → k = chainKey (cfg.listPh lk) i → o = some (enc64 (cfg.ph (itemKey (cfg.listPh lk) ik)).toNat)
  item : ∀ ik, k = itemKey (cfg.listPh lk) ik → ItemT s W ik o

section
variable {cfg : Cfg} {lk : Bytes} {s : Nat → Option Bytes} {W : Bytes → Bytes → Prop} {D : Prop}

theorem lt_of_not {k : Bytes} {o : Option Bytes} (h : ¬ LFoot cfg lk k) (hs : Shape cfg k o) : LT cfg lk s W k o :=
  ⟨hs, fun h1 => absurd (.inl h1) h, fun i _ _ _ h1 => absurd (.inr (.inr ⟨i, h1⟩)) h, fun ik h1 => absurd (.inr (.inl ⟨ik, h1⟩)) h⟩

theorem lt_rec {b : Bytes} : LT cfg lk s W (listKey lk) (some b) ↔ b.length = 24 ∧ ∀ i ik, s i = some ik → metaHead b ≤ i ∧ i < metaTail b := by
  constructor
  · intro h
    refine ⟨shape_list.1 h.shape, fun i v hi => ?_⟩
    obtain ⟨b', h1, h2⟩ := h.record rfl i v hi
    cases h1
    exact h2
  · rintro ⟨h1, h2⟩
    exact ⟨shape_list.2 h1, fun _ i v hi => ⟨b, rfl, h2 i v hi⟩, fun i _ _ _ h => absurd h (listKey_ne_chain _ _ _), fun ik h => absurd h (listKey_ne_item _ _ _)⟩

theorem lt_rec_none : LT cfg lk s W (listKey lk) none ↔ ∀ i, s i = none := by
  constructor
  · intro h i
    cases hi : s i with
    | none => rfl
    | some v => obtain ⟨b, h1, _⟩ := h.record rfl i v hi; cases h1
  · intro h
    exact ⟨shape_none, (fun _ i v hi => by rw [h i] at hi; cases hi), fun i _ _ _ h => absurd h (listKey_ne_chain _ _ _), fun ik h => absurd h (listKey_ne_item _ _ _)⟩

theorem lt_enc {h t n : Nat} (hh : h < U64) (ht : t < U64) (hs : ∀ i ik, s i = some ik → h ≤ i ∧ i < t) : LT cfg lk s W (listKey lk) (some (encMeta h t n)) :=
  lt_rec.2 ⟨encMeta_length _ _ _, fun i v hi => by rw [metaHead_enc hh, metaTail_enc ht]; exact hs i v hi⟩

theorem lt_chain {i : Nat} (hi : i < U64) {o : Option Bytes} (hs : Shape cfg (chainKey (cfg.listPh lk) i) o) :
    LT cfg lk s W (chainKey (cfg.listPh lk) i) o ↔ ∀ ik, s i = some ik → o = some (enc64 (cfg.ph (itemKey (cfg.listPh lk) ik)).toNat) := by
  constructor
  · exact fun h ik hik => h.chain i ik hi hik rfl
  · intro h
    refine ⟨hs, fun h1 => absurd h1.symm (listKey_ne_chain _ _ _), fun j ik hj hik h1 => ?_, fun ik h1 => absurd h1.symm (itemKey_ne_chain _ _ _ _)⟩
    rw [← (chainKey_inj hi hj h1).2] at hik
    exact h ik hik

theorem lt_item {ik : Bytes} {o : Option Bytes} (hs : Shape cfg (itemKey (cfg.listPh lk) ik) o) : LT cfg lk s W (itemKey (cfg.listPh lk) ik) o ↔ ItemT s W ik o := by
  constructor
  · exact fun h => h.item ik rfl
  · intro h
    refine ⟨hs, fun h1 => absurd h1.symm (listKey_ne_item _ _ _), fun j _ _ _ h1 => absurd h1 (itemKey_ne_chain _ _ _ _), fun ik' h1 => ?_⟩
    rw [← (itemKey_inj h1).2]
    exact h

/-- Not an item that stays. -/
def Free (s : Nat → Option Bytes) (ik : Bytes) : Prop := ∀ i, s i ≠ some ik

theorem itemT_none {ik : Bytes} (h : Free s ik) : ItemT s W ik none := ⟨fun i hi => absurd hi (h i), fun _ _ _ e => by cases e⟩

theorem itemT_new {ik v : Bytes} {i : Nat} (h : Free s ik) (hi : i < U64) (hn : s i = none) : ItemT s W ik (some (v ++ enc64 i)) := by
  refine ⟨fun j hj => absurd hj (h j), fun u j hj e ik' hik => ?_⟩
  injection e with e
  have := enc64_inj hi hj (List.append_inj' e (by simp)).2
  subst this
  rw [hn] at hik
  cases hik

theorem itemT_update {ik v old suffix : Bytes} (h : ItemT s W ik (some (old ++ suffix))) (hl : suffix.length = 8) (hW : (∃ i, s i = some ik) → W ik v) : ItemT s W ik (some (v ++ suffix)) := by
  refine ⟨fun i hi => ?_, fun u j hj e ik' hik => ?_⟩
  · obtain ⟨w, _, e⟩ := h.stays i hi
    injection e with e
    exact ⟨v, hW ⟨i, hi⟩, by rw [(List.append_inj' e (by rw [hl]; simp)).2]⟩
  · injection e with e
    have e2 := (List.append_inj' e (by rw [hl]; simp)).2
    exact h.own old j hj (by rw [e2]) ik' hik

/-! ## Reading -/

theorem lt_getAt {i : Nat} (hi : i < U64) (hlt : ∀ i ik, s i = some ik → i < U64) :
    (getAtIndex (cfg.listPh lk) i).Types cfg (LT cfg lk s W) True
      (fun o => (∀ ik, s i = some ik → ∃ iph v, W ik v ∧ o = some (iph, itemKey (cfg.listPh lk) ik, v ++ enc64 i)) ∧
        (s i = none → ∀ iph k v, o = some (iph, k, v) → ∃ ik u, k = itemKey (cfg.listPh lk) ik ∧ v = u ++ enc64 i ∧ Free s ik)) := by
  unfold getAtIndex
  refine types_getRaw.bind' (fun o ho => ?_)
  cases o with
  | none =>
    refine ⟨fun ik hik => ?_, fun _ _ _ _ h => by cases h⟩
    have := ho.chain i ik hi hik rfl
    cases this
  | some b =>
    obtain ⟨k', rfl⟩ := shape_chain.1 ho.shape
    simp only [enc64_length, ne_eq, not_true_eq_false, if_false, phOf_enc]
    intro m l hm hl
    dsimp only
    have hsig := cfg.ph_sig_ne k'
    have hf : ∀ kv, l.find? (fun kv => endsWith kv.2 (enc64 i)) = some kv → ∃ ik u, kv = (itemKey (cfg.listPh lk) ik, u ++ enc64 i) ∧ ItemT s W ik (some (u ++ enc64 i)) := by
      intro kv hkv
      have hmem := List.mem_of_find?_eq_some hkv
      obtain ⟨ik, hik⟩ := endsWith_item.1 (hl.suffix kv hmem)
      have hv := List.find?_some hkv
      obtain ⟨u, hu⟩ := endsWith_iff.1 hv
      refine ⟨ik, u, Prod.ext hik hu, ?_⟩
      have h1 := (hm kv.1).item ik hik
      rw [hl.sound hsig kv hmem, hu] at h1
      exact h1
    cases hkv : l.find? (fun kv => endsWith kv.2 (enc64 i)) with
    | none =>
      refine ⟨fun ik hik => ?_, fun _ _ _ _ h => by cases h⟩
      exfalso
      have hc := ho.chain i ik hi hik rfl
      injection hc with hc
      obtain ⟨v, _, hv⟩ := ((hm (itemKey (cfg.listPh lk) ik)).item ik rfl).stays i hik
      have := hl.complete hsig _ _ hv (enc64_ph_inj hc).symm (endsWith_item.2 ⟨ik, rfl⟩)
      have h2 := List.find?_eq_none.1 hkv _ this
      exact h2 (endsWith_iff.2 ⟨v, rfl⟩)
    | some kv =>
      obtain ⟨ik', u, rfl, hit⟩ := hf kv hkv
      refine ⟨fun ik hik => ?_, fun hn iph k v h => ?_⟩
      · have := hit.own u i hi rfl ik hik
        subst this
        obtain ⟨v, hv, e⟩ := hit.stays i hik
        injection e with e
        exact ⟨_, u, (List.append_inj' e (by simp)).1 ▸ hv, rfl⟩
      · simp only [Option.some.injEq, Prod.mk.injEq] at h
        obtain ⟨rfl, rfl, rfl⟩ := h
        refine ⟨ik', u, rfl, rfl, fun j hj => ?_⟩
        obtain ⟨v, _, e⟩ := hit.stays j hj
        injection e with e
        have := enc64_inj hi (hlt j _ hj) (List.append_inj' e (by simp)).2
        subst this
        rw [hn] at hj
        cases hj

/-- The item at an index, as `get_from_list_at_index` returns it. -/
def AtIdx (s : Nat → Option Bytes) (W : Bytes → Bytes → Prop) (i : Nat) (o : Option KV) : Prop :=
  (∀ ik, s i = some ik → ∃ v, W ik v ∧ o = some (ik, v)) ∧ (s i = none → ∀ kv, o = some kv → Free s kv.1)

theorem itemKey_strip {lph : PH} {ik : Bytes} : (itemKey lph ik).take ((itemKey lph ik).length - 9) = ik := by
  rw [itemKey_length, Nat.add_sub_cancel]
  unfold itemKey
  exact List.take_left' rfl

theorem val_strip {v : Bytes} {i : Nat} : (v ++ enc64 i).take ((v ++ enc64 i).length - 8) = v := by
  rw [List.length_append, enc64_length, Nat.add_sub_cancel]
  exact List.take_left' rfl

theorem lt_getAtT {i : Nat} (hi : i < U64) (hlt : ∀ i ik, s i = some ik → i < U64) :
    (getAtIndexT (cfg.listPh lk) i).Types cfg (LT cfg lk s W) True (AtIdx s W i) := by
  unfold getAtIndexT
  refine (lt_getAt hi hlt).bind' (fun o ho => ?_)
  cases o with
  | none =>
    refine ⟨fun ik hik => ?_, fun _ _ h => by cases h⟩
    obtain ⟨_, _, _, h⟩ := ho.1 ik hik
    cases h
  | some x =>
    obtain ⟨iph, k, v⟩ := x
    show AtIdx s W i (some _)
    refine ⟨fun ik hik => ?_, fun hn kv h => ?_⟩
    · obtain ⟨_, u, hu, h⟩ := ho.1 ik hik
      simp only [Option.some.injEq, Prod.mk.injEq] at h
      obtain ⟨_, rfl, rfl⟩ := h
      exact ⟨u, hu, by rw [itemKey_strip, val_strip]⟩
    · obtain ⟨ik, u, rfl, rfl, h2⟩ := ho.2 hn iph k v rfl
      cases h
      rw [itemKey_strip]
      exact h2

variable {K : Bytes → Bool}

/-- `K` says which keys are those of items that stay. -/
def Tells (K : Bytes → Bool) (s : Nat → Option Bytes) : Prop := ∀ ik, K ik = true ↔ ∃ i, s i = some ik

theorem Tells.free {ik : Bytes} (h : Tells K s) (hf : Free s ik) : K ik = false := by
  cases hk : K ik with
  | false => rfl
  | true => obtain ⟨i, hi⟩ := (h ik).1 hk; exact absurd hi (hf i)

theorem lt_collect (hK : Tells K s) (hlt : ∀ i ik, s i = some ik → i < U64) : ∀ is : List Nat, (∀ i ∈ is, i < U64) → (collectIdx (cfg.listPh lk) is).Types cfg (LT cfg lk s W) True
    (fun l => (l.map Prod.fst).filter K = is.filterMap s ∧ ∀ kv ∈ l, K kv.1 = true → W kv.1 kv.2)
  | [], _ => ⟨rfl, (fun _ h => by cases h)⟩
  | i :: is, h => by
    have ih := lt_collect hK hlt is (fun j hj => h j (List.mem_cons_of_mem _ hj))
    unfold collectIdx
    refine (lt_getAtT (h i List.mem_cons_self) hlt).bind' (fun o ho => ?_)
    cases o with
    | none =>
      refine ih.mono (fun l hl => ⟨?_, hl.2⟩) id
      cases hi : s i with
      | none => rw [List.filterMap_cons_none hi]; exact hl.1
      | some ik => obtain ⟨_, _, h⟩ := ho.1 ik hi; cases h
    | some kv =>
      refine ih.bind' (fun l hl => ?_)
      show List.filter K ((kv :: l).map Prod.fst) = _ ∧ _
      cases hi : s i with
      | none =>
        have hf := hK.free (ho.2 hi kv rfl)
        rw [List.filterMap_cons_none hi, List.map_cons, List.filter_cons_of_neg (by rw [hf]; simp)]
        refine ⟨hl.1, fun x hx hk => ?_⟩
        rcases List.mem_cons.1 hx with rfl | hx
        · rw [hf] at hk; cases hk
        · exact hl.2 x hx hk
      | some ik =>
        obtain ⟨v, hv, e⟩ := ho.1 ik hi
        cases e
        rw [List.filterMap_cons_some hi, List.map_cons, List.filter_cons_of_pos ((hK ik).2 ⟨i, hi⟩), hl.1]
        refine ⟨rfl, fun x hx hk => ?_⟩
        rcases List.mem_cons.1 hx with rfl | hx
        · exact hv
        · exact hl.2 x hx hk

/-- The range as `iter_list` reads it. -/
def CoversL (s : Nat → Option Bytes) (o : Option (Nat × Nat)) : Prop :=
  (∀ q, o = some q → q.1 < U64 ∧ q.2 < U64) ∧ ∀ i ik, s i = some ik → ∃ q, o = some q ∧ q.1 ≤ i ∧ i < q.2

theorem lt_range : (listRange cfg lk).Types cfg (LT cfg lk s W) True (CoversL s) := by
  unfold listRange
  refine (types_withLock types_getRaw).bind' (fun o ho => ?_)
  cases o with
  | none => exact ⟨(fun q h => by cases h), (fun i v hi => by rw [lt_rec_none.1 ho i] at hi; cases hi)⟩
  | some b =>
    obtain ⟨h1, h2⟩ := lt_rec.1 ho
    refine (types_decMeta' h1).bind' (fun q hq => ⟨fun q' h => ?_, fun i v hi => ⟨_, rfl, ?_⟩⟩)
    · cases h; dsimp only; rw [hq.1, hq.2]; exact ⟨metaHead_lt h1, metaTail_lt h1⟩
    · dsimp only; rw [hq.1, hq.2]; exact h2 i v hi

theorem lt_iter (hK : Tells K s) (hlt : ∀ i ik, s i = some ik → i < U64) {fwd : Bool} : (iterList cfg lk fwd).Types cfg (LT cfg lk s W) True
    (fun l => (∃ h t, (∀ i ik, s i = some ik → h ≤ i ∧ i < t) ∧ (l.map Prod.fst).filter K = (idxs fwd h t).filterMap s) ∧ ∀ kv ∈ l, K kv.1 = true → W kv.1 kv.2) := by
  unfold iterList
  refine lt_range.bind' (fun o ho => ?_)
  cases o with
  | none =>
    refine ⟨⟨0, 0, fun i v hi => ?_, ?_⟩, (fun _ h => by cases h)⟩
    · obtain ⟨q, h, _⟩ := ho.2 i v hi; cases h
    · cases fwd <;> rfl
  | some q =>
    refine (lt_collect hK hlt _ (idxs_lt (ho.1 q rfl).2)).mono (fun l hl => ⟨⟨q.1, q.2, fun i v hi => ?_, hl.1⟩, hl.2⟩) id
    obtain ⟨q', h1, h2⟩ := ho.2 i v hi
    cases h1
    exact h2

/-- What `peek_list` returns. -/
def PeekT (s : Nat → Option Bytes) (W : Bytes → Bytes → Prop) (is : List Nat) (o : Option KV) : Prop :=
  ∀ ik, (is.filterMap s).head? = some ik → ∃ kv, o = some kv ∧ (Free s kv.1 ∨ kv.1 = ik ∧ W ik kv.2)

theorem lt_first (hlt : ∀ i ik, s i = some ik → i < U64) : ∀ is : List Nat, (∀ i ∈ is, i < U64) → (firstIdx (cfg.listPh lk) is).Types cfg (LT cfg lk s W) True (PeekT s W is)
  | [], _ => fun ik h => by cases h
  | i :: is, h => by
    have ih := lt_first hlt is (fun j hj => h j (List.mem_cons_of_mem _ hj))
    unfold firstIdx
    refine (lt_getAtT (h i List.mem_cons_self) hlt).bind' (fun o ho => ?_)
    cases o with
    | none =>
      cases hi : s i with
      | none => refine ih.mono (fun o' ho' => ?_) id; unfold PeekT; rw [List.filterMap_cons_none hi]; exact ho'
      | some ik => obtain ⟨_, _, h⟩ := ho.1 ik hi; cases h
    | some kv =>
      show PeekT s W (i :: is) (some kv)
      intro ik hik
      refine ⟨kv, rfl, ?_⟩
      cases hi : s i with
      | none => exact .inl (ho.2 hi kv rfl)
      | some ik' =>
        obtain ⟨v, hv, e⟩ := ho.1 ik' hi
        cases e
        rw [List.filterMap_cons_some hi] at hik
        injection hik with hik
        subst hik
        exact .inr ⟨rfl, hv⟩

theorem lt_peek (hlt : ∀ i ik, s i = some ik → i < U64) {fwd : Bool} : (peekList cfg lk fwd).Types cfg (LT cfg lk s W) True
    (fun o => ∃ h t, (∀ i ik, s i = some ik → h ≤ i ∧ i < t) ∧ PeekT s W (idxs fwd h t) o) := by
  unfold peekList
  refine lt_range.bind' (fun o ho => ?_)
  cases o with
  | none =>
    refine ⟨0, 0, fun i v hi => ?_, fun ik h => ?_⟩
    · obtain ⟨q, h, _⟩ := ho.2 i v hi; cases h
    · cases fwd <;> cases h
  | some q =>
    refine (lt_first hlt _ (idxs_lt (ho.1 q rfl).2)).mono (fun l hl => ⟨q.1, q.2, fun i v hi => ?_, hl⟩) id
    obtain ⟨q', h1, h2⟩ := ho.2 i v hi
    cases h1
    exact h2

theorem lt_get {ik : Bytes} : (getFromList cfg lk ik).Types cfg (LT cfg lk s W) True (fun o => ∀ i, s i = some ik → ∃ v, o = some v ∧ W ik v) := by
  unfold getFromList
  refine types_getRaw.bind' (fun o ho => ?_)
  cases o with
  | none =>
    intro i hi
    obtain ⟨_, _, e⟩ := (ho.item ik rfl).stays i hi
    cases e
  | some b =>
    refine (types_splitVal (shape_item.1 ho.shape)).bind' (fun x hx => ?_)
    obtain ⟨old, suffix⟩ := x
    intro i hi
    obtain ⟨v, hv, e⟩ := (ho.item ik rfl).stays i hi
    injection e with e
    rw [hx.1] at e
    have e' : old = v := (List.append_inj' e (by have := hx.2; dsimp only at this; rw [this]; simp)).1
    refine ⟨old, rfl, ?_⟩
    rw [e']
    exact hv

theorem lt_len : (listLen lk).Types cfg (LT cfg lk s W) True anyRes := by
  unfold listLen
  refine types_getRaw.bind' (fun o ho => ?_)
  cases o with
  | none => trivial
  | some b => exact (types_decMeta (shape_list.1 ho.shape)).bind' (fun _ _ => trivial)

/-! ## Writing -/

theorem lt_newItem {ik v : Bytes} (hf : Free s ik) : (insertNewItem cfg lk ik v).Types cfg (LT cfg lk s W) True (fun a => ∃ u, a = .created u) := by
  unfold insertNewItem
  have hF : FIRST_IDX < U64 := by decide
  have hF1 : FIRST_IDX + 1 < U64 := by decide
  have fin : ∀ i, i < U64 → s i = none → (setRaw (chainKey (cfg.listPh lk) i) (enc64 (cfg.ph (itemKey (cfg.listPh lk) ik)).toNat) >>= fun _ =>
      setRaw (itemKey (cfg.listPh lk) ik) (v ++ enc64 i) >>= fun _ => pure (ListIns.created v)).Types cfg (LT cfg lk s W) True (fun a => ∃ u, a = .created u) := by
    intro i hi hn
    refine (types_setRaw ((lt_chain hi (shape_chain.2 ⟨_, rfl⟩)).2 (fun ik' h => by rw [hn] at h; cases h))).bind' (fun _ _ => ?_)
    exact (types_setRaw ((lt_item (shape_item.2 (by simp))).2 (itemT_new hf hi hn))).bind' (fun _ _ => ⟨v, rfl⟩)
  refine (types_gocRaw' (fun h => lt_enc hF hF1 (fun i v hi => by rw [lt_rec_none.1 h i] at hi; cases hi))).bind' (fun st hst => ?_)
  rcases hst with ⟨rfl, h⟩ | ⟨b, rfl, hb⟩
  · exact fin FIRST_IDX hF (lt_rec_none.1 h _)
  · obtain ⟨h1, h2⟩ := lt_rec.1 hb
    refine (types_decMeta' h1).bind' (fun q hq => ?_)
    have hb1 := metaHead_lt h1
    have hb2 := metaTail_lt h1
    refine types_idxSucc.bind' (fun t ht => types_idxSucc.bind' (fun _ _ => ?_))
    refine (types_setRaw (lt_enc (by omega) (by omega) (fun i v hi => by have := h2 i v hi; omega))).bind' (fun _ _ => ?_)
    refine fin q.tail (by omega) ?_
    cases hi : s q.tail with
    | none => rfl
    | some v => have := h2 _ v hi; omega

theorem lt_update {ik v b : Bytes} {mode : Mode} (hb : LT cfg lk s W (itemKey (cfg.listPh lk) ik) (some b)) (hW : (∃ i, s i = some ik) → W ik v ∨ mode = .getOrCreate) :
    (updateItem (cfg.listPh lk) ik v mode b).Types cfg (LT cfg lk s W) True anyRes := by
  unfold updateItem
  refine (types_splitVal (shape_item.1 hb.shape)).bind' (fun x hx => ?_)
  obtain ⟨old, suffix⟩ := x
  have h2 : suffix.length = 8 := hx.2
  have hw : ((∃ i, s i = some ik) → W ik v) → LT cfg lk s W (itemKey (cfg.listPh lk) ik) (some (v ++ suffix)) := fun hW' =>
    (lt_item (shape_item.2 (by simp only [List.length_append]; omega))).2 (itemT_update (by rw [← show b = old ++ suffix from hx.1]; exact hb.item ik rfl) h2 hW')
  dsimp only
  split
  · trivial
  · split
    · trivial
    · exact (types_replaceRaw (hw (fun h => (hW h).elim id (fun e => by cases e)))).bind' (fun _ _ => trivial)
  · rename_i hg _
    exact (types_replaceRaw (hw (fun h => (hW h).elim id (fun e => absurd e (by intro e; subst e; exact hg rfl))))).bind' (fun _ _ => trivial)

theorem lt_insert {ik v : Bytes} {mode : Mode} (hW : (∃ i, s i = some ik) → W ik v ∨ mode = .getOrCreate) : (insertToList cfg lk ik v mode).Types cfg (LT cfg lk s W) True anyRes := by
  refine types_withLock ?_
  unfold insertToListBody
  refine types_getRaw.bind' (fun o ho => ?_)
  cases o with
  | some b => exact lt_update ho hW
  | none =>
    have hf : Free s ik := fun i hi => by
      obtain ⟨_, _, e⟩ := (ho.item ik rfl).stays i hi
      cases e
    dsimp only
    split
    · trivial
    · exact (lt_newItem hf).mono (fun _ _ => trivial) id

theorem lt_removeMeta {idx : Nat} {b : Bytes} (hb : LT cfg lk s W (listKey lk) (some b)) (hn : s idx = none) : (removeMeta lk idx b).Types cfg (LT cfg lk s W) True anyRes := by
  obtain ⟨h1, h2⟩ := lt_rec.1 hb
  have hb1 := metaHead_lt h1
  have hb2 := metaTail_lt h1
  have hne : ∀ i v, s i = some v → i ≠ idx := fun i v hi e1 => by subst e1; rw [hn] at hi; cases hi
  unfold removeMeta
  refine (types_decMeta' h1).bind' (fun q hq => (types_numPred trivial).bind' (fun num _ => ?_))
  have fin : ∀ h t, h < U64 → t < U64 → (∀ i v, s i = some v → h ≤ i ∧ i < t) →
      (if h = t then Prog.removeRaw (listKey lk) >>= fun _ => pure () else setRaw (listKey lk) (encMeta h t num) >>= fun _ => pure ()).Types cfg (LT cfg lk s W) True anyRes := by
    intro h t hh ht hs
    split
    · rename_i e1
      refine (types_removeRaw (lt_rec_none.2 (fun i => ?_))).bind' (fun _ _ => trivial)
      cases hi : s i with
      | none => rfl
      | some v => have := hs i v hi; omega
    · exact (types_setRaw (lt_enc hh ht hs)).bind' (fun _ _ => trivial)
  have mid : ∀ h, h < U64 → (∀ i v, s i = some v → h ≤ i) → (if q.head ≠ idx ∧ q.tail = idx + 1 then idxPred q.tail >>= fun t =>
        (if h = t then Prog.removeRaw (listKey lk) >>= fun _ => pure () else setRaw (listKey lk) (encMeta h t num) >>= fun _ => pure ())
      else (pure q.tail : Prog Nat) >>= fun t => (if h = t then Prog.removeRaw (listKey lk) >>= fun _ => pure () else setRaw (listKey lk) (encMeta h t num) >>= fun _ => pure ())).Types cfg (LT cfg lk s W) True anyRes := by
    intro h hh hs
    split
    · refine types_idxPred.bind' (fun t ht => fin h t hh (by omega) (fun i v hi => ⟨hs i v hi, ?_⟩))
      have := h2 i v hi
      have := hne i v hi
      omega
    · exact fin h q.tail hh (by omega) (fun i v hi => ⟨hs i v hi, by have := h2 i v hi; omega⟩)
  dsimp only
  split
  · refine types_idxSucc.bind' (fun h hh => mid h (by omega) (fun i v hi => ?_))
    have := h2 i v hi
    have := hne i v hi
    omega
  · exact mid q.head (by omega) (fun i v hi => by have := h2 i v hi; omega)

theorem lt_remove {ik : Bytes} (hf : Free s ik) : (removeFromList cfg lk ik).Types cfg (LT cfg lk s W) True anyRes := by
  refine types_withLock ?_
  unfold removeFromListBody
  refine types_getRaw.bind' (fun o ho => ?_)
  cases o with
  | none => trivial
  | some b =>
    refine (types_splitVal (shape_item.1 ho.shape)).bind' (fun x hx => ?_)
    obtain ⟨old, suffix⟩ := x
    obtain ⟨hlt, henc⟩ := dec64_of_length (show suffix.length = 8 from hx.2)
    have hn : s (dec64 suffix) = none := by
      cases hi : s (dec64 suffix) with
      | none => rfl
      | some ik' =>
        have := (ho.item ik rfl).own old (dec64 suffix) hlt (by rw [henc, show b = old ++ suffix from hx.1]) ik' hi
        subst this
        exact absurd hi (hf _)
    dsimp only
    have fin : (Prog.removeRaw (chainKey (cfg.listPh lk) (dec64 suffix)) >>= fun _ => Prog.removeRaw (itemKey (cfg.listPh lk) ik) >>= fun _ => (pure (some old) : Prog (Option Bytes))).Types cfg (LT cfg lk s W) True anyRes := by
      refine (types_removeRaw ((lt_chain hlt shape_none).2 (fun ik' h => by rw [hn] at h; cases h))).bind' (fun _ _ => ?_)
      exact (types_removeRaw ((lt_item shape_none).2 (itemT_none hf))).bind' (fun _ _ => trivial)
    refine types_getRaw.bind' (fun o ho => ?_)
    cases o with
    | none => exact fin
    | some b => exact (lt_removeMeta ho hn).bind' (fun _ _ => fin)

/-! ## Taking -/

theorem fated_remove {ik : Bytes} (hs : ∃ i, s i = some ik) (hD : D) : (removeFromList cfg lk ik).TD cfg (LT cfg lk s W) D (fun _ => False) (fun o : Option Bytes => ∃ v, o = some v) := by
  obtain ⟨i, hi⟩ := hs
  refine td_withLock ?_
  unfold removeFromListBody
  intro x hx
  obtain ⟨v, _, rfl⟩ := (hx.item ik rfl).stays i hi
  refine .inr ⟨hD, ?_⟩
  show Prog.Fated _ (splitVal _ >>= _)
  refine Prog.Fated.const (fun a => ?_)
  obtain ⟨old, suffix⟩ := a
  refine Prog.Fated.const (fun o => ?_)
  cases o with
  | none => exact Prog.Fated.const (fun _ => Prog.Fated.const (fun _ => ⟨old, rfl⟩))
  | some b => exact Prog.Fated.const (fun _ => Prog.Fated.const (fun _ => Prog.Fated.const (fun _ => ⟨old, rfl⟩)))

/-- A pop that takes none of the items that stay, though there is one. -/
def PassesL (s : Nat → Option Bytes) (is : List Nat) (o : Option KV) : Prop := ∀ i ik, i ∈ is → s i = some ik → ∃ kv, o = some kv ∧ Free s kv.1
def TakesL (s : Nat → Option Bytes) (o : Option KV) : Prop := ∃ kv i, o = some kv ∧ s i = some kv.1

theorem lt_popIdx (hlt : ∀ i ik, s i = some ik → i < U64) (hD : D) : ∀ is : List Nat, (∀ i ∈ is, i < U64) → (popIdx cfg lk is).TD cfg (LT cfg lk s W) D (PassesL s is) (TakesL s)
  | [], _ => fun i ik h => by cases h
  | i :: is, h => by
    have ih := lt_popIdx hlt hD is (fun j hj => h j (List.mem_cons_of_mem _ hj))
    unfold popIdx
    refine Prog.TD.bind' (P := fun _ => False) (Prog.Types.td (Pan := True) (lt_getAtT (h i List.mem_cons_self) hlt)) (fun o ho => ?_) (fun _ h => h.elim)
    have skip : s i = none → ∀ o', PassesL s is o' → PassesL s (i :: is) o' := by
      intro hn o' ho' j ik hj hs
      rcases List.mem_cons.1 hj with rfl | hj
      · rw [hn] at hs; cases hs
      · exact ho' j ik hj hs
    cases hi : s i with
    | none =>
      cases o with
      | none => exact ih.mono (skip hi) (fun _ h => h)
      | some kv =>
        have hf := ho.2 hi kv rfl
        refine Prog.TD.bind' (P := fun _ => False) (Prog.Types.td (Pan := True) (lt_remove hf)) (fun r _ => ?_) (fun _ h => h.elim)
        cases r with
        | none => exact ih.mono (skip hi) (fun _ h => h)
        | some u => exact fun j ik hj hs => ⟨kv, rfl, hf⟩
    | some ik =>
      obtain ⟨v, _, rfl⟩ := ho.1 ik hi
      refine Prog.TD.bind' (fated_remove ⟨i, hi⟩ hD) (fun _ h => h.elim) (fun r hr => ?_)
      obtain ⟨u, rfl⟩ := hr
      exact ⟨(ik, v), i, rfl, hi⟩

theorem lt_pop (hlt : ∀ i ik, s i = some ik → i < U64) (hD : D) {fwd : Bool} : (popList cfg lk fwd).TD cfg (LT cfg lk s W) D (fun o => ∀ i ik, s i = some ik → ∃ kv, o = some kv ∧ Free s kv.1) (TakesL s) := by
  unfold popList
  refine Prog.TD.bind' (P := fun _ => False) (Prog.Types.td (Pan := True) lt_range) (fun o ho => ?_) (fun _ h => h.elim)
  cases o with
  | none =>
    intro i ik hi
    obtain ⟨q, h, _⟩ := ho.2 i ik hi
    cases h
  | some q =>
    refine (lt_popIdx hlt hD _ (idxs_lt (ho.1 q rfl).2)).mono (fun o' ho' => ?_) (fun _ h => h)
    intro i ik hi
    obtain ⟨q', h1, h2⟩ := ho.2 i ik hi
    cases h1
    exact ho' i ik (mem_idxs.2 h2) hi

/-! ## Every call -/

theorem lt_setInList {ik v : Bytes} (hW : (∃ i, s i = some ik) → W ik v) : (setInList cfg lk ik v false).Types cfg (LT cfg lk s W) True anyRes := by
  unfold setInList
  refine (lt_insert (fun h => .inl (hW h))).bind' (fun a _ => ?_)
  cases a <;> trivial

theorem lt_setPromoting {ik v : Bytes} (hf : Free s ik) : (setInList cfg lk ik v true).Types cfg (LT cfg lk s W) True anyRes := by
  unfold setInList
  refine (lt_remove hf).bind' (fun _ _ => ?_)
  refine (lt_insert (fun ⟨i, hi⟩ => absurd hi (hf i))).bind' (fun a _ => ?_)
  cases a <;> trivial

theorem lt_replaceInList {ik v : Bytes} {e : Option Bytes} (hW : (∃ i, s i = some ik) → W ik v) : (replaceInList cfg lk ik v e).Types cfg (LT cfg lk s W) True anyRes := by
  unfold replaceInList
  refine (lt_insert (fun h => .inl (hW h))).bind' (fun a _ => ?_)
  cases a <;> trivial

theorem lt_getOrCreateInList {ik v : Bytes} : (getOrCreateInList cfg lk ik v).Types cfg (LT cfg lk s W) True anyRes := by
  unfold getOrCreateInList
  refine (lt_insert (fun _ => .inr rfl)).bind' (fun a _ => ?_)
  cases a <;> trivial

/-- What the answers show of the items. -/
def ShowsL (lk : Bytes) (K : Bytes → Bool) (s : Nat → Option Bytes) (W : Bytes → Bytes → Prop) (c : Call) (r : Resp) : Prop :=
  (∀ fwd l, c = .list lk (.iter fwd) → r = .items l → (∃ h t, (∀ i ik, s i = some ik → h ≤ i ∧ i < t) ∧ (l.map Prod.fst).filter K = (idxs fwd h t).filterMap s) ∧ ∀ kv ∈ l, K kv.1 = true → W kv.1 kv.2) ∧
  (∀ fwd o, c = .list lk (.peek fwd) → r = .item o → ∃ h t, (∀ i ik, s i = some ik → h ≤ i ∧ i < t) ∧ PeekT s W (idxs fwd h t) o) ∧
  (∀ fwd o, c = .list lk (.pop fwd) → r = .item o → ∀ i ik, s i = some ik → ∃ kv, o = some kv ∧ Free s kv.1)

def TakesItem (lk : Bytes) (s : Nat → Option Bytes) (c : Call) (r : Resp) : Prop := ∃ fwd o, c = .list lk (.pop fwd) ∧ r = .item o ∧ TakesL s o

theorem showsL_other {c : Call} {r : Resp} (h : ∀ op, c ≠ .list lk op) : ShowsL lk K s W c r :=
  ⟨fun _ _ h1 => absurd h1 (h _), fun _ _ h1 => absurd h1 (h _), fun _ _ h1 => absurd h1 (h _)⟩

theorem ltd_call (hK : Tells K s) (hlt : ∀ i ik, s i = some ik → i < U64) (hne : ∃ i ik, s i = some ik) (c : Call) (hc : ∀ i ik, s i = some ik → ¬ c.removesItem lk ik)
    (hcomp : ∀ par, c ≠ .list lk (.compact par)) (hclash : ∀ lk' op, c = .list lk' op → cfg.listPh lk' = cfg.listPh lk → lk' = lk) (hW : ∀ ik v, c.putsItem lk ik v → W ik v) :
    (c.prog cfg).TD cfg (LT cfg lk s W) (∃ fwd, c = .list lk (.pop fwd)) (ShowsL lk K s W c) (TakesItem lk s c) := by
  by_cases hq : ∃ op, c = .list lk op
  · obtain ⟨op, rfl⟩ := hq
    obtain ⟨i0, k0, h0⟩ := hne
    cases op with
    | set ik v => exact Prog.Types.td (Pan := True) (types_tag (lt_setInList (fun _ => hW ik v (.inl rfl))) (fun _ _ => ⟨nofun, nofun, nofun⟩))
    | setPromoting ik v => exact Prog.Types.td (Pan := True) (types_tag (lt_setPromoting (fun i hi => hc i ik hi (.inr (.inr ⟨v, rfl⟩)))) (fun _ _ => ⟨nofun, nofun, nofun⟩))
    | replace ik v e => exact Prog.Types.td (Pan := True) (types_tag (lt_replaceInList (fun _ => hW ik v (.inr (.inl ⟨e, rfl⟩)))) (fun _ _ => ⟨nofun, nofun, nofun⟩))
    | getOrCreate ik v => exact Prog.Types.td (Pan := True) (types_tag lt_getOrCreateInList (fun _ _ => ⟨nofun, nofun, nofun⟩))
    | get ik => exact Prog.Types.td (Pan := True) (types_tag lt_get (fun _ _ => ⟨nofun, nofun, nofun⟩))
    | remove ik => exact Prog.Types.td (Pan := True) (types_tag (lt_remove (fun i hi => hc i ik hi (.inr (.inl rfl)))) (fun _ _ => ⟨nofun, nofun, nofun⟩))
    | iter fwd => exact Prog.Types.td (Pan := True) (types_tag (lt_iter hK hlt) (fun l hl => ⟨(fun f l' h1 h2 => by cases h1; cases h2; exact hl), nofun, nofun⟩))
    | peek fwd => exact Prog.Types.td (Pan := True) (types_tag (lt_peek hlt) (fun l hl => ⟨nofun, (fun f l' h1 h2 => by cases h1; cases h2; exact hl), nofun⟩))
    | pop fwd => exact (lt_pop hlt ⟨fwd, rfl⟩).bind (fun o ho => ⟨nofun, nofun, (fun f o' h1 h2 => by cases h1; cases h2; exact ho)⟩) (fun o ho => ⟨fwd, o, rfl, rfl, ho⟩)
    | compact par => exact absurd rfl (hcomp par)
    | discard => exact absurd (.inl rfl) (hc i0 k0 h0)
    | len => exact Prog.Types.td (Pan := True) (types_tag lt_len (fun _ _ => ⟨nofun, nofun, nofun⟩))
  · have hq' : ∀ op, c ≠ .list lk op := fun op h => hq ⟨op, h⟩
    refine Prog.Types.td (Pan := True) (Prog.Types.mono (Q := anyRes) ?_ (fun _ _ => showsL_other hq') id)
    refine Prog.Types.within (types_call c (fun _ => trivial)) (within_call cfg c) (fun k hk o ho => lt_of_not ?_ ho) (fun k o h => h.shape)
    intro hf
    cases c with
    | kv k' op => exact user_notL ((show k = userKey k' from hk) ▸ hf)
    | typed k' op => exact typed_notL ((show k = typedKey k' from hk) ▸ hf)
    | list lk' op =>
      have hne : lk' ≠ lk := fun h => hq' op (by rw [h])
      exact foot_LL hk hf hne (fun e => hne (hclash lk' op rfl e))
    | queue qk' op => exact foot_LQ hf hk

end
end Candy
