import Verif.Proofs.Shape
import Verif.Spec.Origin
/-!
# The values in the store have been given by calls
-/
namespace Candy
open Spec

/-- The value of a raw key consists of a value satisfying `G` for the object, and bookkeeping data. -/
structure Orig (cfg : Cfg) (G : Obj → Bytes → Prop) (k b : Bytes) : Prop where
  kv : ∀ uk, k = userKey uk → G (.kv uk) b
  typed : ∀ tk, k = typedKey tk → G (.typed tk) b
  item : ∀ lk ik, k = itemKey (cfg.listPh lk) ik → ∃ v c, b = v ++ c ∧ c.length = 8 ∧ G (.item lk ik) v
  elem : ∀ qk i, k = qitemKey qk i → G (.elem qk) b

def OT (cfg : Cfg) (G : Obj → Bytes → Prop) : Typing := fun k o => Shape cfg k o ∧ ∀ b, o = some b → Orig cfg G k b

/-- Mixed lists are not distinguished. -/
def Even (cfg : Cfg) (G : Obj → Bytes → Prop) : Prop := ∀ lk lk' ik v, cfg.listPh lk = cfg.listPh lk' → G (.item lk ik) v → G (.item lk' ik) v

section
variable {cfg : Cfg} {G : Obj → Bytes → Prop}

theorem ot_none {k : Bytes} : OT cfg G k none := ⟨shape_none, fun _ h => by cases h⟩
theorem ot_empty : (OT cfg G).Of Map.empty := fun _ => ot_none

theorem ns_absurd {a b : Bytes} {x y : UInt8} {P : Prop} (h : x ≠ y) (e : a ++ [x] = b ++ [y]) : P := absurd e (ne_of_ns h)

macro "nsne" : tactic => `(tactic| (simp only [listKey_eq, queueKey_eq, itemKey_eq, chainKey_eq, qitemKey_eq, userKey_eq, typedKey_eq]
                                    first | exact fun _ => ns_absurd (by decide) | exact fun _ _ => ns_absurd (by decide)))

theorem ot_list {lk b : Bytes} : OT cfg G (listKey lk) (some b) ↔ b.length = 24 :=
  ⟨fun h => shape_list.1 h.1, fun h => ⟨shape_list.2 h, fun b' _ => ⟨by nsne, by nsne, by nsne, by nsne⟩⟩⟩
theorem ot_queue {qk b : Bytes} : OT cfg G (queueKey qk) (some b) ↔ b.length = 24 :=
  ⟨fun h => shape_queue.1 h.1, fun h => ⟨shape_queue.2 h, fun b' _ => ⟨by nsne, by nsne, by nsne, by nsne⟩⟩⟩
theorem ot_chain {lph : PH} {i : Nat} {b : Bytes} : OT cfg G (chainKey lph i) (some b) ↔ ∃ k, b = enc64 (cfg.ph k).toNat :=
  ⟨fun h => shape_chain.1 h.1, fun h => ⟨shape_chain.2 h, fun b' _ => ⟨by nsne, by nsne, by nsne, by nsne⟩⟩⟩
theorem ot_user {k b : Bytes} : OT cfg G (userKey k) (some b) ↔ G (.kv k) b := by
  refine ⟨fun h => (h.2 b rfl).kv k rfl, fun h => ⟨shape_user, fun b' e => ?_⟩⟩
  injection e with e
  subst e
  exact ⟨fun uk e => userKey_inj e ▸ h, by nsne, by nsne, by nsne⟩
theorem ot_typed {k b : Bytes} : OT cfg G (typedKey k) (some b) ↔ G (.typed k) b := by
  refine ⟨fun h => (h.2 b rfl).typed k rfl, fun h => ⟨shape_typed, fun b' e => ?_⟩⟩
  injection e with e
  subst e
  exact ⟨by nsne, fun uk e => typedKey_inj e ▸ h, by nsne, by nsne⟩
theorem ot_qitem {qk b : Bytes} {i : Nat} : OT cfg G (qitemKey qk i) (some b) ↔ G (.elem qk) b := by
  refine ⟨fun h => (h.2 b rfl).elem qk i rfl, fun h => ⟨shape_qitem, fun b' e => ?_⟩⟩
  injection e with e
  subst e
  refine ⟨by nsne, by nsne, by nsne, fun qk' j e => ?_⟩
  rw [qitemKey_eq, qitemKey_eq] at e
  have h2 := (List.append_inj' (append_single_inj e).1 (by simp)).1
  exact h2 ▸ h

theorem ot_item_of {lk ik b : Bytes} (h : OT cfg G (itemKey (cfg.listPh lk) ik) (some b)) : ∃ v c, b = v ++ c ∧ c.length = 8 ∧ G (.item lk ik) v := (h.2 b rfl).item lk ik rfl
theorem ot_item (hG : Even cfg G) {lk ik v c : Bytes} (hc : c.length = 8) (h : G (.item lk ik) v) : OT cfg G (itemKey (cfg.listPh lk) ik) (some (v ++ c)) := by
  refine ⟨shape_item.2 (by simp only [List.length_append]; omega), fun b' e => ?_⟩
  injection e with e
  subst e
  refine ⟨by nsne, by nsne, fun lk' ik' e => ?_, by nsne⟩
  obtain ⟨h1, rfl⟩ := itemKey_inj e
  exact ⟨v, c, rfl, hc, hG _ _ _ _ h1 h⟩

/-! ## Raw operations -/

theorem types_setRaw' {T : Typing} {k v : Bytes} (h : T k (some v)) : (setRaw k v).Types cfg T True (fun s => ∀ b, s = .prevValue b → T k (some b)) := by
  refine (types_insertInternal h).bind' ?_
  rintro _ ⟨x, hx, rfl⟩
  cases x with
  | none => intro b e; cases e
  | some o => intro b e; cases e; exact hx

theorem types_replaceRaw' {T : Typing} {k v : Bytes} {e : Option Bytes} (h : T k (some v)) :
    (replaceRaw k v e).Types cfg T True (fun s => ∀ b, s = .prevValue b ∨ s = .wrongValue b → T k (some b)) := by
  refine (types_insertInternal h).bind' ?_
  rintro _ ⟨x, hx, rfl⟩
  cases x with
  | none => intro b e; rcases e with e | e <;> cases e
  | some o =>
    cases e with
    | none => intro b e; rcases e with e | e <;> cases e; exact hx
    | some e =>
      by_cases h : e = o
      · simp only [insertAt, if_pos h]; intro b e; rcases e with e | e <;> cases e; exact hx
      · simp only [insertAt, if_neg h]; intro b e; rcases e with e | e <;> cases e; exact hx

/-- The programs of the key-value calls without the check of sizes. -/
def rawKv (k : Bytes) : KvOp → Prog Resp
  | .get => (Prog.getRaw k).tag .val
  | .contains => (Prog.getRaw k).tag (fun o => .flag o.isSome)
  | .remove => (Prog.removeRaw k).tag .val
  | .set v => (setRaw k v).tag .setStatus
  | .replace v e => (replaceRaw k v e).tag .replaceStatus
  | .getOrCreate v => (gocRaw k v).tag .gocStatus

/-- The answers of key-value calls contain only values of the key. -/
theorem held_kv {T : Typing} {k : Bytes} {op : KvOp} (hv : ∀ v, op = .set v ∨ (∃ e, op = .replace v e) ∨ op = .getOrCreate v → T k (some v)) (hn : T k none) :
    (rawKv k op).Types cfg T True (fun r => ∀ b, Held r b → T k (some b)) := by
  cases op with
  | get => exact types_tag types_getRaw (fun a ha b h => by cases h; exact ha)
  | contains => exact types_tag types_getRaw (fun a ha b h => by cases h)
  | remove => exact types_tag (types_removeRaw hn) (fun a ha b h => by cases h; exact ha)
  | set v => exact types_tag (types_setRaw' (hv v (.inl rfl))) (fun a ha b h => by cases h; exact ha _ rfl)
  | replace v e => exact types_tag (types_replaceRaw' (hv v (.inr (.inl ⟨e, rfl⟩)))) (fun a ha b h => by
      cases h
      · exact ha _ (.inl rfl)
      · exact ha _ (.inr rfl))
  | getOrCreate v => exact types_tag (types_gocRaw (hv v (.inr (.inr rfl)))) (fun a ha b h => by
      rcases ha with ⟨rfl, _⟩ | ⟨o, rfl, ho⟩
      · cases h; exact hv _ (.inr (.inr rfl))
      · cases h; exact ho)

/-! ## Lists: reading -/

section
variable {lk ik : Bytes}

theorem otypes_getAtIndex {i : Nat} : (getAtIndex (cfg.listPh lk) i).Types cfg (OT cfg G) True
    (fun o => ∀ iph k v, o = some (iph, k, v) → (∃ k', iph = cfg.ph k') ∧ ∃ ik u c, k = itemKey (cfg.listPh lk) ik ∧ v = u ++ c ∧ c.length = 8 ∧ G (.item lk ik) u) := by
  unfold getAtIndex
  refine types_getRaw.bind' (fun o ho => ?_)
  split
  · intro _ _ _ h; cases h
  · rename_i b
    obtain ⟨k', rfl⟩ := ot_chain.1 ho
    simp only [enc64_length, ne_eq, not_true_eq_false, if_false, phOf_enc]
    intro m l hm hl
    dsimp only
    split
    · intro _ _ _ h; cases h
    · rename_i kv hkv
      intro iph k v h
      simp only [Option.some.injEq, Prod.mk.injEq] at h
      obtain ⟨rfl, rfl, rfl⟩ := h
      have hmem := List.mem_of_find?_eq_some hkv
      obtain ⟨ik, hik⟩ := endsWith_item.1 (hl.suffix kv hmem)
      have h1 := hm kv.1
      rw [hl.sound (cfg.ph_sig_ne k') kv hmem, hik] at h1
      obtain ⟨u, c, h2, h3, h4⟩ := ot_item_of h1
      exact ⟨⟨k', rfl⟩, ik, u, c, hik, h2, h3, h4⟩

theorem take_item {v c : Bytes} (hc : c.length = 8) : (v ++ c).take ((v ++ c).length - 8) = v := by
  rw [List.length_append, hc, Nat.add_sub_cancel, List.take_left]

theorem take_itemKey {lph : PH} : (itemKey lph ik).take ((itemKey lph ik).length - 9) = ik := by
  have : (itemSuffix lph).length = 9 := by simp [itemSuffix, ITEM_NS]
  unfold itemKey
  rw [List.length_append, this, Nat.add_sub_cancel, List.take_left]

theorem otypes_getAtIndexT {i : Nat} : (getAtIndexT (cfg.listPh lk) i).Types cfg (OT cfg G) True (fun o => ∀ kv, o = some kv → G (.item lk kv.1) kv.2) := by
  unfold getAtIndexT
  refine otypes_getAtIndex.bind' (fun o ho => ?_)
  split
  · intro kv e; cases e
  · intro kv e
    cases e
    obtain ⟨_, ik, u, c, rfl, rfl, hc, h⟩ := ho _ _ _ rfl
    dsimp only
    rw [take_itemKey, take_item hc]
    exact h

theorem otypes_collectIdx : ∀ is, (collectIdx (cfg.listPh lk) is).Types cfg (OT cfg G) True (fun l => ∀ kv ∈ l, G (.item lk kv.1) kv.2)
  | [] => fun kv h => by cases h
  | i :: is => by
    unfold collectIdx
    refine otypes_getAtIndexT.bind' (fun o ho => ?_)
    split
    · exact otypes_collectIdx is
    · refine (otypes_collectIdx is).bind' (fun l hl kv h => ?_)
      rcases List.mem_cons.1 h with rfl | h
      · exact ho _ rfl
      · exact hl _ h

theorem otypes_firstIdx : ∀ is, (firstIdx (cfg.listPh lk) is).Types cfg (OT cfg G) True (fun o => ∀ kv, o = some kv → G (.item lk kv.1) kv.2)
  | [] => fun kv h => by cases h
  | i :: is => by
    unfold firstIdx
    refine otypes_getAtIndexT.bind' (fun o ho => ?_)
    split
    · exact otypes_firstIdx is
    · exact ho

theorem otypes_listRange : (listRange cfg lk).Types cfg (OT cfg G) True anyRes := by
  unfold listRange
  refine (types_withLock types_getRaw).bind' (fun o ho => ?_)
  split
  · trivial
  · exact (types_decMeta (ot_list.1 ho)).bind' (fun _ _ => trivial)

theorem otypes_iterList {fwd : Bool} : (iterList cfg lk fwd).Types cfg (OT cfg G) True (fun l => ∀ kv ∈ l, G (.item lk kv.1) kv.2) := by
  unfold iterList
  refine otypes_listRange.bind' (fun o _ => ?_)
  split
  · intro kv h; cases h
  · exact otypes_collectIdx _

theorem otypes_peekList {fwd : Bool} : (peekList cfg lk fwd).Types cfg (OT cfg G) True (fun o => ∀ kv, o = some kv → G (.item lk kv.1) kv.2) := by
  unfold peekList
  refine otypes_listRange.bind' (fun o _ => ?_)
  split
  · intro kv h; cases h
  · exact otypes_firstIdx _

theorem otypes_splitVal {b : Bytes} {P : Bytes → Prop} (h : ∃ v c, b = v ++ c ∧ c.length = 8 ∧ P v) : (splitVal b).Types cfg (OT cfg G) True (fun x => P x.1 ∧ x.2.length = 8) := by
  obtain ⟨v, c, rfl, hc, hv⟩ := h
  have hl : 8 ≤ (v ++ c).length := by rw [List.length_append]; omega
  refine (types_splitVal hl).mono (fun x hx => ?_) id
  have := List.append_inj' hx.1 (by rw [hx.2, hc])
  exact ⟨this.1 ▸ hv, hx.2⟩

theorem otypes_getFromList : (getFromList cfg lk ik).Types cfg (OT cfg G) True (fun o => ∀ b, o = some b → G (.item lk ik) b) := by
  unfold getFromList
  refine types_getRaw.bind' (fun o ho => ?_)
  split
  · intro b h; cases h
  · refine (otypes_splitVal (ot_item_of ho)).bind' (fun x hx b h => ?_)
    cases h
    exact hx.1

theorem otypes_listLen : (listLen lk).Types cfg (OT cfg G) True anyRes := by
  unfold listLen
  refine types_getRaw.bind' (fun o ho => ?_)
  split
  · trivial
  · exact (types_decMeta (ot_list.1 ho)).bind' (fun _ _ => trivial)

/-! ## Lists: writing -/

macro "otypeauto" : tactic => `(tactic| repeat (first
  | exact trivial
  | exact types_idxSucc.mono (fun _ _ => trivial) id
  | exact types_idxPred.mono (fun _ _ => trivial) id
  | exact types_numPred trivial
  | exact (types_removeRaw ot_none).mono (fun _ _ => trivial) id
  | exact types_setRaw (ot_list.2 (encMeta_length _ _ _))
  | exact types_setRaw (ot_queue.2 (encMeta_length _ _ _))
  | (refine Prog.Types.bind' (Q := anyRes) ?_ (fun _ _ => ?_))
  | split
  | (dsimp only)))

/-- The values in the answer of `_insert_to_list`. -/
def insGiven (P : Bytes → Prop) : ListIns → Prop
  | .created v => P v
  | .doesNotExist => True
  | .wrongValue v => P v
  | .existingValue v => P v
  | .replaced v => P v

theorem otypes_insertNewItem (hG : Even cfg G) {v : Bytes} (hv : G (.item lk ik) v) : (insertNewItem cfg lk ik v).Types cfg (OT cfg G) True (insGiven (G (.item lk ik))) := by
  unfold insertNewItem
  refine (types_gocRaw (ot_list.2 (encMeta_length _ _ _))).bind' (fun st hst => ?_)
  rcases hst with ⟨rfl, _⟩ | ⟨b, rfl, hb⟩
  · refine (types_setRaw (ot_chain.2 ⟨_, rfl⟩)).bind' (fun _ _ => ?_)
    exact (types_setRaw (ot_item hG (enc64_length _) hv)).bind' (fun _ _ => hv)
  · refine (types_decMeta (ot_list.1 hb)).bind' (fun _ _ => ?_)
    refine types_idxSucc.bind' (fun _ _ => types_idxSucc.bind' (fun _ _ => ?_))
    refine (types_setRaw (ot_list.2 (encMeta_length _ _ _))).bind' (fun _ _ => ?_)
    refine (types_setRaw (ot_chain.2 ⟨_, rfl⟩)).bind' (fun _ _ => ?_)
    exact (types_setRaw (ot_item hG (enc64_length _) hv)).bind' (fun _ _ => hv)

theorem otypes_updateItem (hG : Even cfg G) {v b : Bytes} {mode : Mode} (hv : G (.item lk ik) v) (hb : OT cfg G (itemKey (cfg.listPh lk) ik) (some b)) :
    (updateItem (cfg.listPh lk) ik v mode b).Types cfg (OT cfg G) True (insGiven (G (.item lk ik))) := by
  unfold updateItem
  refine (otypes_splitVal (ot_item_of hb)).bind' (fun x hx => ?_)
  obtain ⟨old, suffix⟩ := x
  have hs : OT cfg G (itemKey (cfg.listPh lk) ik) (some (v ++ suffix)) := ot_item hG hx.2 hv
  have ho : G (.item lk ik) old := hx.1
  dsimp only
  split
  · exact ho
  · split
    · exact ho
    · exact (types_replaceRaw hs).bind' (fun _ _ => ho)
  · exact (types_replaceRaw hs).bind' (fun _ _ => ho)

theorem otypes_insertToList (hG : Even cfg G) {v : Bytes} {mode : Mode} (hv : G (.item lk ik) v) :
    (insertToList cfg lk ik v mode).Types cfg (OT cfg G) True (insGiven (G (.item lk ik))) := by
  refine types_withLock ?_
  unfold insertToListBody
  refine types_getRaw.bind' (fun o ho => ?_)
  split
  · exact otypes_updateItem hG hv ho
  · split
    · trivial
    · exact otypes_insertNewItem hG hv

theorem otypes_removeMeta {idx : Nat} {b : Bytes} (hb : b.length = 24) : (removeMeta lk idx b).Types cfg (OT cfg G) True anyRes := by
  unfold removeMeta
  refine (types_decMeta hb).bind' (fun _ _ => (types_numPred trivial).bind' (fun _ _ => ?_))
  otypeauto

theorem otypes_removeFromList : (removeFromList cfg lk ik).Types cfg (OT cfg G) True (fun o => ∀ b, o = some b → G (.item lk ik) b) := by
  refine types_withLock ?_
  unfold removeFromListBody
  refine types_getRaw.bind' (fun o ho => ?_)
  split
  · intro b h; cases h
  · refine (otypes_splitVal (ot_item_of ho)).bind' (fun x hx => ?_)
    obtain ⟨old, suffix⟩ := x
    have ho : G (.item lk ik) old := hx.1
    dsimp only
    have fin : ∀ idx, (Prog.removeRaw (chainKey (cfg.listPh lk) idx) >>= fun _ => Prog.removeRaw (itemKey (cfg.listPh lk) ik) >>= fun _ => (pure (some old) : Prog (Option Bytes))).Types
        cfg (OT cfg G) True (fun o => ∀ b, o = some b → G (.item lk ik) b) := fun idx =>
      (types_removeRaw ot_none).bind' (fun _ _ => (types_removeRaw ot_none).bind' (fun _ _ b h => by cases h; exact ho))
    refine types_getRaw.bind' (fun o ho => ?_)
    split
    · exact (otypes_removeMeta (ot_list.1 ho)).bind' (fun _ _ => fin _)
    · exact fin _

theorem otypes_setInList (hG : Even cfg G) {v : Bytes} {promote : Bool} (hv : G (.item lk ik) v) :
    (setInList cfg lk ik v promote).Types cfg (OT cfg G) True (fun s => ∀ b, s = .prevValue b → G (.item lk ik) b) := by
  have key : (do
      match ← insertToList cfg lk ik v .set with
      | .created _ => return SetStatus.createdNew
      | .replaced v => return .prevValue v
      | _ => .panic : Prog SetStatus).Types cfg (OT cfg G) True (fun s => ∀ b, s = .prevValue b → G (.item lk ik) b) := by
    refine (otypes_insertToList hG hv).bind' (fun a ha => ?_)
    cases a <;> first | trivial | (intro b e; cases e; done) | (intro b e; cases e; exact ha)
  unfold setInList
  cases promote with
  | false => exact key
  | true => exact otypes_removeFromList.bind' (fun _ _ => key)

theorem otypes_replaceInList (hG : Even cfg G) {v : Bytes} {e : Option Bytes} (hv : G (.item lk ik) v) :
    (replaceInList cfg lk ik v e).Types cfg (OT cfg G) True (fun s => ∀ b, s = .prevValue b ∨ s = .wrongValue b → G (.item lk ik) b) := by
  unfold replaceInList
  refine (otypes_insertToList hG hv).bind' (fun a ha => ?_)
  cases a <;> first
    | trivial
    | (intro b e; rcases e with e | e <;> cases e; done)
    | (intro b e; rcases e with e | e <;> cases e; exact ha)

theorem otypes_getOrCreateInList (hG : Even cfg G) {v : Bytes} (hv : G (.item lk ik) v) :
    (getOrCreateInList cfg lk ik v).Types cfg (OT cfg G) True (fun s => ∀ b, s = .existingValue b ∨ s = .createdNew b → G (.item lk ik) b) := by
  unfold getOrCreateInList
  refine (otypes_insertToList hG hv).bind' (fun a ha => ?_)
  cases a <;> first
    | trivial
    | (intro b e; rcases e with e | e <;> cases e; done)
    | (intro b e; rcases e with e | e <;> cases e; exact ha)

theorem otypes_popIdx : ∀ is, (popIdx cfg lk is).Types cfg (OT cfg G) True (fun o => ∀ kv, o = some kv → G (.item lk kv.1) kv.2)
  | [] => fun kv h => by cases h
  | i :: is => by
    unfold popIdx
    refine otypes_getAtIndexT.bind' (fun o ho => ?_)
    split
    · exact otypes_popIdx is
    · refine otypes_removeFromList.bind' (fun o' _ => ?_)
      split
      · exact ho
      · exact otypes_popIdx is

theorem otypes_popList {fwd : Bool} : (popList cfg lk fwd).Types cfg (OT cfg G) True (fun o => ∀ kv, o = some kv → G (.item lk kv.1) kv.2) := by
  unfold popList
  refine otypes_listRange.bind' (fun o _ => ?_)
  split
  · intro kv h; cases h
  · exact otypes_popIdx _

theorem otypes_compactIdx (hG : Even cfg G) : ∀ is new, (compactIdx (cfg.listPh lk) is new).Types cfg (OT cfg G) True anyRes
  | [], _ => trivial
  | i :: is, new => by
    unfold compactIdx
    refine otypes_getAtIndex.bind' (fun o ho => ?_)
    split
    · exact otypes_compactIdx hG is new
    · rename_i iph k v
      obtain ⟨⟨k', rfl⟩, ik, u, c, rfl, rfl, hc, hu⟩ := ho _ _ _ rfl
      refine (types_setRaw (ot_chain.2 ⟨_, rfl⟩)).bind' (fun _ _ => ?_)
      rw [take_item hc]
      refine (types_setRaw (ot_item hG (enc64_length _) hu)).bind' (fun _ _ => ?_)
      refine (types_removeRaw ot_none).bind' (fun _ _ => ?_)
      exact types_idxSucc.bind' (fun _ _ => otypes_compactIdx hG is _)

theorem otypes_compactList (hG : Even cfg G) {par : CompactParams} : (compactList cfg lk par).Types cfg (OT cfg G) True anyRes := by
  refine types_withLock ?_
  unfold compactListBody
  refine types_getRaw.bind' (fun o ho => ?_)
  split
  · trivial
  · refine (types_decMeta (ot_list.1 ho)).bind' (fun _ _ => ?_)
    split
    · trivial
    · split
      · trivial
      · split
        · trivial
        · split
          · trivial
          · refine (otypes_compactIdx hG _ _).bind' (fun _ _ => ?_)
            split
            · exact (types_removeRaw ot_none).bind' (fun _ _ => trivial)
            · exact (types_setRaw (ot_list.2 (encMeta_length _ _ _))).bind' (fun _ _ => trivial)

theorem otypes_discardIdx : ∀ is, (discardIdx (cfg.listPh lk) is).Types cfg (OT cfg G) True anyRes
  | [] => trivial
  | i :: is => by
    unfold discardIdx
    refine otypes_getAtIndex.bind' (fun o ho => ?_)
    split
    · exact otypes_discardIdx is
    · refine (types_removeRaw ot_none).bind' (fun _ _ => ?_)
      exact (types_removeRaw ot_none).bind' (fun _ _ => otypes_discardIdx is)

theorem otypes_discardList : (discardList cfg lk).Types cfg (OT cfg G) True anyRes := by
  refine types_withLock ?_
  unfold discardListBody
  refine types_getRaw.bind' (fun o ho => ?_)
  split
  · trivial
  · refine (types_decMeta (ot_list.1 ho)).bind' (fun _ _ => ?_)
    refine (otypes_discardIdx _).bind' (fun _ _ => ?_)
    exact (types_removeRaw ot_none).bind' (fun _ _ => trivial)

end

/-! ## Queues -/

section
variable {qk : Bytes}

theorem otypes_fetchQueue : (fetchQueue cfg qk).Types cfg (OT cfg G) True anyRes := by
  unfold fetchQueue
  refine (types_withLock types_getRaw).bind' (fun o ho => ?_)
  split
  · trivial
  · exact (types_decMeta (ot_queue.1 ho)).bind' (fun _ _ => trivial)

theorem otypes_collectQ : ∀ is, (collectQ qk is).Types cfg (OT cfg G) True (fun l => ∀ x ∈ l, G (.elem qk) x.2)
  | [] => fun x h => by cases h
  | i :: is => by
    unfold collectQ
    refine types_getRaw.bind' (fun o ho => ?_)
    split
    · exact otypes_collectQ is
    · refine (otypes_collectQ is).bind' (fun l hl x h => ?_)
      rcases List.mem_cons.1 h with rfl | h
      · exact ot_qitem.1 ho
      · exact hl _ h

theorem otypes_firstQ : ∀ is, (firstQ qk is).Types cfg (OT cfg G) True (fun o => ∀ x, o = some x → G (.elem qk) x.2)
  | [] => fun x h => by cases h
  | i :: is => by
    unfold firstQ
    refine types_getRaw.bind' (fun o ho => ?_)
    split
    · exact otypes_firstQ is
    · intro x h; cases h; exact ot_qitem.1 ho

theorem otypes_iterQueue {fwd : Bool} : (iterQueue cfg qk fwd).Types cfg (OT cfg G) True (fun l => ∀ x ∈ l, G (.elem qk) x.2) := by
  unfold iterQueue
  refine otypes_fetchQueue.bind' (fun o _ => ?_)
  split
  · intro x h; cases h
  · exact otypes_collectQ _

theorem otypes_peekQueue {fwd : Bool} : (peekQueue cfg qk fwd).Types cfg (OT cfg G) True (fun o => ∀ x, o = some x → G (.elem qk) x.2) := by
  unfold peekQueue
  refine otypes_fetchQueue.bind' (fun o _ => ?_)
  split
  · intro x h; cases h
  · exact otypes_firstQ _

theorem otypes_queueLen : (queueLen cfg qk).Types cfg (OT cfg G) True anyRes := by
  unfold queueLen
  refine otypes_fetchQueue.bind' (fun o _ => ?_)
  split <;> trivial

theorem otypes_queueRange : (queueRange cfg qk).Types cfg (OT cfg G) True anyRes := by
  unfold queueRange
  refine otypes_fetchQueue.bind' (fun o _ => ?_)
  split <;> trivial

theorem otypes_getBig : (getBig cfg qk).Types cfg (OT cfg G) True (fun o => ∀ b, o = some b → ∃ l, l ≠ [] ∧ b = List.flatten l ∧ ∀ x ∈ l, G (.elem qk) x) := by
  unfold getBig
  refine otypes_iterQueue.bind' (fun l hl => ?_)
  split
  · intro b h; cases h
  · rename_i hne
    intro b h
    cases h
    refine ⟨l.map Prod.snd, by simpa using hne, rfl, fun x hx => ?_⟩
    obtain ⟨y, hy, rfl⟩ := List.mem_map.1 hx
    exact hl y hy

theorem otypes_pushQueue {v : Bytes} {pos : QPos} (hv : G (.elem qk) v) : (pushQueue cfg qk v pos).Types cfg (OT cfg G) True anyRes := by
  refine types_withLock ?_
  unfold pushQueueBody
  refine Prog.Types.bind' (Q := anyRes) ?_ (fun _ _ => (types_setRaw (ot_qitem.2 hv)).bind' (fun _ _ => trivial))
  refine (types_gocRaw (ot_queue.2 (encMeta_length _ _ _))).bind' (fun st hst => ?_)
  rcases hst with ⟨rfl, _⟩ | ⟨b, rfl, hb⟩
  · trivial
  · refine (types_decMeta (ot_queue.1 hb)).bind' (fun _ _ => ?_)
    cases pos with
    | head =>
      refine types_idxPred.bind' (fun _ _ => types_idxSucc.bind' (fun _ _ => ?_))
      exact (types_setRaw (ot_queue.2 (encMeta_length _ _ _))).bind' (fun _ _ => trivial)
    | tail =>
      refine types_idxSucc.bind' (fun _ _ => types_idxSucc.bind' (fun _ _ => ?_))
      exact (types_setRaw (ot_queue.2 (encMeta_length _ _ _))).bind' (fun _ _ => trivial)

theorem otypes_popHeadLoop : ∀ n h, (popHeadLoop qk n h).Types cfg (OT cfg G) True (fun x => ∀ y, x.2 = some y → G (.elem qk) y.2)
  | 0, _ => fun y h => by cases h
  | n + 1, h => by
    unfold popHeadLoop
    refine (types_removeRaw ot_none).bind' (fun o ho => ?_)
    split
    · intro y h; cases h; exact ot_qitem.1 ho
    · exact otypes_popHeadLoop n _

theorem otypes_popTailLoop : ∀ n h, (popTailLoop qk n h).Types cfg (OT cfg G) True (fun x => ∀ y, x.2 = some y → G (.elem qk) y.2)
  | 0, _ => fun y h => by cases h
  | n + 1, h => by
    unfold popTailLoop
    refine (types_removeRaw ot_none).bind' (fun o ho => ?_)
    split
    · intro y h; cases h; exact ot_qitem.1 ho
    · exact otypes_popTailLoop n _

theorem otypes_putQueueMeta {h t n : Nat} : (putQueueMeta qk h t n).Types cfg (OT cfg G) True anyRes := by
  unfold putQueueMeta
  split
  · exact (types_removeRaw ot_none).bind' (fun _ _ => trivial)
  · exact (types_setRaw (ot_queue.2 (encMeta_length _ _ _))).bind' (fun _ _ => trivial)

theorem otypes_popQueue {pos : QPos} : (popQueue cfg qk pos).Types cfg (OT cfg G) True (fun o => ∀ y, o = some y → G (.elem qk) y.2) := by
  refine types_withLock ?_
  unfold popQueueBody
  refine types_getRaw.bind' (fun o ho => ?_)
  split
  · intro y h; cases h
  · refine (types_decMeta (ot_queue.1 ho)).bind' (fun q _ => ?_)
    cases pos with
    | head =>
      refine (otypes_popHeadLoop _ _).bind' (fun x hx => ?_)
      obtain ⟨a, b⟩ := x
      dsimp only at hx ⊢
      split
      · exact (types_numPred trivial).bind' (fun _ _ => otypes_putQueueMeta.bind' (fun _ _ => hx))
      · exact otypes_putQueueMeta.bind' (fun _ _ => hx)
    | tail =>
      refine (otypes_popTailLoop _ _).bind' (fun x hx => ?_)
      obtain ⟨a, b⟩ := x
      dsimp only at hx ⊢
      split
      · exact (types_numPred trivial).bind' (fun _ _ => otypes_putQueueMeta.bind' (fun _ _ => hx))
      · exact otypes_putQueueMeta.bind' (fun _ _ => hx)

theorem otypes_removeFromQueue {idx : Nat} : (removeFromQueue cfg qk idx).Types cfg (OT cfg G) True (fun o => ∀ b, o = some b → G (.elem qk) b) := by
  refine types_withLock ?_
  unfold removeFromQueueBody
  refine (types_removeRaw ot_none).bind' (fun o ho => ?_)
  split
  · intro b h; cases h
  · rename_i v
    have hv : ∀ b, some v = some b → G (.elem qk) b := fun b h => by cases h; exact ot_qitem.1 ho
    refine types_getRaw.bind' (fun o ho => ?_)
    split
    · exact hv
    · refine (types_decMeta (ot_queue.1 ho)).bind' (fun _ _ => ?_)
      repeat (first
        | exact (types_numPred trivial).bind' (fun _ _ => otypes_putQueueMeta.bind' (fun _ _ => hv))
        | split
        | refine types_idxSucc.bind' (fun _ _ => ?_)
        | refine types_idxPred.bind' (fun _ _ => ?_)
        | dsimp only)

theorem otypes_discardQLoop : ∀ is, (discardQLoop qk is).Types cfg (OT cfg G) True anyRes
  | [] => trivial
  | i :: is => by
    unfold discardQLoop
    exact (types_removeRaw ot_none).bind' (fun _ _ => otypes_discardQLoop is)

theorem otypes_discardQueue : (discardQueue cfg qk).Types cfg (OT cfg G) True anyRes := by
  refine types_withLock ?_
  unfold discardQueueBody
  refine types_getRaw.bind' (fun o ho => ?_)
  split
  · trivial
  · refine (types_decMeta (ot_queue.1 ho)).bind' (fun _ _ => ?_)
    refine (otypes_discardQLoop _).bind' (fun _ _ => ?_)
    exact (types_removeRaw ot_none).bind' (fun _ _ => trivial)

theorem otypes_extendLoop : ∀ vs t, (∀ v ∈ vs, G (.elem qk) v) → (extendLoop qk vs t).Types cfg (OT cfg G) True anyRes
  | [], _, _ => trivial
  | v :: vs, t, h => by
    unfold extendLoop
    refine (types_setRaw (ot_qitem.2 (h v List.mem_cons_self))).bind' (fun _ _ => ?_)
    exact types_idxSucc.bind' (fun _ _ => otypes_extendLoop vs _ (fun v hv => h v (List.mem_cons_of_mem _ hv)))

theorem otypes_extendQueue {vs : List Bytes} (h : ∀ v ∈ vs, G (.elem qk) v) : (extendQueue cfg qk vs).Types cfg (OT cfg G) True anyRes := by
  refine types_withLock ?_
  unfold extendQueueBody
  refine (types_gocRaw (ot_queue.2 (encMeta_length _ _ _))).bind' (fun st hst => ?_)
  have hl : st.value.length = 24 := by
    rcases hst with ⟨rfl, _⟩ | ⟨b, rfl, hb⟩
    · exact encMeta_length _ _ _
    · exact ot_queue.1 hb
  refine (types_decMeta hl).bind' (fun _ _ => ?_)
  refine (otypes_extendLoop _ _ h).bind' (fun _ _ => ?_)
  split
  · trivial
  · exact (types_setRaw (ot_queue.2 (encMeta_length _ _ _))).bind' (fun _ _ => trivial)

theorem mem_chunks {n : Nat} : ∀ (v b : Bytes), b ∈ chunks n v → ∃ i, i * n < v.length ∧ b = (v.drop (i * n)).take n := by
  intro v
  induction hl : v.length using Nat.strongRecOn generalizing v with
  | _ m ih =>
    intro b hb
    unfold chunks at hb
    split at hb
    · cases hb
    · rename_i h
      have h0 : v.length ≠ 0 := fun e => h (Or.inl (List.length_eq_zero_iff.1 e))
      have hn : n ≠ 0 := fun e => h (Or.inr e)
      rcases List.mem_cons.1 hb with rfl | hb
      · exact ⟨0, by omega, by simp⟩
      · obtain ⟨i, h1, h2⟩ := ih (v.drop n).length (by rw [List.length_drop]; omega) (v.drop n) rfl b hb
        refine ⟨i + 1, ?_, ?_⟩
        · rw [List.length_drop] at h1; rw [Nat.add_mul, Nat.one_mul]; omega
        · rw [h2, List.drop_drop, Nat.add_mul, Nat.one_mul, Nat.add_comm]

end

/-! ## Calls -/

/-- All values in the answer satisfy `G`. -/
def Sourced (G : Obj → Bytes → Prop) (c : Call) (r : Resp) : Prop :=
  (∀ o b, Returns c r o b → G o b) ∧ ∀ qk b, c = .queue qk .getBig → r = .val (some b) → ∃ l, l ≠ [] ∧ b = List.flatten l ∧ ∀ x ∈ l, G (.elem qk) x

theorem sourced_list {lk : Bytes} {op : LOp} {r : Resp} (h : ∀ o b, Returns (.list lk op) r o b → G o b) : Sourced G (.list lk op) r := ⟨h, fun _ _ e => by cases e⟩

theorem otypes_call (hG : Even cfg G) (c : Call) (hc : ∀ o v, Gives c o v → G o v) : (c.prog cfg).Types cfg (OT cfg G) True (Sourced G c) := by
  cases c with
  | kv k op =>
    have h := held_kv (cfg := cfg) (T := OT cfg G) (k := userKey k) (op := op) (fun v hv => ot_user.2 (hc _ _ (by
      rcases hv with rfl | ⟨e, rfl⟩ | rfl
      · exact .set k v
      · exact .replace k v e
      · exact .getOrCreate k v))) ot_none
    have h := h.mono (Q' := Sourced G (.kv k op)) (fun r hr => ⟨fun o b hb => by cases hb with | kv _ _ _ _ hb => exact ot_user.1 (hr _ hb), fun _ _ e => by cases e⟩) id
    cases op with
    | get => exact h
    | contains => exact h
    | remove => exact h
    | set v =>
      refine (?_ : (((ensureSizes k v).bind (fun _ => _)).bind _).Types cfg _ _ _)
      rw [Prog.bind_assoc]
      exact types_ensureSizes.bind (fun _ _ => h)
    | replace v e =>
      refine (?_ : (((ensureSizes k v).bind (fun _ => _)).bind _).Types cfg _ _ _)
      rw [Prog.bind_assoc]
      exact types_ensureSizes.bind (fun _ _ => h)
    | getOrCreate v =>
      refine (?_ : (((ensureSizes k v).bind (fun _ => _)).bind _).Types cfg _ _ _)
      rw [Prog.bind_assoc]
      exact types_ensureSizes.bind (fun _ _ => h)
  | typed k op =>
    have h := held_kv (cfg := cfg) (T := OT cfg G) (k := typedKey k) (op := op) (fun v hv => ot_typed.2 (hc _ _ (by
      rcases hv with rfl | ⟨e, rfl⟩ | rfl
      · exact .typedSet k v
      · exact .typedReplace k v e
      · exact .typedGetOrCreate k v))) ot_none
    have h := h.mono (Q' := Sourced G (.typed k op)) (fun r hr => ⟨fun o b hb => by cases hb with | typed _ _ _ _ hb => exact ot_typed.1 (hr _ hb), fun _ _ e => by cases e⟩) id
    cases op <;> exact h
  | list lk op =>
    cases op with
    | set ik v => exact types_tag (otypes_setInList hG (hc _ _ (.listSet lk ik v))) (fun a ha => sourced_list (fun o b h => by
        cases h with | item _ _ _ _ _ hk hb => cases hk; cases hb; exact ha _ rfl))
    | setPromoting ik v => exact types_tag (otypes_setInList hG (hc _ _ (.listPromoting lk ik v))) (fun a ha => sourced_list (fun o b h => by
        cases h with | item _ _ _ _ _ hk hb => cases hk; cases hb; exact ha _ rfl))
    | replace ik v e => exact types_tag (otypes_replaceInList hG (hc _ _ (.listReplace lk ik v e))) (fun a ha => sourced_list (fun o b h => by
        cases h with
        | item _ _ _ _ _ hk hb =>
          cases hk
          cases hb
          · exact ha _ (.inl rfl)
          · exact ha _ (.inr rfl)))
    | getOrCreate ik v => exact types_tag (otypes_getOrCreateInList hG (hc _ _ (.listGetOrCreate lk ik v))) (fun a ha => sourced_list (fun o b h => by
        cases h with
        | item _ _ _ _ _ hk hb =>
          cases hk
          cases hb
          · exact ha _ (.inl rfl)
          · exact ha _ (.inr rfl)))
    | get ik => exact types_tag otypes_getFromList (fun a ha => sourced_list (fun o b h => by
        cases h with | item _ _ _ _ _ hk hb => cases hk; cases hb; exact ha _ rfl))
    | remove ik => exact types_tag otypes_removeFromList (fun a ha => sourced_list (fun o b h => by
        cases h with | item _ _ _ _ _ hk hb => cases hk; cases hb; exact ha _ rfl))
    | iter fwd => exact types_tag otypes_iterList (fun a ha => sourced_list (fun o b h => by
        cases h with
        | item _ _ _ _ _ hk hb => cases hk
        | items _ _ _ _ _ h => exact ha _ h))
    | peek fwd => exact types_tag otypes_peekList (fun a ha => sourced_list (fun o b h => by
        cases h with
        | item _ _ _ _ _ hk hb => cases hk
        | oneItem => exact ha _ rfl))
    | pop fwd => exact types_tag otypes_popList (fun a ha => sourced_list (fun o b h => by
        cases h with
        | item _ _ _ _ _ hk hb => cases hk
        | oneItem => exact ha _ rfl))
    | compact par => exact types_tag (otypes_compactList hG) (fun a ha => sourced_list (fun o b h => by
        cases h with | item _ _ _ _ _ hk hb => cases hk))
    | discard => exact types_tag otypes_discardList (fun a ha => sourced_list (fun o b h => by
        cases h with | item _ _ _ _ _ hk hb => cases hk))
    | len => exact types_tag otypes_listLen (fun a ha => sourced_list (fun o b h => by
        cases h with | item _ _ _ _ _ hk hb => cases hk))
  | queue qk op =>
    cases op with
    | push pos v => exact types_tag (otypes_pushQueue (hc _ _ (.push qk v pos))) (fun a ha => ⟨(fun o b h => by cases h), (fun _ _ e => by cases e)⟩)
    | pop pos => exact types_tag otypes_popQueue (fun a ha => ⟨fun o b h => by cases h; exact ha _ rfl, fun _ _ e => by cases e⟩)
    | remove i => exact types_tag otypes_removeFromQueue (fun a ha => ⟨fun o b h => by cases h; exact ha _ rfl, fun _ _ e => by cases e⟩)
    | discard => exact types_tag otypes_discardQueue (fun a ha => ⟨(fun o b h => by cases h), (fun _ _ e => by cases e)⟩)
    | extend vs => exact types_tag (otypes_extendQueue (fun v hv => hc _ _ (.extend qk v vs hv))) (fun a ha => ⟨(fun o b h => by cases h), (fun _ _ e => by cases e)⟩)
    | iter fwd => exact types_tag otypes_iterQueue (fun a ha => ⟨fun o b h => by cases h with | elems _ _ _ _ _ h => exact ha _ h, fun _ _ e => by cases e⟩)
    | peek fwd => exact types_tag otypes_peekQueue (fun a ha => ⟨fun o b h => by cases h; exact ha _ rfl, fun _ _ e => by cases e⟩)
    | len => exact types_tag otypes_queueLen (fun a ha => ⟨(fun o b h => by cases h), (fun _ _ e => by cases e)⟩)
    | range => exact types_tag otypes_queueRange (fun a ha => ⟨(fun o b h => by cases h), (fun _ _ e => by cases e)⟩)
    | setBig v =>
      refine types_tag (Q := anyRes) ?_ (fun a ha => ⟨(fun o b h => by cases h), (fun _ _ e => by cases e)⟩)
      unfold Candy.setBig
      refine otypes_discardQueue.bind' (fun _ _ => (otypes_extendQueue (fun b hb => ?_)).bind' (fun _ _ => trivial))
      obtain ⟨i, h1, rfl⟩ := mem_chunks v b hb
      exact hc _ _ (.big qk v i h1)
    | getBig => exact types_tag otypes_getBig (fun a ha => ⟨(fun o b h => by cases h), fun q b e e' => by cases e; cases e'; exact ha _ rfl⟩)
    | removeBig => exact types_tag otypes_discardQueue (fun a ha => ⟨(fun o b h => by cases h), (fun _ _ e => by cases e)⟩)

end
end Candy
