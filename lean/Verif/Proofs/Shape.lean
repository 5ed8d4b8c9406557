import Verif.Proofs.Typing
/-!
# The records of lists and queues are always well-formed

Every list or queue record has 24 bytes, every link of a list has 8 bytes and holds the hash of a key, every item of a list ends with an index: at every moment of
every execution, also if lists with the same hash of their keys are mixed up.
-/
namespace Candy
open Spec

theorem dec64_of_length {l : Bytes} (h : l.length = 8) : dec64 l < U64 ∧ enc64 (dec64 l) = l := by
  match l, h with
  | [a, b, c, d, e, f, g, i], _ =>
    have ha := a.toNat_lt
    have hb := b.toNat_lt
    have hc := c.toNat_lt
    have hd := d.toNat_lt
    have he := e.toNat_lt
    have hf := f.toNat_lt
    have hg := g.toNat_lt
    have hi := i.toNat_lt
    simp only [dec64, enc64, List.range, List.range.loop, List.map, List.foldr]
    refine ⟨by simp [U64]; omega, ?_⟩
    simp only [List.cons.injEq, and_true, ← UInt8.toNat_inj, UInt8.toNat_ofNat']
    refine ⟨?_, ?_, ?_, ?_, ?_, ?_, ?_, ?_⟩ <;> omega

/-- The form of the value of a raw key, by the namespace of the key. -/
def shapeOf (cfg : Cfg) (ns : Option UInt8) (b : Bytes) : Prop :=
  if ns = some 3 ∨ ns = some 6 then b.length = 24
  else if ns = some 4 then 8 ≤ b.length
  else if ns = some 5 then ∃ k, b = enc64 (cfg.ph k).toNat
  else True

def Shape (cfg : Cfg) : Typing := fun k o => ∀ b, o = some b → shapeOf cfg k.getLast? b

section
variable {cfg : Cfg}

theorem shape_none {k : Bytes} : Shape cfg k none := fun _ h => by cases h

theorem shape_list {lk b : Bytes} : Shape cfg (listKey lk) (some b) ↔ b.length = 24 := by
  simp [Shape, listKey_eq, shapeOf]
theorem shape_queue {qk b : Bytes} : Shape cfg (queueKey qk) (some b) ↔ b.length = 24 := by
  simp [Shape, queueKey_eq, shapeOf]
theorem shape_item {lph : PH} {ik b : Bytes} : Shape cfg (itemKey lph ik) (some b) ↔ 8 ≤ b.length := by
  simp [Shape, itemKey_eq, shapeOf]
theorem shape_chain {lph : PH} {i : Nat} {b : Bytes} : Shape cfg (chainKey lph i) (some b) ↔ ∃ k, b = enc64 (cfg.ph k).toNat := by
  simp [Shape, chainKey_eq, shapeOf]
theorem shape_qitem {qk : Bytes} {i : Nat} {o : Option Bytes} : Shape cfg (qitemKey qk i) o := by
  intro b _; simp [qitemKey_eq, shapeOf]
theorem shape_user {k : Bytes} {o : Option Bytes} : Shape cfg (userKey k) o := by
  intro b _; simp [userKey_eq, shapeOf]
theorem shape_typed {k : Bytes} {o : Option Bytes} : Shape cfg (typedKey k) o := by
  intro b _; simp [typedKey_eq, shapeOf]

theorem shape_empty : (Shape cfg).Of Map.empty := fun _ => shape_none

variable {Pan : Prop}

/-! ## Key-value calls -/

theorem types_tag {T : Typing} {α : Type} {Q : α → Prop} {R : Resp → Prop} {f : α → Resp} {p : Prog α} (h : p.Types cfg T Pan Q) (hf : ∀ a, Q a → R (f a)) :
    (p.tag f).Types cfg T Pan R := h.bind (fun a ha => hf a ha)

theorem types_kv {T : Typing} {k : Bytes} {op : KvOp} (h : ∀ o, T (userKey k) o) : (op.prog k).Types cfg T Pan anyRes := by
  cases op with
  | get => exact types_tag types_getRaw (fun _ _ => trivial)
  | contains => exact types_tag (types_getRaw.bind' (R := anyRes) (fun _ _ => trivial)) (fun _ _ => trivial)
  | remove => exact types_tag (types_removeRaw (h _)) (fun _ _ => trivial)
  | set v => exact types_tag (types_ensureSizes.bind' (fun _ _ => types_setRaw (h _))) (fun _ _ => trivial)
  | replace v e => exact types_tag (types_ensureSizes.bind' (fun _ _ => types_replaceRaw (h _))) (fun _ _ => trivial)
  | getOrCreate v => exact types_tag (types_ensureSizes.bind' (fun _ _ => types_gocRaw (h _))) (fun _ _ => trivial)

theorem types_typed {T : Typing} {k : Bytes} {op : KvOp} (h : ∀ o, T (typedKey k) o) : (op.typedProg k).Types cfg T Pan anyRes := by
  cases op with
  | get => exact types_tag types_getRaw (fun _ _ => trivial)
  | contains => exact types_tag types_getRaw (fun _ _ => trivial)
  | remove => exact types_tag (types_removeRaw (h _)) (fun _ _ => trivial)
  | set v => exact types_tag (types_setRaw (h _)) (fun _ _ => trivial)
  | replace v e => exact types_tag (types_replaceRaw (h _)) (fun _ _ => trivial)
  | getOrCreate v => exact types_tag (types_gocRaw (h _)) (fun _ _ => trivial)

/-! ## Lists: reading -/

theorem phOf_enc (ph : PH) : (BitVec.ofNat 64 (dec64 (enc64 ph.toNat)) : PH) = ph := by
  rw [dec64_enc64_of_lt ph.isLt]
  exact BitVec.eq_of_toNat_eq (by simp)

theorem types_getAtIndex {lph : PH} {i : Nat} : (getAtIndex lph i).Types cfg (Shape cfg) Pan
    (fun o => ∀ iph k v, o = some (iph, k, v) → (∃ k', iph = cfg.ph k') ∧ ∃ ik u, k = itemKey lph ik ∧ v = u ++ enc64 i) := by
  unfold getAtIndex
  refine types_getRaw.bind' (fun o ho => ?_)
  split
  · intro _ _ _ h; cases h
  · rename_i b
    obtain ⟨k', rfl⟩ := shape_chain.1 ho
    simp only [enc64_length, ne_eq, not_true_eq_false, if_false, phOf_enc]
    intro m l hm hl
    dsimp only
    split
    · intro _ _ _ h; cases h
    · rename_i kv hkv
      intro iph k v h
      simp only [Option.some.injEq, Prod.mk.injEq] at h
      obtain ⟨rfl, rfl, rfl⟩ := h
      obtain ⟨ik, hik⟩ := endsWith_item.1 (hl.suffix kv (List.mem_of_find?_eq_some hkv))
      have hv := List.find?_some hkv
      obtain ⟨u, hu⟩ := endsWith_iff.1 hv
      exact ⟨⟨k', rfl⟩, ik, u, hik, hu⟩

theorem types_getAtIndexT {lph : PH} {i : Nat} : (getAtIndexT lph i).Types cfg (Shape cfg) Pan anyRes := by
  unfold getAtIndexT
  refine types_getAtIndex.bind' (fun o _ => ?_)
  split <;> trivial

theorem types_collectIdx {lph : PH} : ∀ is, (collectIdx lph is).Types cfg (Shape cfg) Pan anyRes
  | [] => trivial
  | i :: is => by
    unfold collectIdx
    refine types_getAtIndexT.bind' (fun o _ => ?_)
    split
    · exact types_collectIdx is
    · exact (types_collectIdx is).bind' (fun _ _ => trivial)

theorem types_firstIdx {lph : PH} : ∀ is, (firstIdx lph is).Types cfg (Shape cfg) Pan anyRes
  | [] => trivial
  | i :: is => by
    unfold firstIdx
    refine types_getAtIndexT.bind' (fun o _ => ?_)
    split
    · exact types_firstIdx is
    · trivial

theorem types_listRange {lk : Bytes} : (listRange cfg lk).Types cfg (Shape cfg) Pan anyRes := by
  unfold listRange
  refine (types_withLock types_getRaw).bind' (fun o ho => ?_)
  split
  · trivial
  · exact (types_decMeta (shape_list.1 ho)).bind' (fun _ _ => trivial)

theorem types_iterList {lk : Bytes} {fwd : Bool} : (iterList cfg lk fwd).Types cfg (Shape cfg) Pan anyRes := by
  unfold iterList
  refine types_listRange.bind' (fun o _ => ?_)
  split
  · trivial
  · exact types_collectIdx _

theorem types_peekList {lk : Bytes} {fwd : Bool} : (peekList cfg lk fwd).Types cfg (Shape cfg) Pan anyRes := by
  unfold peekList
  refine types_listRange.bind' (fun o _ => ?_)
  split
  · trivial
  · exact types_firstIdx _

theorem types_getFromList {lk ik : Bytes} : (getFromList cfg lk ik).Types cfg (Shape cfg) Pan anyRes := by
  unfold getFromList
  refine types_getRaw.bind' (fun o ho => ?_)
  split
  · trivial
  · exact (types_splitVal (shape_item.1 ho)).bind' (fun _ _ => trivial)

theorem types_listLen {lk : Bytes} : (listLen lk).Types cfg (Shape cfg) Pan anyRes := by
  unfold listLen
  refine types_getRaw.bind' (fun o ho => ?_)
  split
  · trivial
  · exact (types_decMeta (shape_list.1 ho)).bind' (fun _ _ => trivial)

/-! ## Lists: writing -/

macro "typeauto" : tactic => `(tactic| repeat (first
  | exact trivial
  | exact types_idxSucc.mono (fun _ _ => trivial) id
  | exact types_idxPred.mono (fun _ _ => trivial) id
  | exact types_numPred (by assumption)
  | exact (types_removeRaw shape_none).mono (fun _ _ => trivial) id
  | exact types_setRaw (shape_list.2 (encMeta_length _ _ _))
  | exact types_setRaw (shape_queue.2 (encMeta_length _ _ _))
  | (refine Prog.Types.bind' (Q := anyRes) ?_ (fun _ _ => ?_))
  | split
  | (dsimp only)))

/-- The answers of `_insert_to_list` in each mode: the others are `unreachable!` for its callers. -/
def insFits : Mode → ListIns → Prop
  | .set, .created _ => True
  | .set, .replaced _ => True
  | .replace _, .doesNotExist => True
  | .replace _, .replaced _ => True
  | .replace _, .wrongValue _ => True
  | .getOrCreate, .existingValue _ => True
  | .getOrCreate, .created _ => True
  | _, _ => False

theorem types_insertNewItem {lk ik v : Bytes} : (insertNewItem cfg lk ik v).Types cfg (Shape cfg) Pan (fun a => ∃ u, a = .created u) := by
  unfold insertNewItem
  refine (types_gocRaw (shape_list.2 (encMeta_length _ _ _))).bind' (fun st hst => ?_)
  rcases hst with ⟨rfl, _⟩ | ⟨b, rfl, hb⟩
  · refine (types_setRaw (shape_chain.2 ⟨_, rfl⟩)).bind' (fun _ _ => ?_)
    exact (types_setRaw (shape_item.2 (by simp))).bind' (fun _ _ => ⟨_, rfl⟩)
  · refine (types_decMeta (shape_list.1 hb)).bind' (fun _ _ => ?_)
    refine types_idxSucc.bind' (fun _ _ => types_idxSucc.bind' (fun _ _ => ?_))
    refine (types_setRaw (shape_list.2 (encMeta_length _ _ _))).bind' (fun _ _ => ?_)
    refine (types_setRaw (shape_chain.2 ⟨_, rfl⟩)).bind' (fun _ _ => ?_)
    exact (types_setRaw (shape_item.2 (by simp))).bind' (fun _ _ => ⟨_, rfl⟩)

theorem types_updateItem {lph : PH} {ik v b : Bytes} {mode : Mode} (hb : 8 ≤ b.length) : (updateItem lph ik v mode b).Types cfg (Shape cfg) Pan (insFits mode) := by
  unfold updateItem
  refine (types_splitVal hb).bind' (fun x hx => ?_)
  obtain ⟨old, suffix⟩ := x
  have hs : Shape cfg (itemKey lph ik) (some (v ++ suffix)) := shape_item.2 (by have h2 : suffix.length = 8 := hx.2; simp only [List.length_append]; omega)
  dsimp only
  split
  · trivial
  · split
    · trivial
    · exact (types_replaceRaw hs).bind' (fun _ _ => trivial)
  · exact (types_replaceRaw hs).bind' (fun _ _ => by
      cases mode with
      | set => trivial
      | getOrCreate => simp_all
      | replace e => trivial)

theorem types_insertToListBody {lk ik v : Bytes} {mode : Mode} : (insertToListBody cfg lk ik v mode).Types cfg (Shape cfg) Pan (insFits mode) := by
  unfold insertToListBody
  refine types_getRaw.bind' (fun o ho => ?_)
  split
  · exact types_updateItem (shape_item.1 ho)
  · split
    · trivial
    · refine types_insertNewItem.mono ?_ id
      rintro _ ⟨u, rfl⟩
      cases mode with
      | set => trivial
      | getOrCreate => trivial
      | replace e => simp_all

theorem types_insertToList {lk ik v : Bytes} {mode : Mode} : (insertToList cfg lk ik v mode).Types cfg (Shape cfg) Pan (insFits mode) := types_withLock types_insertToListBody

theorem types_removeMeta {lk : Bytes} {idx : Nat} {b : Bytes} (hp : Pan) (hb : b.length = 24) : (removeMeta lk idx b).Types cfg (Shape cfg) Pan anyRes := by
  unfold removeMeta
  refine (types_decMeta hb).bind' (fun _ _ => (types_numPred hp).bind' (fun _ _ => ?_))
  typeauto

theorem types_removeFromListBody {lk ik : Bytes} (hp : Pan) : (removeFromListBody cfg lk ik).Types cfg (Shape cfg) Pan anyRes := by
  unfold removeFromListBody
  refine types_getRaw.bind' (fun o ho => ?_)
  split
  · trivial
  · refine (types_splitVal (shape_item.1 ho)).bind' (fun x _ => ?_)
    obtain ⟨old, suffix⟩ := x
    dsimp only
    refine types_getRaw.bind' (fun o ho => ?_)
    split
    · refine (types_removeMeta hp (shape_list.1 ho)).bind' (fun _ _ => ?_)
      typeauto
    · typeauto

theorem types_removeFromList {lk ik : Bytes} (hp : Pan) : (removeFromList cfg lk ik).Types cfg (Shape cfg) Pan anyRes := types_withLock (types_removeFromListBody hp)

theorem types_setInList {lk ik v : Bytes} {promote : Bool} (hp : promote = true → Pan) : (setInList cfg lk ik v promote).Types cfg (Shape cfg) Pan anyRes := by
  have key : (do
      match ← insertToList cfg lk ik v .set with
      | .created _ => return SetStatus.createdNew
      | .replaced v => return .prevValue v
      | _ => .panic : Prog SetStatus).Types cfg (Shape cfg) Pan anyRes := by
    refine types_insertToList.bind' (fun a ha => ?_)
    cases a <;> first | trivial | exact ha.elim
  unfold setInList
  cases promote with
  | false => exact key
  | true => exact (types_removeFromList (hp rfl)).bind' (fun _ _ => key)

theorem types_replaceInList {lk ik v : Bytes} {e : Option Bytes} : (replaceInList cfg lk ik v e).Types cfg (Shape cfg) Pan anyRes := by
  unfold replaceInList
  refine types_insertToList.bind' (fun a ha => ?_)
  cases a <;> first | trivial | exact ha.elim

theorem types_getOrCreateInList {lk ik v : Bytes} : (getOrCreateInList cfg lk ik v).Types cfg (Shape cfg) Pan anyRes := by
  unfold getOrCreateInList
  refine types_insertToList.bind' (fun a ha => ?_)
  cases a <;> first | trivial | exact ha.elim

theorem types_popIdx {lk : Bytes} (hp : Pan) : ∀ is, (popIdx cfg lk is).Types cfg (Shape cfg) Pan anyRes
  | [] => trivial
  | i :: is => by
    unfold popIdx
    refine types_getAtIndexT.bind' (fun o _ => ?_)
    split
    · exact types_popIdx hp is
    · refine (types_removeFromList hp).bind' (fun o _ => ?_)
      split
      · trivial
      · exact types_popIdx hp is

theorem types_popList {lk : Bytes} {fwd : Bool} (hp : Pan) : (popList cfg lk fwd).Types cfg (Shape cfg) Pan anyRes := by
  unfold popList
  refine types_listRange.bind' (fun o _ => ?_)
  split
  · trivial
  · exact types_popIdx hp _

theorem types_compactIdx {lph : PH} : ∀ is new, (compactIdx lph is new).Types cfg (Shape cfg) Pan anyRes
  | [], _ => trivial
  | i :: is, new => by
    unfold compactIdx
    refine types_getAtIndex.bind' (fun o ho => ?_)
    split
    · exact types_compactIdx is new
    · rename_i iph k v
      obtain ⟨⟨k', rfl⟩, ik, u, rfl, rfl⟩ := ho _ _ _ rfl
      refine (types_setRaw (shape_chain.2 ⟨_, rfl⟩)).bind' (fun _ _ => ?_)
      refine (types_setRaw (shape_item.2 (by simp))).bind' (fun _ _ => ?_)
      refine (types_removeRaw shape_none).bind' (fun _ _ => ?_)
      exact types_idxSucc.bind' (fun _ _ => types_compactIdx is _)

theorem types_compactList {lk : Bytes} {par : CompactParams} (hp : Pan) : (compactList cfg lk par).Types cfg (Shape cfg) Pan anyRes := by
  refine types_withLock ?_
  unfold compactListBody
  refine types_getRaw.bind' (fun o ho => ?_)
  split
  · trivial
  · refine (types_decMeta (shape_list.1 ho)).bind' (fun _ _ => ?_)
    split
    · exact hp
    · split
      · trivial
      · split
        · exact hp
        · split
          · trivial
          · refine (types_compactIdx _ _).bind' (fun _ _ => ?_)
            split
            · exact (types_removeRaw shape_none).bind' (fun _ _ => trivial)
            · exact (types_setRaw (shape_list.2 (encMeta_length _ _ _))).bind' (fun _ _ => trivial)

theorem types_discardIdx {lph : PH} : ∀ is, (discardIdx lph is).Types cfg (Shape cfg) Pan anyRes
  | [] => trivial
  | i :: is => by
    unfold discardIdx
    refine types_getAtIndex.bind' (fun o ho => ?_)
    split
    · exact types_discardIdx is
    · refine (types_removeRaw shape_none).bind' (fun _ _ => ?_)
      exact (types_removeRaw shape_none).bind' (fun _ _ => types_discardIdx is)

theorem types_discardList {lk : Bytes} : (discardList cfg lk).Types cfg (Shape cfg) Pan anyRes := by
  refine types_withLock ?_
  unfold discardListBody
  refine types_getRaw.bind' (fun o ho => ?_)
  split
  · trivial
  · refine (types_decMeta (shape_list.1 ho)).bind' (fun _ _ => ?_)
    refine (types_discardIdx _).bind' (fun _ _ => ?_)
    exact (types_removeRaw shape_none).bind' (fun _ _ => trivial)

/-! ## Queues -/

theorem types_fetchQueue {qk : Bytes} : (fetchQueue cfg qk).Types cfg (Shape cfg) Pan anyRes := by
  unfold fetchQueue
  refine (types_withLock types_getRaw).bind' (fun o ho => ?_)
  split
  · trivial
  · exact (types_decMeta (shape_queue.1 ho)).bind' (fun _ _ => trivial)

theorem types_collectQ {qk : Bytes} : ∀ is, (collectQ qk is).Types cfg (Shape cfg) Pan anyRes
  | [] => trivial
  | i :: is => by
    unfold collectQ
    refine types_getRaw.bind' (fun o _ => ?_)
    split
    · exact types_collectQ is
    · exact (types_collectQ is).bind' (fun _ _ => trivial)

theorem types_firstQ {qk : Bytes} : ∀ is, (firstQ qk is).Types cfg (Shape cfg) Pan anyRes
  | [] => trivial
  | i :: is => by
    unfold firstQ
    refine types_getRaw.bind' (fun o _ => ?_)
    split
    · exact types_firstQ is
    · trivial

theorem types_iterQueue {qk : Bytes} {fwd : Bool} : (iterQueue cfg qk fwd).Types cfg (Shape cfg) Pan anyRes := by
  unfold iterQueue
  refine types_fetchQueue.bind' (fun o _ => ?_)
  split
  · trivial
  · exact types_collectQ _

theorem types_peekQueue {qk : Bytes} {fwd : Bool} : (peekQueue cfg qk fwd).Types cfg (Shape cfg) Pan anyRes := by
  unfold peekQueue
  refine types_fetchQueue.bind' (fun o _ => ?_)
  split
  · trivial
  · exact types_firstQ _

theorem types_queueLen {qk : Bytes} : (queueLen cfg qk).Types cfg (Shape cfg) Pan anyRes := by
  unfold queueLen
  refine types_fetchQueue.bind' (fun o _ => ?_)
  split <;> trivial

theorem types_queueRange {qk : Bytes} : (queueRange cfg qk).Types cfg (Shape cfg) Pan anyRes := by
  unfold queueRange
  refine types_fetchQueue.bind' (fun o _ => ?_)
  split <;> trivial

theorem types_getBig {qk : Bytes} : (getBig cfg qk).Types cfg (Shape cfg) Pan anyRes := by
  unfold getBig
  refine types_iterQueue.bind' (fun o _ => ?_)
  split <;> trivial

theorem types_putQueueMeta {qk : Bytes} {h t n : Nat} : (putQueueMeta qk h t n).Types cfg (Shape cfg) Pan anyRes := by
  unfold putQueueMeta
  split
  · exact (types_removeRaw shape_none).bind' (fun _ _ => trivial)
  · exact (types_setRaw (shape_queue.2 (encMeta_length _ _ _))).bind' (fun _ _ => trivial)

theorem types_pushQueue {qk v : Bytes} {pos : QPos} : (pushQueue cfg qk v pos).Types cfg (Shape cfg) Pan anyRes := by
  refine types_withLock ?_
  unfold pushQueueBody
  refine Prog.Types.bind' (Q := anyRes) ?_ (fun _ _ => (types_setRaw shape_qitem).bind' (fun _ _ => trivial))
  refine (types_gocRaw (shape_queue.2 (encMeta_length _ _ _))).bind' (fun st hst => ?_)
  rcases hst with ⟨rfl, _⟩ | ⟨b, rfl, hb⟩
  · trivial
  · refine (types_decMeta (shape_queue.1 hb)).bind' (fun _ _ => ?_)
    cases pos with
    | head =>
      refine types_idxPred.bind' (fun _ _ => types_idxSucc.bind' (fun _ _ => ?_))
      exact (types_setRaw (shape_queue.2 (encMeta_length _ _ _))).bind' (fun _ _ => trivial)
    | tail =>
      refine types_idxSucc.bind' (fun _ _ => types_idxSucc.bind' (fun _ _ => ?_))
      exact (types_setRaw (shape_queue.2 (encMeta_length _ _ _))).bind' (fun _ _ => trivial)

theorem types_popHeadLoop {qk : Bytes} : ∀ n h, (popHeadLoop qk n h).Types cfg (Shape cfg) Pan anyRes
  | 0, _ => trivial
  | n + 1, h => by
    unfold popHeadLoop
    refine (types_removeRaw shape_none).bind' (fun _ _ => ?_)
    split
    · trivial
    · exact types_popHeadLoop n _

theorem types_popTailLoop {qk : Bytes} : ∀ n h, (popTailLoop qk n h).Types cfg (Shape cfg) Pan anyRes
  | 0, _ => trivial
  | n + 1, h => by
    unfold popTailLoop
    refine (types_removeRaw shape_none).bind' (fun _ _ => ?_)
    split
    · trivial
    · exact types_popTailLoop n _

theorem types_popQueue {qk : Bytes} {pos : QPos} (hp : Pan) : (popQueue cfg qk pos).Types cfg (Shape cfg) Pan anyRes := by
  refine types_withLock ?_
  unfold popQueueBody
  refine types_getRaw.bind' (fun o ho => ?_)
  split
  · trivial
  · refine (types_decMeta (shape_queue.1 ho)).bind' (fun q _ => ?_)
    cases pos with
    | head =>
      refine (types_popHeadLoop _ _).bind' (fun x _ => ?_)
      obtain ⟨a, b⟩ := x
      dsimp only
      unfold putQueueMeta
      typeauto
    | tail =>
      refine (types_popTailLoop _ _).bind' (fun x _ => ?_)
      obtain ⟨a, b⟩ := x
      dsimp only
      unfold putQueueMeta
      typeauto

theorem types_removeFromQueue {qk : Bytes} {idx : Nat} (hp : Pan) : (removeFromQueue cfg qk idx).Types cfg (Shape cfg) Pan anyRes := by
  refine types_withLock ?_
  unfold removeFromQueueBody
  refine (types_removeRaw shape_none).bind' (fun _ _ => ?_)
  split
  · trivial
  · refine types_getRaw.bind' (fun o ho => ?_)
    split
    · trivial
    · refine (types_decMeta (shape_queue.1 ho)).bind' (fun _ _ => ?_)
      unfold putQueueMeta
      typeauto

theorem types_discardQLoop {qk : Bytes} : ∀ is, (discardQLoop qk is).Types cfg (Shape cfg) Pan anyRes
  | [] => trivial
  | i :: is => by
    unfold discardQLoop
    exact (types_removeRaw shape_none).bind' (fun _ _ => types_discardQLoop is)

theorem types_discardQueueBody {qk : Bytes} : (discardQueueBody qk).Types cfg (Shape cfg) Pan anyRes := by
  unfold discardQueueBody
  refine types_getRaw.bind' (fun o ho => ?_)
  split
  · trivial
  · refine (types_decMeta (shape_queue.1 ho)).bind' (fun _ _ => ?_)
    refine (types_discardQLoop _).bind' (fun _ _ => ?_)
    exact (types_removeRaw shape_none).bind' (fun _ _ => trivial)

theorem types_discardQueue {qk : Bytes} : (discardQueue cfg qk).Types cfg (Shape cfg) Pan anyRes := types_withLock types_discardQueueBody

theorem types_extendLoop {qk : Bytes} : ∀ vs t, (extendLoop qk vs t).Types cfg (Shape cfg) Pan anyRes
  | [], _ => trivial
  | v :: vs, t => by
    unfold extendLoop
    refine (types_setRaw shape_qitem).bind' (fun _ _ => ?_)
    exact types_idxSucc.bind' (fun _ _ => types_extendLoop vs _)

theorem types_extendQueueBody {qk : Bytes} {vs : List Bytes} : (extendQueueBody qk vs).Types cfg (Shape cfg) Pan anyRes := by
  unfold extendQueueBody
  refine (types_gocRaw (shape_queue.2 (encMeta_length _ _ _))).bind' (fun st hst => ?_)
  have hl : st.value.length = 24 := by
    rcases hst with ⟨rfl, _⟩ | ⟨b, rfl, hb⟩
    · exact encMeta_length _ _ _
    · exact shape_queue.1 hb
  refine (types_decMeta hl).bind' (fun _ _ => ?_)
  refine (types_extendLoop _ _).bind' (fun _ _ => ?_)
  split
  · trivial
  · exact (types_setRaw (shape_queue.2 (encMeta_length _ _ _))).bind' (fun _ _ => trivial)

theorem types_extendQueue {qk : Bytes} {vs : List Bytes} : (extendQueue cfg qk vs).Types cfg (Shape cfg) Pan anyRes := types_withLock types_extendQueueBody

/-- All calls except those that decrease the number of items of a list or queue, or compute the number of holes of a list: `remove_from_list`, `set_in_list_promoting`, `pop_list_head`/`tail`,
`compact_list_if_needed`, `remove_from_queue`, `pop_queue_head`/`tail`. -/
def _root_.Candy.Call.subtractsNothing : Call → Bool
  | .kv _ _ => true
  | .typed _ _ => true
  | .list _ op => match op with
    | .remove _ => false
    | .setPromoting .. => false
    | .pop _ => false
    | .compact _ => false
    | _ => true
  | .queue _ op => match op with
    | .remove _ => false
    | .pop _ => false
    | _ => true

/-- Every call keeps the records well-formed; most calls never panic. -/
theorem types_call (c : Call) (hp : c.subtractsNothing = false → Pan) : (c.prog cfg).Types cfg (Shape cfg) Pan anyRes := by
  cases c with
  | kv k op => exact types_kv (fun _ => shape_user)
  | typed k op => exact types_typed (fun _ => shape_typed)
  | list lk op =>
    cases op with
    | set ik v => exact types_tag (types_setInList (fun e => by cases e)) (fun _ _ => trivial)
    | setPromoting ik v => exact types_tag (types_setInList (fun _ => hp rfl)) (fun _ _ => trivial)
    | replace ik v e => exact types_tag (types_replaceInList) (fun _ _ => trivial)
    | getOrCreate ik v => exact types_tag (types_getOrCreateInList) (fun _ _ => trivial)
    | get ik => exact types_tag types_getFromList (fun _ _ => trivial)
    | remove ik => exact types_tag (types_removeFromList (hp rfl)) (fun _ _ => trivial)
    | iter fwd => exact types_tag types_iterList (fun _ _ => trivial)
    | peek fwd => exact types_tag types_peekList (fun _ _ => trivial)
    | pop fwd => exact types_tag (types_popList (hp rfl)) (fun _ _ => trivial)
    | compact par => exact types_tag (types_compactList (hp rfl)) (fun _ _ => trivial)
    | discard => exact types_tag types_discardList (fun _ _ => trivial)
    | len => exact types_tag types_listLen (fun _ _ => trivial)
  | queue qk op =>
    cases op with
    | push pos v => exact types_tag types_pushQueue (fun _ _ => trivial)
    | pop pos => exact types_tag (types_popQueue (hp rfl)) (fun _ _ => trivial)
    | remove i => exact types_tag (types_removeFromQueue (hp rfl)) (fun _ _ => trivial)
    | discard => exact types_tag types_discardQueue (fun _ _ => trivial)
    | extend vs => exact types_tag types_extendQueue (fun _ _ => trivial)
    | iter fwd => exact types_tag types_iterQueue (fun _ _ => trivial)
    | peek fwd => exact types_tag types_peekQueue (fun _ _ => trivial)
    | len => exact types_tag types_queueLen (fun _ _ => trivial)
    | range => exact types_tag types_queueRange (fun _ _ => trivial)
    | setBig v =>
      refine types_tag (Q := anyRes) ?_ (fun _ _ => trivial)
      unfold Candy.setBig
      exact types_discardQueue.bind' (fun _ _ => types_extendQueue.bind' (fun _ _ => trivial))
    | getBig => exact types_tag types_getBig (fun _ _ => trivial)
    | removeBig => exact types_tag types_discardQueue (fun _ _ => trivial)

theorem Lives.shape {t0 t : Tree} {bs : List Block} (h0 : Tree.create cfg = some t0) (h : Lives cfg t0 bs t) : (Shape cfg).Of (t.get cfg) := by
  obtain ⟨hs, hg⟩ := create_sane h0
  exact h.types shape_empty (fun c _ => types_call c (fun _ => trivial)) true hs (hg ▸ shape_empty)

end
end Candy
