import Verif.Model.Store
/-!
# Lists (src/lists.rs)

The `List` record is 24 bytes: head index (inclusive), tail index (exclusive), number of items. `from_bytes` panics if the length is
different (its alignment check is not modelled).
-/
namespace Candy

/-- `FIRST_LIST_IDX` (src/lists.rs:128), `FIRST_QUEUE_IDX` (src/queues.rs:97). -/
abbrev FIRST_IDX : Nat := 9223372036854775808

/-- `bytes_of(&List { .. })` (src/lists.rs:13-19), `bytes_of(&Queue { .. })` (src/queues.rs:12-18). -/
def encMeta (head tail num : Nat) : Bytes := enc64 head ++ enc64 tail ++ enc64 num

/-- A decoded `List` / `Queue` record. -/
structure Meta where
  head : Nat
  tail : Nat
  num : Nat

/-- `from_bytes::<List>` (src/lists.rs:84, 209, 441, 525, 637, 721), `from_bytes::<Queue>`. -/
def decMeta (b : Bytes) : Prog Meta :=
  if b.length = 24 then .ret ⟨dec64 (b.take 8), dec64 ((b.drop 8).take 8), dec64 (b.drop 16)⟩ else .panic

/-- `make_list_key` (src/lists.rs:130-133). -/
def listKey (lk : Bytes) : Bytes := lk ++ LIST_NS
def Cfg.listPh (cfg : Cfg) (lk : Bytes) : PH := cfg.ph (listKey lk)

/-- `make_item_key` (src/lists.rs:135-139); also the suffix of `get_from_list_at_index` (490-492). -/
def itemSuffix (lph : PH) : Bytes := enc64 lph.toNat ++ ITEM_NS
def itemKey (lph : PH) (ik : Bytes) : Bytes := ik ++ itemSuffix lph

/-- `bytes_of(&ChainKey { list_ph, idx, namespace: CHAIN_NAMESPACE })` (src/lists.rs:43-49). -/
def chainKey (lph : PH) (idx : Nat) : Bytes := enc64 lph.toNat ++ enc64 idx ++ CHAIN_NS

/-- `&existing_val[existing_val.len() - 8..]` and `truncate(len - 8)`; a value shorter than 8 bytes is a panic. -/
def splitVal (b : Bytes) : Prog (Bytes × Bytes) :=
  if b.length < 8 then .panic else .ret (b.take (b.length - 8), b.drop (b.length - 8))

/-- `idx + 1` on an index (src/lists.rs:212, 446, 568; src/queues.rs). -/
def idxSucc (n : Nat) : Prog Nat := if n + 1 < U64 then .ret (n + 1) else .exhausted
/-- `idx - 1` on an index (src/lists.rs:448; src/queues.rs:133, 196, 273). -/
def idxPred (n : Nat) : Prog Nat := if 0 < n then .ret (n - 1) else .exhausted
/-- `num_items -= 1` (src/lists.rs:440; src/queues.rs:188, 200, 276). -/
def numPred (n : Nat) : Prog Nat := if 0 < n then .ret (n - 1) else .panic

/-- `InsertToListStatus` (src/lists.rs:118-125). -/
inductive ListIns where
  | created (v : Bytes)
  | doesNotExist
  | wrongValue (v : Bytes)
  | existingValue (v : Bytes)
  | replaced (v : Bytes)

/-- `_insert_to_list` (src/lists.rs:145-243), under the lock: a new item (185-243). -/
def insertNewItem (cfg : Cfg) (lk ik v : Bytes) : Prog ListIns := do
  let lph := cfg.listPh lk
  let item := itemKey lph ik
  match ← gocRaw (listKey lk) (encMeta FIRST_IDX (FIRST_IDX + 1) 1) with
  | .createdNew _ =>
    let _ ← setRaw (chainKey lph FIRST_IDX) (enc64 (cfg.ph item).toNat)
    let _ ← setRaw item (v ++ enc64 FIRST_IDX)
    return .created v
  | .existingValue b =>
    let l ← decMeta b
    let tail ← idxSucc l.tail
    let num ← idxSucc l.num
    let _ ← setRaw (listKey lk) (encMeta l.head tail num)
    let _ ← setRaw (chainKey lph l.tail) (enc64 (cfg.ph item).toNat)
    let _ ← setRaw item (v ++ enc64 l.tail)
    return .created v

/-- `_insert_to_list` (src/lists.rs:145-243), under the lock: an existing item (158-183). Note the comparison of the expected
value with the 8-byte index suffix of the stored value (166), as in the code. -/
def updateItem (lph : PH) (ik v : Bytes) (mode : Mode) (existing : Bytes) : Prog ListIns := do
  let (old, suffix) ← splitVal existing
  match mode with
  | .getOrCreate => return .existingValue old
  | .replace (some e) =>
    if e ≠ suffix then return .wrongValue old
    else
      let _ ← replaceRaw (itemKey lph ik) (v ++ suffix) none
      return .replaced old
  | _ =>
    let _ ← replaceRaw (itemKey lph ik) (v ++ suffix) none
    return .replaced old

/-- `_insert_to_list` (src/lists.rs:145-243), under the lock. -/
def insertToListBody (cfg : Cfg) (lk ik v : Bytes) (mode : Mode) : Prog ListIns := do
  match ← Prog.getRaw (itemKey (cfg.listPh lk) ik) with
  | some existing => updateItem (cfg.listPh lk) ik v mode existing
  | none =>
    match mode with
    | .replace _ => return .doesNotExist
    | _ => insertNewItem cfg lk ik v

/-- `_insert_to_list` (src/lists.rs:145-243). -/
def insertToList (cfg : Cfg) (lk ik v : Bytes) (mode : Mode) : Prog ListIns :=
  Prog.withLock (cfg.lockIdx (cfg.listPh lk)) (insertToListBody cfg lk ik v mode)

/-- `owned_remove_from_list` (src/lists.rs:419-471): the update of the list record (438-457). -/
def removeMeta (lk : Bytes) (idx : Nat) (b : Bytes) : Prog Unit := do
  let l ← decMeta b
  let num ← numPred l.num
  let head ← if l.head = idx then idxSucc l.head else pure l.head
  let tail ← if l.head ≠ idx ∧ l.tail = idx + 1 then idxPred l.tail else pure l.tail
  if head = tail then
    let _ ← Prog.removeRaw (listKey lk)
    return ()
  else
    let _ ← setRaw (listKey lk) (encMeta head tail num)
    return ()

/-- `owned_remove_from_list` (src/lists.rs:419-471), under the lock. -/
def removeFromListBody (cfg : Cfg) (lk ik : Bytes) : Prog (Option Bytes) := do
  let lph := cfg.listPh lk
  match ← Prog.getRaw (itemKey lph ik) with
  | none => return none
  | some existing =>
    let (old, suffix) ← splitVal existing
    let idx := dec64 suffix
    match ← Prog.getRaw (listKey lk) with
    | some b => removeMeta lk idx b
    | none => pure ()
    let _ ← Prog.removeRaw (chainKey lph idx)
    let _ ← Prog.removeRaw (itemKey lph ik)
    return some old

/-- `owned_remove_from_list` (src/lists.rs:419-471). -/
def removeFromList (cfg : Cfg) (lk ik : Bytes) : Prog (Option Bytes) :=
  Prog.withLock (cfg.lockIdx (cfg.listPh lk)) (removeFromListBody cfg lk ik)

/-- `owned_set_in_list` (src/lists.rs:292-307). -/
def setInList (cfg : Cfg) (lk ik v : Bytes) (promote : Bool) : Prog SetStatus := do
  if promote then
    let _ ← removeFromList cfg lk ik
  match ← insertToList cfg lk ik v .set with
  | .created _ => return .createdNew
  | .replaced v => return .prevValue v
  | _ => .panic

/-- `owned_replace_in_list` (src/lists.rs:331-344). -/
def replaceInList (cfg : Cfg) (lk ik v : Bytes) (expected : Option Bytes) : Prog ReplaceStatus := do
  match ← insertToList cfg lk ik v (.replace expected) with
  | .doesNotExist => return .doesNotExist
  | .replaced v => return .prevValue v
  | .wrongValue v => return .wrongValue v
  | _ => .panic

/-- `owned_get_or_create_in_list` (src/lists.rs:366-377). -/
def getOrCreateInList (cfg : Cfg) (lk ik v : Bytes) : Prog GocStatus := do
  match ← insertToList cfg lk ik v .getOrCreate with
  | .existingValue v => return .existingValue v
  | .created v => return .createdNew v
  | _ => .panic

/-- `owned_get_from_list` (src/lists.rs:391-403). -/
def getFromList (cfg : Cfg) (lk ik : Bytes) : Prog (Option Bytes) := do
  match ← Prog.getRaw (itemKey (cfg.listPh lk) ik) with
  | none => return none
  | some b =>
    let (v, _) ← splitVal b
    return some v

/-- `get_from_list_at_index(list_ph, idx, false)` (src/lists.rs:473-504): item hash, full key, full value. -/
def getAtIndex (lph : PH) (idx : Nat) : Prog (Option (PH × Bytes × Bytes)) := do
  match ← Prog.getRaw (chainKey lph idx) with
  | none => return none
  | some b =>
    if b.length ≠ 8 then .panic
    else
      let iph : PH := BitVec.ofNat 64 (dec64 b)
      .byHash iph (itemSuffix lph) (fun l =>
        match l.find? (fun kv => endsWith kv.2 (enc64 idx)) with
        | none => .ret none
        | some kv => .ret (some (iph, kv.1, kv.2)))

/-- `get_from_list_at_index(list_ph, idx, true)` (src/lists.rs:473-504): item key and value without their suffixes. -/
def getAtIndexT (lph : PH) (idx : Nat) : Prog (Option KV) := do
  match ← getAtIndex lph idx with
  | none => return none
  | some (_, k, v) => return some (k.take (k.length - 9), v.take (v.length - 8))

/-- The first call of `ListIterator::next` (src/lists.rs:77-86): the range of indices. -/
def listRange (cfg : Cfg) (lk : Bytes) : Prog (Option (Nat × Nat)) := do
  match ← Prog.withLock (cfg.lockIdx (cfg.listPh lk)) (Prog.getRaw (listKey lk)) with
  | none => return none
  | some b =>
    let l ← decMeta b
    return some (l.head, l.tail)

/-- The indices of `head..tail` in the direction of the iterator (src/lists.rs:88-97; src/queues.rs:60-68). -/
def idxs (fwd : Bool) (head tail : Nat) : List Nat :=
  let l := List.range' head (tail - head)
  if fwd then l else l.reverse

/-- All items of a range of indices, skipping holes: `iter_list(..).collect()` (src/lists.rs:77-107, 589-620). -/
def collectIdx (lph : PH) : List Nat → Prog (List KV)
  | [] => .ret []
  | i :: is => do
    match ← getAtIndexT lph i with
    | none => collectIdx lph is
    | some kv =>
      let rest ← collectIdx lph is
      return kv :: rest

/-- `iter_list` / `iter_list_backwards`, collected (src/lists.rs:589-620). -/
def iterList (cfg : Cfg) (lk : Bytes) (fwd : Bool) : Prog (List KV) := do
  match ← listRange cfg lk with
  | none => return []
  | some (h, t) => collectIdx (cfg.listPh lk) (idxs fwd h t)

/-- The first item of a range of indices: one call of `next` (src/lists.rs:88-107). -/
def firstIdx (lph : PH) : List Nat → Prog (Option KV)
  | [] => .ret none
  | i :: is => do
    match ← getAtIndexT lph i with
    | none => firstIdx lph is
    | some kv => return some kv

/-- `owned_peek_list_head` (src/lists.rs:659-664), `owned_peek_list_tail` (672-677). -/
def peekList (cfg : Cfg) (lk : Bytes) (fwd : Bool) : Prog (Option KV) := do
  match ← listRange cfg lk with
  | none => return none
  | some (h, t) => firstIdx (cfg.listPh lk) (idxs fwd h t)

/-- The loop of `owned_pop_list_head` / `owned_pop_list_tail` (src/lists.rs:685-709). -/
def popIdx (cfg : Cfg) (lk : Bytes) : List Nat → Prog (Option KV)
  | [] => .ret none
  | i :: is => do
    match ← getAtIndexT (cfg.listPh lk) i with
    | none => popIdx cfg lk is
    | some kv =>
      match ← removeFromList cfg lk kv.1 with
      | some _ => return some kv
      | none => popIdx cfg lk is

/-- `owned_pop_list_head` (src/lists.rs:685-693), `owned_pop_list_tail` (701-709). -/
def popList (cfg : Cfg) (lk : Bytes) (fwd : Bool) : Prog (Option KV) := do
  match ← listRange cfg lk with
  | none => return none
  | some (h, t) => popIdx cfg lk (idxs fwd h t)

/-- The loop of `compact_list_if_needed` (src/lists.rs:534-566): returns the next free index. -/
def compactIdx (lph : PH) : List Nat → Nat → Prog Nat
  | [], new => .ret new
  | i :: is, new => do
    match ← getAtIndex lph i with
    | none => compactIdx lph is new
    | some (iph, k, v) =>
      let _ ← setRaw (chainKey lph new) (enc64 iph.toNat)
      let _ ← setRaw k (v.take (v.length - 8) ++ enc64 new)
      let _ ← Prog.removeRaw (chainKey lph i)
      let new' ← idxSucc new
      compactIdx lph is new'

/-- `ListCompactionParams` (src/lists.rs:51-55). The floating-point comparison with `min_holes_ratio` (529-531) is an arbitrary
predicate of the number of holes and the span (`true`: too few holes). -/
structure CompactParams where
  minLength : Nat
  tooFew : Nat → Nat → Bool

/-- `compact_list_if_needed` (src/lists.rs:514-582), under the lock. The subtractions in `span_len` and `holes` (31-36) panic on
underflow. -/
def compactListBody (cfg : Cfg) (lk : Bytes) (par : CompactParams) : Prog Bool := do
  match ← Prog.getRaw (listKey lk) with
  | none => return false
  | some b =>
    let l ← decMeta b
    if l.tail < l.head then .panic
    else if l.tail - l.head < par.minLength then return false
    else if l.tail - l.head < l.num then .panic
    else if par.tooFew (l.tail - l.head - l.num) (l.tail - l.head) then return false
    else
      let new ← compactIdx (cfg.listPh lk) (idxs true l.head l.tail) l.tail
      if l.tail = new then
        let _ ← Prog.removeRaw (listKey lk)
        return true
      else
        let _ ← setRaw (listKey lk) (encMeta l.tail new (new - l.tail))
        return true

/-- `compact_list_if_needed` (src/lists.rs:514-582). -/
def compactList (cfg : Cfg) (lk : Bytes) (par : CompactParams) : Prog Bool :=
  Prog.withLock (cfg.lockIdx (cfg.listPh lk)) (compactListBody cfg lk par)

/-- The loop of `owned_discard_list` (src/lists.rs:638-647). -/
def discardIdx (lph : PH) : List Nat → Prog Unit
  | [] => .ret ()
  | i :: is => do
    match ← getAtIndex lph i with
    | none => discardIdx lph is
    | some (_, k, _) =>
      let _ ← Prog.removeRaw (chainKey lph i)
      let _ ← Prog.removeRaw k
      discardIdx lph is

/-- `owned_discard_list` (src/lists.rs:629-651), under the lock. -/
def discardListBody (cfg : Cfg) (lk : Bytes) : Prog Bool := do
  match ← Prog.getRaw (listKey lk) with
  | none => return false
  | some b =>
    let l ← decMeta b
    discardIdx (cfg.listPh lk) (idxs true l.head l.tail)
    let _ ← Prog.removeRaw (listKey lk)
    return true

/-- `owned_discard_list` (src/lists.rs:629-651). -/
def discardList (cfg : Cfg) (lk : Bytes) : Prog Bool :=
  Prog.withLock (cfg.lockIdx (cfg.listPh lk)) (discardListBody cfg lk)

/-- `owned_list_len` (src/lists.rs:715-723). -/
def listLen (lk : Bytes) : Prog Nat := do
  match ← Prog.getRaw (listKey lk) with
  | none => return 0
  | some b =>
    let l ← decMeta b
    return l.num

end Candy
