import Verif.Model.Prog
/-!
# The key-value API (src/store.rs)
-/
namespace Candy

/-- `SetStatus`, `ReplaceStatus`, `GetOrCreateStatus` (src/store.rs:46-112). -/
inductive SetStatus where
  | createdNew
  | prevValue (v : Bytes)
deriving DecidableEq
inductive ReplaceStatus where
  | prevValue (v : Bytes)
  | wrongValue (v : Bytes)
  | doesNotExist
deriving DecidableEq
inductive GocStatus where
  | createdNew (v : Bytes)
  | existingValue (v : Bytes)
deriving DecidableEq

/-- `GetOrCreateStatus::value` (src/store.rs:104-111). -/
def GocStatus.value : GocStatus → Bytes
  | .createdNew v => v
  | .existingValue v => v

/-- The name spaces (src/store.rs:22-28). -/
def USER_NS : Bytes := [1]
def TYPED_NS : Bytes := [2]
def LIST_NS : Bytes := [3]
def ITEM_NS : Bytes := [4]
def CHAIN_NS : Bytes := [5]
def QUEUE_NS : Bytes := [6]
def QITEM_NS : Bytes := [7]

/-- `make_user_key` (src/store.rs:279-282). -/
def userKey (k : Bytes) : Bytes := k ++ USER_NS

/-- `insert_internal` (src/store.rs:334-359). -/
def insertInternal (k v : Bytes) (mode : Mode) : Prog InsStatus := .ins k v mode .ret

/-- `set_raw` (src/store.rs:361-369). -/
def setRaw (k v : Bytes) : Prog SetStatus := do
  match ← insertInternal k v .set with
  | .added => return .createdNew
  | .replaced v => return .prevValue v
  | .alreadyExists v => return .prevValue v
  | .keyDoesNotExist => .panic
  | .splitNeeded => .panic

/-- `replace_raw` (src/store.rs:393-405). -/
def replaceRaw (k v : Bytes) (expected : Option Bytes) : Prog ReplaceStatus := do
  match ← insertInternal k v (.replace expected) with
  | .added => .panic
  | .replaced v => return .prevValue v
  | .alreadyExists v => return .wrongValue v
  | .keyDoesNotExist => return .doesNotExist
  | .splitNeeded => .panic

/-- `get_or_create_raw` (src/store.rs:437-449). -/
def gocRaw (k v : Bytes) : Prog GocStatus := do
  match ← insertInternal k v .getOrCreate with
  | .added => return .createdNew v
  | .alreadyExists v => return .existingValue v
  | .replaced _ => .panic
  | .keyDoesNotExist => .panic
  | .splitNeeded => .panic

/-- `ensure_sizes` (src/store.rs:269-277). -/
def ensureSizes (k v : Bytes) : Prog Unit :=
  if MAX_KEY_SIZE < k.length then .err .keyTooLong
  else if MAX_VALUE_SIZE < v.length then .err .valueTooLong
  else .ret ()

/-- `get` / `owned_get` (src/store.rs:298-305). -/
def kvGet (k : Bytes) : Prog (Option Bytes) := Prog.getRaw (userKey k)

/-- `contains` / `owned_contains` (src/store.rs:308-315). -/
def kvContains (k : Bytes) : Prog Bool := do return (← Prog.getRaw (userKey k)).isSome

/-- `remove` / `owned_remove` (src/store.rs:325-332). -/
def kvRemove (k : Bytes) : Prog (Option Bytes) := Prog.removeRaw (userKey k)

/-- `set` / `owned_set` (src/store.rs:379-391). -/
def kvSet (k v : Bytes) : Prog SetStatus := do
  ensureSizes k v
  setRaw (userKey k) v

/-- `replace` / `owned_replace` (src/store.rs:413-435). -/
def kvReplace (k v : Bytes) (expected : Option Bytes) : Prog ReplaceStatus := do
  ensureSizes k v
  replaceRaw (userKey k) v expected

/-- `get_or_create` / `owned_get_or_create` (src/store.rs:457-473). -/
def kvGetOrCreate (k v : Bytes) : Prog GocStatus := do
  ensureSizes k v
  gocRaw (userKey k) v

end Candy
