import Verif.Model.Queues
/-!
# The public calls

`Call` is the vocabulary of the public API (one constructor per public method, with its arguments), `Resp` the vocabulary of its
successful answers, and `Call.prog` the program each call runs.
-/
namespace Candy

/-- Operations on one key: `get`, `contains`, `remove`, `set`, `replace`, `get_or_create` (src/store.rs:298-473). -/
inductive KvOp where
  | get
  | contains
  | remove
  | set (v : Bytes)
  | replace (v : Bytes) (expected : Option Bytes)
  | getOrCreate (v : Bytes)

/-- Operations on one list (src/lists.rs). `fwd = true` is the head / forwards variant. -/
inductive LOp where
  | set (ik v : Bytes)
  | setPromoting (ik v : Bytes)
  | replace (ik v : Bytes) (expected : Option Bytes)
  | getOrCreate (ik v : Bytes)
  | get (ik : Bytes)
  | remove (ik : Bytes)
  | iter (fwd : Bool)
  | peek (fwd : Bool)
  | pop (fwd : Bool)
  | compact (par : CompactParams)
  | discard
  | len

/-- Operations on one queue (src/queues.rs) or big value (src/store.rs:527-558). -/
inductive QOp where
  | push (pos : QPos) (v : Bytes)
  | pop (pos : QPos)
  | remove (idx : UInt64)
  | discard
  | extend (vs : List Bytes)
  | iter (fwd : Bool)
  | peek (fwd : Bool)
  | len
  | range
  | setBig (v : Bytes)
  | getBig
  | removeBig

/-- A public call. `typed` is a call of a typed store on the serialized key with its type id appended (src/typed.rs:85-93). -/
inductive Call where
  | kv (k : Bytes) (op : KvOp)
  | typed (tk : Bytes) (op : KvOp)
  | list (lk : Bytes) (op : LOp)
  | queue (qk : Bytes) (op : QOp)

/-- Answers. -/
inductive Resp where
  | val (o : Option Bytes)
  | flag (b : Bool)
  | setStatus (s : SetStatus)
  | replaceStatus (s : ReplaceStatus)
  | gocStatus (s : GocStatus)
  | items (l : List KV)
  | item (o : Option KV)
  | elems (l : List (Nat × Bytes))
  | elem (o : Option (Nat × Bytes))
  | num (n : Nat)
  | range (r : Nat × Nat)
deriving DecidableEq

/-- The call with its answer tagged. -/
def Prog.tag {α : Type} (f : α → Resp) (p : Prog α) : Prog Resp := p.bind (fun a => .ret (f a))

/-- The programs of the key-value calls (src/store.rs:298-473). -/
def KvOp.prog (k : Bytes) : KvOp → Prog Resp
  | .get => (kvGet k).tag .val
  | .contains => (kvContains k).tag .flag
  | .remove => (kvRemove k).tag .val
  | .set v => (kvSet k v).tag .setStatus
  | .replace v e => (kvReplace k v e).tag .replaceStatus
  | .getOrCreate v => (kvGetOrCreate k v).tag .gocStatus

/-- `make_key` (src/typed.rs:85-93); `tk` is the serialized key followed by the type id. -/
def typedKey (tk : Bytes) : Bytes := tk ++ TYPED_NS

/-- The programs of the typed store on serialized keys and values (src/typed.rs:95-198); there is no `ensure_sizes`. -/
def KvOp.typedProg (tk : Bytes) : KvOp → Prog Resp
  | .get => (Prog.getRaw (typedKey tk)).tag .val
  | .contains => (Prog.getRaw (typedKey tk)).tag (fun o => .flag o.isSome)
  | .remove => (Prog.removeRaw (typedKey tk)).tag .val
  | .set v => (setRaw (typedKey tk) v).tag .setStatus
  | .replace v e => (replaceRaw (typedKey tk) v e).tag .replaceStatus
  | .getOrCreate v => (gocRaw (typedKey tk) v).tag .gocStatus

/-- The programs of the list calls. -/
def LOp.prog (cfg : Cfg) (lk : Bytes) : LOp → Prog Resp
  | .set ik v => (setInList cfg lk ik v false).tag .setStatus
  | .setPromoting ik v => (setInList cfg lk ik v true).tag .setStatus
  | .replace ik v e => (replaceInList cfg lk ik v e).tag .replaceStatus
  | .getOrCreate ik v => (getOrCreateInList cfg lk ik v).tag .gocStatus
  | .get ik => (getFromList cfg lk ik).tag .val
  | .remove ik => (removeFromList cfg lk ik).tag .val
  | .iter fwd => (iterList cfg lk fwd).tag .items
  | .peek fwd => (peekList cfg lk fwd).tag .item
  | .pop fwd => (popList cfg lk fwd).tag .item
  | .compact par => (compactList cfg lk par).tag .flag
  | .discard => (discardList cfg lk).tag .flag
  | .len => (listLen lk).tag .num

/-- The programs of the queue calls. -/
def QOp.prog (cfg : Cfg) (qk : Bytes) : QOp → Prog Resp
  | .push pos v => (pushQueue cfg qk v pos).tag .num
  | .pop pos => (popQueue cfg qk pos).tag .elem
  | .remove i => (removeFromQueue cfg qk i.toNat).tag .val
  | .discard => (discardQueue cfg qk).tag .flag
  | .extend vs => (extendQueue cfg qk vs).tag .range
  | .iter fwd => (iterQueue cfg qk fwd).tag .elems
  | .peek fwd => (peekQueue cfg qk fwd).tag .elem
  | .len => (queueLen cfg qk).tag .num
  | .range => (queueRange cfg qk).tag .range
  | .setBig v => (Candy.setBig cfg qk v).tag .flag
  | .getBig => (Candy.getBig cfg qk).tag .val
  | .removeBig => (Candy.removeBig cfg qk).tag .flag

/-- The program of a call. -/
def Call.prog (cfg : Cfg) : Call → Prog Resp
  | .kv k op => op.prog k
  | .typed tk op => op.typedProg tk
  | .list lk op => op.prog cfg lk
  | .queue qk op => op.prog cfg qk

end Candy
