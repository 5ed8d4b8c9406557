import Verif.Model.Conc
/-!
# Specification: where values come from

Which calls give which values to which keys, list items and queues, and which values the answer of a call contains.
-/
namespace Candy.Spec

/-- What holds values: a key (of the untyped or typed API), an item of a list, the elements of a queue (or the pieces of a big value). -/
inductive Obj where
  | kv (k : Bytes)
  | typed (tk : Bytes)
  | item (lk ik : Bytes)
  | elem (qk : Bytes)

/-- The call, if it succeeds, may give this value to the object. -/
inductive Gives : Call → Obj → Bytes → Prop
  | set (k v : Bytes) : Gives (.kv k (.set v)) (.kv k) v
  | replace (k v : Bytes) (e : Option Bytes) : Gives (.kv k (.replace v e)) (.kv k) v
  | getOrCreate (k v : Bytes) : Gives (.kv k (.getOrCreate v)) (.kv k) v
  | typedSet (k v : Bytes) : Gives (.typed k (.set v)) (.typed k) v
  | typedReplace (k v : Bytes) (e : Option Bytes) : Gives (.typed k (.replace v e)) (.typed k) v
  | typedGetOrCreate (k v : Bytes) : Gives (.typed k (.getOrCreate v)) (.typed k) v
  | listSet (lk ik v : Bytes) : Gives (.list lk (.set ik v)) (.item lk ik) v
  | listPromoting (lk ik v : Bytes) : Gives (.list lk (.setPromoting ik v)) (.item lk ik) v
  | listReplace (lk ik v : Bytes) (e : Option Bytes) : Gives (.list lk (.replace ik v e)) (.item lk ik) v
  | listGetOrCreate (lk ik v : Bytes) : Gives (.list lk (.getOrCreate ik v)) (.item lk ik) v
  | push (qk v : Bytes) (pos : QPos) : Gives (.queue qk (.push pos v)) (.elem qk) v
  | extend (qk v : Bytes) (vs : List Bytes) (h : v ∈ vs) : Gives (.queue qk (.extend vs)) (.elem qk) v
  /-- a big value is stored in pieces of `MAX_VALUE_SIZE` bytes -/
  | big (qk v : Bytes) (n : Nat) (h : n * MAX_VALUE_SIZE < v.length) :
      Gives (.queue qk (.setBig v)) (.elem qk) ((v.drop (n * MAX_VALUE_SIZE)).take MAX_VALUE_SIZE)

/-- The answer about one key or item contains this value. -/
inductive Held : Resp → Bytes → Prop
  | val (b : Bytes) : Held (.val (some b)) b
  | prevSet (b : Bytes) : Held (.setStatus (.prevValue b)) b
  | prevReplace (b : Bytes) : Held (.replaceStatus (.prevValue b)) b
  | wrong (b : Bytes) : Held (.replaceStatus (.wrongValue b)) b
  | existing (b : Bytes) : Held (.gocStatus (.existingValue b)) b
  | created (b : Bytes) : Held (.gocStatus (.createdNew b)) b

/-- The item that a list call is about. -/
def _root_.Candy.LOp.itemOf : LOp → Option Bytes
  | .set ik _ => some ik
  | .setPromoting ik _ => some ik
  | .replace ik _ _ => some ik
  | .getOrCreate ik _ => some ik
  | .get ik => some ik
  | .remove ik => some ik
  | _ => none

/-- The answer to the call contains this value of the object. -/
inductive Returns : Call → Resp → Obj → Bytes → Prop
  | kv (k b : Bytes) (op : KvOp) (r : Resp) (h : Held r b) : Returns (.kv k op) r (.kv k) b
  | typed (k b : Bytes) (op : KvOp) (r : Resp) (h : Held r b) : Returns (.typed k op) r (.typed k) b
  | item (lk ik b : Bytes) (op : LOp) (r : Resp) (hk : op.itemOf = some ik) (h : Held r b) : Returns (.list lk op) r (.item lk ik) b
  | oneItem (lk ik b : Bytes) (op : LOp) : Returns (.list lk op) (.item (some (ik, b))) (.item lk ik) b
  | items (lk ik b : Bytes) (op : LOp) (l : List KV) (h : (ik, b) ∈ l) : Returns (.list lk op) (.items l) (.item lk ik) b
  | removed (qk b : Bytes) (i : UInt64) : Returns (.queue qk (.remove i)) (.val (some b)) (.elem qk) b
  | oneElem (qk b : Bytes) (op : QOp) (i : Nat) : Returns (.queue qk op) (.elem (some (i, b))) (.elem qk) b
  | elems (qk b : Bytes) (op : QOp) (i : Nat) (l : List (Nat × Bytes)) (h : (i, b) ∈ l) : Returns (.queue qk op) (.elems l) (.elem qk) b

/-- The same object, or items with the same key of two lists whose keys have the same hash (such lists are mixed up, C27). -/
def Alike (cfg : Cfg) (o o' : Obj) : Prop := o = o' ∨ ∃ lk lk' ik, o = .item lk ik ∧ o' = .item lk' ik ∧ cfg.listPh lk = cfg.listPh lk'

end Candy.Spec
