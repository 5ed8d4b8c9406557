import Verif.Model.Api
import Verif.Spec.Map
import Verif.Spec.Lists
import Verif.Spec.Queues
/-!
# Specification of the public API

The ideal store: a map for the key-value API, a map for the typed API, an insertion-ordered map per list, a deque per queue. Each call
acts on its own component only. Nothing here refers to raw keys, shards, records or programs; of the model only the vocabulary
of calls and answers (`Call`, `Resp`) is used, and the hash of list keys: nothing is promised about two lists whose keys have the same 64-bit
hash once both are used (C27), nor about a queue after a `remove_from_queue` outside its specification (C33, `qPre`). Such a list or queue
is `none` below.
-/
namespace Candy.Spec

/-! ## Key-value calls -/

/-- What a key-value call answers, and the new value of its key, when the key's value is `cur`. -/
def kvAnswer (cur : Option Bytes) : KvOp → Resp × Option Bytes
  | .get => (.val cur, cur)
  | .contains => (.flag cur.isSome, cur)
  | .remove => (.val cur, none)
  | .set v => (.setStatus (match cur with | none => .createdNew | some old => .prevValue old), some v)
  | .replace v e => match cur with
    | none => (.replaceStatus .doesNotExist, none)
    | some old => if e = none ∨ e = some old then (.replaceStatus (.prevValue old), some v) else (.replaceStatus (.wrongValue old), some old)
  | .getOrCreate v => match cur with
    | none => (.gocStatus (.createdNew v), some v)
    | some old => (.gocStatus (.existingValue old), some old)

/-- The value a call wants to store. -/
def KvOp.value? : KvOp → Option Bytes
  | .set v => some v
  | .replace v _ => some v
  | .getOrCreate v => some v
  | _ => none

/-- The error a key-value call must give: key longer than 16128 bytes, else value longer than 65280 bytes, else the pair (with one byte of
name space) larger than a shard. -/
def kvError (cfg : Cfg) (k : Bytes) (op : KvOp) : Option Err :=
  match KvOp.value? op with
  | none => none
  | some v =>
    if 16128 < k.length then some .keyTooLong
    else if 65280 < v.length then some .valueTooLong
    else if cfg.maxShardSize.toNat < k.length + 1 + v.length then some .cannotFit
    else none

/-- The error a typed call must give: as above, with the limits of the raw layer (16383 and 65535 bytes). -/
def typedError (cfg : Cfg) (tk : Bytes) (op : KvOp) : Option Err :=
  match KvOp.value? op with
  | none => none
  | some v =>
    if 16383 < tk.length + 1 then some .keyTooLong
    else if 65535 < v.length then some .valueTooLong
    else if cfg.maxShardSize.toNat < tk.length + 1 + v.length then some .cannotFit
    else none

/-- A key-value call on the map `m`. -/
def kvStep (err : Option Err) (m : Map) (k : Bytes) (op : KvOp) (r : Res Resp) (m' : Map) : Prop :=
  match err with
  | some e => r = .err e ∧ m' = m
  | none => r = .ok (kvAnswer (m k) op).1 ∧ m' = m.upd k (kvAnswer (m k) op).2

/-! ## Lists -/

/-- A list: its items, whether no call on it has failed so far (only then its length is promised), and a bound on the number of
insertions and compaction moves made on it. -/
structure LState where
  items : OList
  clean : Bool
  used : Nat

/-- The list that has never been used. -/
def LState.new : LState := ⟨[], true, 0⟩

/-- List key, item key and value are within the size limits. -/
def listFits (cfg : Cfg) (lk ik v : Bytes) : Prop :=
  lk.length + 1 ≤ 16383 ∧ lk.length + 25 ≤ cfg.maxShardSize.toNat ∧
  ik.length + 9 ≤ 16383 ∧ v.length + 8 ≤ 65535 ∧ ik.length + v.length + 17 ≤ cfg.maxShardSize.toNat

/-- The item key and value an operation wants to store, and the items left if storing them fails. -/
def LOp.stores? (l : OList) : LOp → Option (Bytes × Bytes × OList)
  | .set ik v => some (ik, v, l)
  | .setPromoting ik v => some (ik, v, l.erase ik)
  | .replace ik v _ => some (ik, v, l)
  | .getOrCreate ik v => some (ik, v, l)
  | _ => none

/-- How many indices of the 2^63 available an operation may use up. -/
def LOp.cost (l : OList) : LOp → Nat
  | .compact _ => l.length
  | .set .. => 1
  | .setPromoting .. => 1
  | .replace .. => 1
  | .getOrCreate .. => 1
  | _ => 0

/-- The items in the order of an iterator. -/
def OList.dir (l : OList) (fwd : Bool) : OList := if fwd then l else l.reverse

/-- Answer and new items of a successful operation. -/
def lAnswer (s : LState) (op : LOp) (a : Resp) (l' : OList) : Prop :=
  let l := s.items
  match op with
  | .set ik v => l' = l.set ik v ∧ a = .setStatus (match l.get ik with | none => .createdNew | some old => .prevValue old)
  | .setPromoting ik v => l' = l.erase ik ++ [(ik, v)] ∧ a = .setStatus .createdNew
  | .replace ik v none => match l.get ik with
    | none => l' = l ∧ a = .replaceStatus .doesNotExist
    | some old => l' = l.set ik v ∧ a = .replaceStatus (.prevValue old)
  | .replace ik v (some e) => match l.get ik with
    | none => l' = l ∧ a = .replaceStatus .doesNotExist
    | some old => (l' = l ∧ a = .replaceStatus (.wrongValue old)) ∨
        -- the library compares `e` with an internal 8-byte index instead of the value
        (e.length = 8 ∧ l' = l.set ik v ∧ a = .replaceStatus (.prevValue old))
  | .getOrCreate ik v => match l.get ik with
    | none => l' = l.set ik v ∧ a = .gocStatus (.createdNew v)
    | some old => l' = l ∧ a = .gocStatus (.existingValue old)
  | .get ik => l' = l ∧ a = .val (l.get ik)
  | .remove ik => l' = l.erase ik ∧ a = .val (l.get ik)
  | .iter fwd => l' = l ∧ a = .items (l.dir fwd)
  | .peek fwd => l' = l ∧ a = .item (l.dir fwd).head?
  | .pop fwd => a = .item (l.dir fwd).head? ∧ l' = match (l.dir fwd).head? with | none => l | some p => l.erase p.1
  | .compact _ => l' = l ∧ ∃ b, a = .flag b
  | .discard => l' = [] ∧ ∃ b, a = .flag b ∧ (l ≠ [] → b = true)
  | .len => l' = l ∧ ∃ n, a = .num n ∧ (s.clean = true → n = l.length)

/-- A list call. A call fails only if something does not fit, and then changes no items (a promoting call has removed its item);
it never panics. -/
def lStep (cfg : Cfg) (lk : Bytes) (s : LState) (op : LOp) (r : Res Resp) (s' : LState) : Prop :=
  match r with
  | .ok a => lAnswer s op a s'.items ∧ s'.clean = s.clean ∧ s'.used = s.used + LOp.cost s.items op
  | .err _ => ∃ ik v l, LOp.stores? s.items op = some (ik, v, l) ∧ ¬ listFits cfg lk ik v ∧ s'.items = l ∧ s'.clean = false ∧
      s'.used = s.used + LOp.cost s.items op
  | .panic => False
  | .exhausted => 9223372036854775808 ≤ s.used + LOp.cost s.items op

/-! ## Queues -/

/-- A queue: the deque, whether no call on it has failed so far, and a bound on the number of elements ever put into it. -/
structure QState where
  dq : Deque
  clean : Bool
  used : Nat

/-- The queue that has never been used. -/
def QState.new : QState := ⟨Deque.empty, true, 0⟩

/-- The queue's record is within the size limits. -/
def queueRecFits (cfg : Cfg) (qk : Bytes) : Prop := qk.length + 1 ≤ 16383 ∧ qk.length + 25 ≤ cfg.maxShardSize.toNat

/-- A queue element of `n` bytes is within the size limits. -/
def queueItemFits (cfg : Cfg) (qk : Bytes) (n : Nat) : Prop :=
  qk.length + 9 ≤ 16383 ∧ n ≤ 65535 ∧ qk.length + 9 + n ≤ cfg.maxShardSize.toNat

/-- Everything the operation stores is within the size limits (big values are stored in pieces of at most 65280 bytes). -/
def QOp.fits (cfg : Cfg) (qk : Bytes) : QOp → Prop
  | .push _ v => queueRecFits cfg qk ∧ queueItemFits cfg qk v.length
  | .extend vs => queueRecFits cfg qk ∧ ∀ v ∈ vs, queueItemFits cfg qk v.length
  | .setBig v => queueRecFits cfg qk ∧ queueItemFits cfg qk (Nat.min v.length 65280)
  | _ => True

/-- How many indices an operation may use up. -/
def QOp.cost : QOp → Nat
  | .push .. => 1
  | .extend vs => vs.length
  | .setBig v => v.length
  | _ => 0

/-- The elements in the order of an iterator. -/
def Deque.dir (q : Deque) (fwd : Bool) : List (Nat × Bytes) := if fwd then q.elems else q.elems.reverse

/-- Answer and new deque of a successful operation. -/
def qAnswer (s : QState) (op : QOp) (a : Resp) (q' : Deque) : Prop :=
  let q := s.dq
  match op with
  | .push .head v => q' = q.pushHead v ∧ a = .num q.headIdx
  | .push .tail v => q' = q.pushTail v ∧ a = .num q.tailIdx
  | .pop .head => q' = q.popHead ∧ a = .elem q.elems.head?
  | .pop .tail => q' = q.popTail ∧ a = .elem q.elems.getLast?
  | .remove i => q' = q.removeAt i.toNat ∧ a = .val (q.at? i.toNat)
  | .discard => q' = Deque.empty ∧ a = .flag q.range.isSome
  | .extend vs => q' = q.extend vs ∧ a = .range (q.tailIdx, q.tailIdx + vs.length)
  | .iter fwd => q' = q ∧ a = .elems (q.dir fwd)
  | .peek fwd => q' = q ∧ a = .elem (q.dir fwd).head?
  | .len => q' = q ∧ ∃ n, a = .num n ∧ (s.clean = true → n = q.elems.length)
  | .range => q' = q ∧ a = .range (q.range.getD (FIRST, FIRST))
  | .setBig v => (∃ cs : List Bytes, q' = Deque.empty.extend cs ∧ cs.flatten = v ∧ (cs = [] ↔ v = [])) ∧ a = .flag q.range.isSome
  | .getBig => q' = q ∧ a = .val (if q.elems = [] then none else some (q.elems.map Prod.snd).flatten)
  | .removeBig => q' = Deque.empty ∧ a = .flag q.range.isSome

/-- What a failed operation may leave behind: it may have reserved the index of the element, created the (empty) queue, or, for
`set_big`, discarded the old value; a left-over element of an earlier failed `extend_queue` may have become visible. -/
def qFailed (q : Deque) (op : QOp) (q' : Deque) : Prop :=
  match op with
  | .push .head _ => q' = q ∨ (∃ v, q' = q.pushHead v) ∨ q' = { q.pushHead [] with elems := q.elems }
  | .push .tail _ => q' = q ∨ (∃ v, q' = q.pushTail v) ∨ q' = { q.pushTail [] with elems := q.elems }
  | .setBig _ => q' = Deque.empty ∨ q' = Deque.empty.extend []
  | _ => q' = q ∨ q' = q.extend []

/-- What the operation needs: `remove_from_queue` is only specified when the range has at least two indices (see C33), or when the queue
does not exist; after a failed call, only for indices in the range. -/
def qPre (s : QState) : QOp → Prop
  | .remove i => match s.dq.range with
    | none => s.clean = true
    | some (h, t) => h + 2 ≤ t ∧ (s.clean = true ∨ (h ≤ i.toNat ∧ i.toNat < t))
  | _ => True

/-- A queue call. -/
def qStep (cfg : Cfg) (qk : Bytes) (s : QState) (op : QOp) (r : Res Resp) (s' : QState) : Prop :=
  match r with
  | .ok a => qAnswer s op a s'.dq ∧ s'.clean = s.clean ∧ s'.used = s.used + QOp.cost op
  | .err _ => ¬ QOp.fits cfg qk op ∧ qFailed s.dq op s'.dq ∧ s'.clean = false ∧ s'.used = s.used + QOp.cost op
  | .panic => False
  | .exhausted => 9223372036854775808 ≤ s.used + QOp.cost op

/-! ## The whole store -/

/-- The ideal store. A list or queue about which nothing is promised any more is `none`. -/
structure World where
  kv : Map
  typed : Map
  lists : Bytes → Option LState
  queues : Bytes → Option QState

/-- The new store. -/
def World.new : World := ⟨Map.empty, Map.empty, fun _ => some LState.new, fun _ => some QState.new⟩

/-- Update of one component. -/
def setAt {β : Type} (f : Bytes → β) (k : Bytes) (x : β) : Bytes → β := fun k' => if k' = k then x else f k'

/-- Use of one list: from then on nothing is promised about other lists with the same hash. -/
def useList (cfg : Cfg) (f : Bytes → Option LState) (lk : Bytes) (x : Option LState) : Bytes → Option LState :=
  fun k' => if k' = lk then x else if cfg.listPh k' = cfg.listPh lk then none else f k'

/-- A list call: as `lStep` says, if anything is promised about the list. -/
def listStep (cfg : Cfg) (lk : Bytes) (op : LOp) (r : Res Resp) : Option LState → Option LState → Prop
  | none, x => x = none
  | some s, x => ∃ s', lStep cfg lk s op r s' ∧ x = some s'

/-- A queue call: as `qStep` says, if anything is promised about the queue and the call is within its specification. -/
def queueStep (cfg : Cfg) (qk : Bytes) (op : QOp) (r : Res Resp) : Option QState → Option QState → Prop
  | none, x => x = none
  | some s, x => (qPre s op → ∃ s', qStep cfg qk s op r s' ∧ x = some s') ∧ (¬ qPre s op → x = none)

/-- A call with answer `r` takes the ideal store from `w` to `w'`. -/
def World.step (cfg : Cfg) (w : World) (c : Call) (r : Res Resp) (w' : World) : Prop :=
  match c with
  | .kv k op => ∃ m', kvStep (kvError cfg k op) w.kv k op r m' ∧ w' = { w with kv := m' }
  | .typed tk op => ∃ m', kvStep (typedError cfg tk op) w.typed tk op r m' ∧ w' = { w with typed := m' }
  | .list lk op => ∃ x, listStep cfg lk op r (w.lists lk) x ∧ w' = { w with lists := useList cfg w.lists lk x }
  | .queue qk op => ∃ x, queueStep cfg qk op r (w.queues qk) x ∧ w' = { w with queues := setAt w.queues qk x }

/-! ## Crashes

What is promised when the process dies inside a call and the store is opened again. Everything but the object the call was working on
is as before the call. -/

/-- A key-value call that was cut off has happened or not. -/
def kvCrash (err : Option Err) (m : Map) (k : Bytes) (op : KvOp) (m' : Map) : Prop :=
  m' = m ∨ (err = none ∧ m' = m.upd k (kvAnswer (m k) op).2)

/-- A list call that was cut off. Reading changes nothing; `set_in_list`, `replace_in_list` and `get_or_create_in_list` have happened or not
(but the length is not promised any more); after the others nothing is promised about that list (C30). -/
def lCrash (s : LState) (op : LOp) (x : Option LState) : Prop :=
  match op with
  | .get _ => x = some s
  | .iter _ => x = some s
  | .peek _ => x = some s
  | .len => x = some s
  | .set .. => ∃ l, (l = s.items ∨ ∃ a, lAnswer s op a l) ∧ x = some ⟨l, false, s.used + LOp.cost s.items op⟩
  | .replace .. => ∃ l, (l = s.items ∨ ∃ a, lAnswer s op a l) ∧ x = some ⟨l, false, s.used + LOp.cost s.items op⟩
  | .getOrCreate .. => ∃ l, (l = s.items ∨ ∃ a, lAnswer s op a l) ∧ x = some ⟨l, false, s.used + LOp.cost s.items op⟩
  | _ => x = none

/-- The deque a queue call may leave behind that was cut off before it was complete: a push may have reserved its index (showing a
left-over of an earlier interrupted call, if there was one); a pop or removal may have removed its element without adjusting the range;
`extend_queue` may have created the queue; discarding may have removed some elements from the head. -/
def qPartial (s : QState) (op : QOp) (q' : Deque) : Prop :=
  let q := s.dq
  match op with
  | .push .head _ => q' = { q.pushHead [] with elems := q.elems } ∨ (s.clean = false ∧ ∃ x, q' = q.pushHead x)
  | .push .tail _ => q' = { q.pushTail [] with elems := q.elems } ∨ (s.clean = false ∧ ∃ x, q' = q.pushTail x)
  | .pop .head => q' = { q with elems := q.elems.tail }
  | .pop .tail => q' = { q with elems := q.elems.dropLast }
  | .remove i => q' = { q with elems := q.elems.filter (fun e => decide (e.1 ≠ i.toNat)) }
  | .extend _ => q' = q.extend []
  | .discard => ∃ n, q' = { q with elems := q.elems.drop n }
  | .removeBig => ∃ n, q' = { q with elems := q.elems.drop n }
  | .setBig _ => q' = Deque.empty ∨ q' = Deque.empty.extend [] ∨ ∃ n, q' = { q with elems := q.elems.drop n }
  | _ => False

/-- The calls that only read. -/
def QOp.reads : QOp → Bool
  | .iter _ => true
  | .peek _ => true
  | .len => true
  | .range => true
  | .getBig => true
  | _ => false

/-- A queue call that was cut off: it has not happened, it has happened, or it was left incomplete as above. -/
def qCrash (s : QState) (op : QOp) (x : Option QState) : Prop :=
  if QOp.reads op then x = some s
  else ∃ q', (q' = s.dq ∨ (∃ a, qAnswer s op a q') ∨ qPartial s op q') ∧ x = some ⟨q', false, s.used + QOp.cost op⟩

/-- A list call that was cut off, if anything is promised about the list. -/
def listCrash (op : LOp) : Option LState → Option LState → Prop
  | none, x => x = none
  | some s, x => lCrash s op x

/-- A queue call that was cut off, if anything is promised about the queue and the call was within its specification. -/
def queueCrash (op : QOp) : Option QState → Option QState → Prop
  | none, x => x = none
  | some s, x => (qPre s op → qCrash s op x) ∧ (¬ qPre s op → x = none)

/-- The process died inside call `c` (or outside any call), and the store was opened again. -/
def World.crash (cfg : Cfg) (w : World) (c : Option Call) (w' : World) : Prop :=
  match c with
  | none => w' = w
  | some (.kv k op) => ∃ m', kvCrash (kvError cfg k op) w.kv k op m' ∧ w' = { w with kv := m' }
  | some (.typed tk op) => ∃ m', kvCrash (typedError cfg tk op) w.typed tk op m' ∧ w' = { w with typed := m' }
  | some (.list lk op) => ∃ x, listCrash op (w.lists lk) x ∧ w' = { w with lists := useList cfg w.lists lk x }
  | some (.queue qk op) => ∃ x, queueCrash op (w.queues qk) x ∧ w' = { w with queues := setAt w.queues qk x }

end Candy.Spec
