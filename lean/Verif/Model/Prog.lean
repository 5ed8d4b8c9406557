import Verif.Model.Router
/-!
# Programs over the raw storage operations

Every public call of the store is a straight program over four raw operations of the shard router (get, insert, remove, get by
hash) and one lock of the `keyed_locks` table. `Prog` is the syntax of such programs; a program's continuation receives
the answer of the raw operation. Nothing is assumed here about what the answers are: `CStep` below runs a program on the concrete
shard tree.

`?` on an error is `err`. A failed assertion, `unreachable!`, a slice index out of range and the underflow of `num_items` are
`panic` (the arithmetic checks are those of a debug build; a release build would wrap around). `exhausted` means that the 64-bit index space of one
list or queue has been used up (2^63 insertions).
-/
namespace Candy

/-- `CandyError` (src/lib.rs:61-80), the errors a call can return. The numbers carried for display are left out. -/
inductive Err where
  | keyTooLong
  | valueTooLong
  | cannotFit
  | decode
deriving DecidableEq

/-- The size checks of `insert_internal` (src/store.rs:342-356). -/
def sizeErr (cfg : Cfg) (k v : Bytes) : Option Err :=
  if MAX_TOTAL_KEY_SIZE < k.length then some .keyTooLong
  else if MAX_TOTAL_VALUE_SIZE < v.length then some .valueTooLong
  else if cfg.maxShardSize.toNat < k.length + v.length then some .cannotFit
  else none

/-- A program with result `α`. -/
inductive Prog (α : Type) where
  | ret (a : α)
  | err (e : Err)
  | panic
  | exhausted
  /-- `get_raw` (src/store.rs:290-294) -/
  | get (k : Bytes) (c : Option Bytes → Prog α)
  /-- `insert_internal` (src/store.rs:334-359): the size checks (`sizeErr`; a violation ends the call with that error), then
  `root.insert` -/
  | ins (k v : Bytes) (mode : Mode) (c : InsStatus → Prog α)
  /-- `remove_raw` (src/store.rs:317-321) -/
  | rem (k : Bytes) (c : Option Bytes → Prog α)
  /-- `get_by_hash(ph)` (src/store.rs:284-288), of which the caller only looks at the pairs whose key ends with `suf`
  (src/lists.rs:494-495). -/
  | byHash (ph : PH) (suf : Bytes) (c : List KV → Prog α)
  /-- `keyed_locks[i].lock()` (src/lists.rs:141-143). -/
  | lock (i : Nat) (c : Prog α)
  /-- Dropping the guard. (A thread that ends, with a result or an error, drops its guard too.) -/
  | unlock (c : Prog α)

namespace Prog

/-- Sequencing. -/
def bind {α β : Type} : Prog α → (α → Prog β) → Prog β
  | .ret a, f => f a
  | .err e, _ => .err e
  | .panic, _ => .panic
  | .exhausted, _ => .exhausted
  | .get k c, f => .get k (fun x => (c x).bind f)
  | .ins k v mode c, f => .ins k v mode (fun x => (c x).bind f)
  | .rem k c, f => .rem k (fun x => (c x).bind f)
  | .byHash ph suf c, f => .byHash ph suf (fun x => (c x).bind f)
  | .lock i c, f => .lock i (c.bind f)
  | .unlock c, f => .unlock (c.bind f)

instance : Monad Prog where
  pure := .ret
  bind := Prog.bind

/-- `get_raw`. -/
def getRaw (k : Bytes) : Prog (Option Bytes) := .get k .ret
/-- `remove_raw`. -/
def removeRaw (k : Bytes) : Prog (Option Bytes) := .rem k .ret

/-- `let _guard = self.lock_list(ph); body`. -/
def withLock {α : Type} (i : Nat) (body : Prog α) : Prog α := .lock i (body.bind (fun a => .unlock (.ret a)))

end Prog

/-- Result of a finished program. -/
inductive Res (α : Type) where
  | ok (a : α)
  | err (e : Err)
  | panic
  | exhausted
deriving DecidableEq

/-- The result of a program that has no operations left. -/
def Prog.result {α : Type} : Prog α → Option (Res α)
  | .ret a => some (.ok a)
  | .err e => some (.err e)
  | .panic => some .panic
  | .exhausted => some .exhausted
  | _ => none

/-- One raw operation of a program on the concrete store (locks are ignored here: see `Verif.Model.Conc`). `Tree.insert` is given as
much fuel as it needs; an insertion that never terminates has no step. -/
inductive CStep (cfg : Cfg) {α : Type} : Tree → Prog α → Tree → Prog α → Prop
  | get (t : Tree) (k c) : CStep cfg t (.get k c) t (c (t.get cfg k))
  | insErr (t : Tree) (k v mode c e) (hs : sizeErr cfg k v = some e) : CStep cfg t (.ins k v mode c) t (.err e)
  | ins (t t' : Tree) (k v mode c st n) (hs : sizeErr cfg k v = none) (h : t.insert cfg (cfg.ph k) k v mode n = .ok (t', st)) :
      CStep cfg t (.ins k v mode c) t' (c st)
  | rem (t : Tree) (k c) : CStep cfg t (.rem k c) (t.remove cfg k).1 (c (t.remove cfg k).2)
  | byHash (t : Tree) (ph suf c) :
      CStep cfg t (.byHash ph suf c) t (c ((t.getByHash ph).filter (fun kv => endsWith kv.1 suf)))
  | lock (t : Tree) (i c) : CStep cfg t (.lock i c) t c
  | unlock (t : Tree) (c) : CStep cfg t (.unlock c) t c

/-- Execution of a program, interleaved with any number of steps of the background compaction threads (`Tree.bgStep`, of the shard
owning any selector). Every state from which a step is made is below 4 GiB per shard file (`Tree.Small` is stated in the proofs;
here it is a parameter). -/
inductive CExec (cfg : Cfg) (ok : Tree → Prop) {α : Type} : Tree → Prog α → Tree → Prog α → Prop
  | refl (t : Tree) (p : Prog α) : CExec cfg ok t p t p
  | step {t p t' p' t'' p''} (hok : ok t) (h : CStep cfg t p t' p') (hr : CExec cfg ok t' p' t'' p'') : CExec cfg ok t p t'' p''
  | bg {t : Tree} {p : Prog α} {t' t'' p''} (sel : Nat) (hok : ok t) (h : t.bgStep cfg sel = some t')
      (hr : CExec cfg ok t' p t'' p'') : CExec cfg ok t p t'' p''

end Candy
