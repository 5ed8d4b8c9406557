import Verif.Spec.Single
/-!
# The lock file: several stores and one directory

`CandyStore::open` (src/store.rs:206-252) takes the file lock on `.lock` before it looks at the directory; closing a store drops the fields of `CandyStore` in the order of their declaration
(src/store.rs:101-110): `root` first, which drops every `Shard`, and `Drop for Shard` (src/shard.rs:1089-1093) waits for the compaction of the shard; `_lockfile` afterwards.

Any number of calls of `open` (numbered), in any number of processes. Of a store only what matters here is modelled: its phase, the `Shard` objects it has, and for which of them a background compaction has been submitted whose result
has not been sent. What the calls and compactions do with the files is one step `touch` each time (which files, and when a compaction is begun, is the subject of the other models; that there is at most one compaction per shard, and
that `wait_for_compaction` returns only after its result has been sent, is C84).
Assumptions about the operating system and `fslock` (not in /repo): at most one open `.lock` file is locked at any time, also within one process; the lock ends when the `LockFile` is dropped or its process dies; nobody else
removes `.lock` (the store does not: `C86_lock_file_stays`).
-/
namespace Candy
open Spec

/-- The life of the store opened by one call of `open`. -/
inductive StorePhase
  /-- `open` has not been called -/
  | idle
  /-- `open` has the lock (src/store.rs:223-227), and is at 229-241 -/
  | opening
  /-- `open` has returned the store -/
  | open
  /-- the store is being dropped -/
  | closing
  /-- `open` has failed, or the store has been dropped, or the process has died -/
  | gone
deriving DecidableEq

/-- All stores of a directory. -/
structure Single where
  /-- who has locked `.lock` -/
  holder : Option Nat
  phase : Nat → StorePhase
  /-- the `Shard` objects of the store, also those being created or replaced by a call (split, merge, clear) -/
  shards : Nat → List Nat
  /-- a compaction of this `Shard` object has been submitted, and its result has not been sent (src/shard.rs:290-291) -/
  running : Nat → Nat → Bool

def Single.init : Single := ⟨none, fun _ => .idle, fun _ => [], fun _ _ => false⟩

/-- Update of a function at one point. -/
def at_ {α : Type} (f : Nat → α) (i : Nat) (x : α) : Nat → α := fun j => if j = i then x else f j

/-- The steps, with what is observed. -/
inductive Single.Step : Single → DirEv → Single → Prop
  /-- `try_lock_with_pid` succeeds (src/store.rs:225) -/
  | lock {S : Single} (i : Nat) (h : S.phase i = .idle) (hl : S.holder = none) : Step S .other { S with holder := some i, phase := at_ S.phase i .opening }
  /-- it does not: `bail!` (src/store.rs:226) -/
  | refuse {S : Single} (i : Nat) (h : S.phase i = .idle) (hl : S.holder ≠ none) : Step S (.refused i) { S with phase := at_ S.phase i .gone }
  /-- the directory or the lock file cannot be created or opened (src/store.rs:222-225) -/
  | noLock {S : Single} (i : Nat) (h : S.phase i = .idle) : Step S (.failed i) { S with phase := at_ S.phase i .gone }
  /-- `ShardRouter::new` (src/store.rs:241): recovery, which also compacts in this thread (src/shard.rs:432) -/
  | load {S : Single} (i : Nat) (h : S.phase i = .opening) : Step S (.touch i) S
  /-- `open` fails (the `?` in src/store.rs:241): the shards opened so far have no background compactions; `lockfile` is dropped last -/
  | fail {S : Single} (i : Nat) (h : S.phase i = .opening) : Step S (.failed i) { S with holder := none, phase := at_ S.phase i .gone }
  /-- `open` returns (src/store.rs:243-252) -/
  | opened {S : Single} (i : Nat) (l : List Nat) (h : S.phase i = .opening) : Step S (.opened i) { S with phase := at_ S.phase i .open, shards := at_ S.shards i l }
  /-- a call accesses files -/
  | call {S : Single} (i : Nat) (h : S.phase i = .open) : Step S (.touch i) S
  /-- a call submits a compaction (src/shard.rs:945) -/
  | submit {S : Single} (i s : Nat) (h : S.phase i = .open) (hs : s ∈ S.shards i) : Step S .other { S with running := at_ S.running i (at_ (S.running i) s true) }
  /-- a compaction thread accesses files (`background_compact`, src/shard.rs:959-979) -/
  | work {S : Single} (i s : Nat) (h : S.running i s = true) : Step S (.touch i) S
  /-- it sends its result (src/shard.rs:291) -/
  | sent {S : Single} (i s : Nat) (h : S.running i s = true) : Step S .other { S with running := at_ S.running i (at_ (S.running i) s false) }
  /-- a call creates a `Shard` (split, merge, clear) -/
  | create {S : Single} (i s : Nat) (h : S.phase i = .open) : Step S .other { S with shards := at_ S.shards i (s :: S.shards i) }
  /-- a `Shard` is dropped, by a call that replaces it or when the store is closed: after waiting (src/shard.rs:1089-1093) -/
  | drop {S : Single} (i s : Nat) (h : S.phase i = .open ∨ S.phase i = .closing) (hr : S.running i s = false) :
      Step S .other { S with shards := at_ S.shards i ((S.shards i).filter (fun x => decide (x ≠ s))) }
  /-- `drop` of the `CandyStore` begins; there are no calls then (they borrow it) -/
  | close {S : Single} (i : Nat) (h : S.phase i = .open) : Step S .other { S with phase := at_ S.phase i .closing }
  /-- `_lockfile` is dropped, after `root` -/
  | unlock {S : Single} (i : Nat) (h : S.phase i = .closing) (hs : S.shards i = []) : Step S (.closed i) { S with holder := none, phase := at_ S.phase i .gone }
  /-- the process of a store dies (with several stores in one process: each in turn) -/
  | die {S : Single} (i : Nat) (h : S.phase i ≠ .idle) :
      Step S (.died i) ⟨if S.holder = some i then none else S.holder, at_ S.phase i .gone, at_ S.shards i [], at_ S.running i (fun _ => false)⟩

/-- A history of the directory. -/
inductive Single.Run : Single → List DirEv → Single → Prop
  | nil (S : Single) : Run S [] S
  | step {S M S' : Single} {e : DirEv} {tr : List DirEv} (h : S.Step e M) (hr : Run M tr S') : Run S (e :: tr) S'

end Candy
