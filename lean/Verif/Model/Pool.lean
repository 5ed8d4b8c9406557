import Verif.Model.Shard
/-!
# The compaction threads

The thread pool that runs the background compactions (src/shard.rs:250-320), and the bookkeeping of compactions in the shards: the handle of the running one
(`compaction_handle`, with its mutex), `files.1`, and the lock `files` (src/shard.rs:714-757, 897-978, 1076-1093). The contents of the files are not part of
this model (see `Verif.Model.Shard` and `Verif.Model.Fine`).

Threads, shards and workers are numbers. Any number of threads uses any number of shards: each may at any time access a row, want to begin a compaction
(`insert`), or wait for one (`split`, `get_stats`, `Drop`). Every step is an atomic action of the program. Locks are not part of the state: who holds
which is determined by where the threads are.

Simplifications: a thread holds no other lock (the nodes of the tree and the list locks are ordered before those of the shards, see C63); of the work of a compaction only
the rows are counted; a file operation that fails is a step of its own; `files` may be granted to a new reader although a writer waits, if `barge` is set (parking_lot does not
do that).
-/
namespace Candy

/-- The number of a compaction, in the order in which they have been submitted; this is also the number of its one-element channel (src/shard.rs:301). -/
abbrev Job := Nat

/-- Where a worker is. `s` is the shard, `j` the compaction. -/
inductive WPc where
  /-- in `rx.iter()` (src/shard.rs:286) -/
  | idle
  /-- about to lock `files` (src/shard.rs:960) -/
  | got (s : Nat) (j : Job)
  /-- holds `files` as an upgradable reader, `n` rows have been copied (src/shard.rs:488-527) -/
  | working (s : Nat) (j : Job) (n : Nat)
  /-- about to take `files` for writing (src/shard.rs:974) -/
  | renamed (s : Nat) (j : Job)
  /-- `files` has been released, about to send the result (src/shard.rs:291) -/
  | sending (s : Nat) (j : Job) (ok : Bool)
  /-- the thread has ended -/
  | gone

/-- Where another thread is. -/
inductive TPc where
  /-- not in the code below -/
  | out
  /-- wants `files` for reading (src/shard.rs:719, 742) -/
  | wantRow (s r : Nat)
  /-- has `files` for reading, and the lock of the row -/
  | inRow (s r : Nat)
  /-- `begin_compaction`: wants the mutex of the handle (src/shard.rs:906) -/
  | wantBegin (s : Nat)
  /-- ... wants `files` for writing (src/shard.rs:907) -/
  | hasMutex (s : Nat)
  /-- ... has both -/
  | deciding (s : Nat)
  /-- ... has taken the handle, waits for its result (src/shard.rs:927) -/
  | collects (s : Nat) (j : Job)
  /-- ... about to create the file and to submit the compaction (src/shard.rs:930-954) -/
  | creating (s : Nat)
  /-- `wait_for_compaction`: wants the mutex of the handle (src/shard.rs:898) -/
  | wantWait (s : Nat)
  /-- ... has taken the handle, waits for its result (src/shard.rs:900) -/
  | waits (s : Nat) (j : Job)
  /-- an assertion has failed -/
  | panicked

/-- The channel of a compaction: nothing yet, the result, or disconnected without a result. -/
inductive Chan where
  | pending
  | ready (ok : Bool)
  | closed
deriving DecidableEq

/-- What happens. -/
inductive PoolEv where
  /-- compaction `j` of shard `s` has been submitted -/
  | begun (s : Nat) (j : Job)
  /-- ... has ended, successfully or not -/
  | ended (j : Job) (ok : Bool)
  /-- thread `i` has received the result -/
  | told (i : Nat) (j : Job) (ok : Bool)
  /-- thread `i` returns from `begin_compaction` or `wait_for_compaction` -/
  | returned (i : Nat) (ok : Bool)
deriving DecidableEq

structure Pool where
  workers : Nat → WPc
  threads : Nat → TPc
  queue : List (Nat × Job)
  chan : Job → Chan
  /-- the number of submitted compactions -/
  next : Nat
  /-- `compaction_handle` of the shards -/
  handle : Nat → Option Job
  /-- `files.1.is_some()` of the shards -/
  target : Nat → Bool
  log : List PoolEv

/-- `CompactionThreadPool::new(num_threads)` (src/shard.rs:278-298). -/
def Pool.init (numThreads : Nat) : Pool :=
  ⟨fun w => if w < numThreads then .idle else .gone, fun _ => .out, [], fun _ => .pending, 0, fun _ => none, fun _ => false, []⟩

/-- Change a function at one place. -/
def fset {α : Type} (f : Nat → α) (i : Nat) (x : α) : Nat → α := fun j => if j = i then x else f j

/-- The thread holds the mutex of the handle of `s`. -/
def TPc.locks (s : Nat) : TPc → Prop
  | .hasMutex s' => s' = s
  | .deciding s' => s' = s
  | .collects s' _ => s' = s
  | .creating s' => s' = s
  | .waits s' _ => s' = s
  | _ => False

/-- The thread holds `files` of `s` for writing. -/
def TPc.writes (s : Nat) : TPc → Prop
  | .deciding s' => s' = s
  | .collects s' _ => s' = s
  | .creating s' => s' = s
  | _ => False

/-- The worker holds `files` of `s` as an upgradable reader. -/
def WPc.upgradable (s : Nat) : WPc → Prop
  | .working s' _ _ => s' = s
  | .renamed s' _ => s' = s
  | _ => False

def Pool.MutexFree (S : Pool) (s : Nat) : Prop := ∀ i, ¬ (S.threads i).locks s
def Pool.NoWriter (S : Pool) (s : Nat) : Prop := ∀ i, ¬ (S.threads i).writes s
def Pool.NoReader (S : Pool) (s : Nat) : Prop := ∀ i r, S.threads i ≠ .inRow s r
def Pool.NoUpgradable (S : Pool) (s : Nat) : Prop := ∀ w, ¬ (S.workers w).upgradable s
/-- Nobody waits to write to `files` of `s`. -/
def Pool.NoWaiting (S : Pool) (s : Nat) : Prop := (∀ i, S.threads i ≠ .hasMutex s) ∧ ∀ w j, S.workers w ≠ .renamed s j

/-- The receiver of the channel of `j` exists: it is in a handle, or a thread has taken it. -/
def Pool.Receiver (S : Pool) (j : Job) : Prop :=
  (∃ s, S.handle s = some j) ∨ ∃ i s, S.threads i = .collects s j ∨ S.threads i = .waits s j

/-- A thread begins a call. -/
inductive Pool.Enter (S : Pool) : Pool → Prop
  | row (i s r : Nat) (h : S.threads i = .out) : Enter S { S with threads := fset S.threads i (.wantRow s r) }
  | begin (i s : Nat) (h : S.threads i = .out) : Enter S { S with threads := fset S.threads i (.wantBegin s) }
  | wait (i s : Nat) (h : S.threads i = .out) : Enter S { S with threads := fset S.threads i (.wantWait s) }

/-- The other steps. -/
inductive Pool.Step (barge : Bool) (S : Pool) : Pool → Prop
  -- access to a row (src/shard.rs:714-757)
  | lockRow (i s r : Nat) (h : S.threads i = .wantRow s r) (hw : S.NoWriter s) (hb : barge = false → S.NoWaiting s) :
      Step barge S { S with threads := fset S.threads i (.inRow s r) }
  | unlockRow (i s r : Nat) (h : S.threads i = .inRow s r) : Step barge S { S with threads := fset S.threads i .out }
  -- `begin_compaction` (src/shard.rs:905-957)
  | beginMutex (i s : Nat) (h : S.threads i = .wantBegin s) (hm : S.MutexFree s) : Step barge S { S with threads := fset S.threads i (.hasMutex s) }
  | beginFiles (i s : Nat) (h : S.threads i = .hasMutex s) (hw : S.NoWriter s) (hr : S.NoReader s) (hu : S.NoUpgradable s) :
      Step barge S { S with threads := fset S.threads i (.deciding s) }
  /-- "already compacted by someone else" (src/shard.rs:909-912) -/
  | already (i s : Nat) (h : S.threads i = .deciding s) :
      Step barge S { S with threads := fset S.threads i .out, log := S.log ++ [.returned i true] }
  /-- "the thread is still running -- all good" (src/shard.rs:914-919) -/
  | running (i s : Nat) (j : Job) (h : S.threads i = .deciding s) (ht : S.target s = true) (hh : S.handle s = some j) (hc : ∀ b, S.chan j ≠ .ready b) :
      Step barge S { S with threads := fset S.threads i .out, log := S.log ++ [.returned i true] }
  /-- (src/shard.rs:920-922) -/
  | noHandle (i s : Nat) (h : S.threads i = .deciding s) (ht : S.target s = true) (hh : S.handle s = none) :
      Step barge S { S with threads := fset S.threads i .out, log := S.log ++ [.returned i true] }
  /-- `handle_guard.take()` (src/shard.rs:926) -/
  | take (i s : Nat) (j : Job) (h : S.threads i = .deciding s) (ht : S.target s = false ∨ ∃ b, S.chan j = .ready b) (hh : S.handle s = some j) :
      Step barge S { S with threads := fset S.threads i (.collects s j), handle := fset S.handle s none }
  | noOld (i s : Nat) (h : S.threads i = .deciding s) (ht : S.target s = false) (hh : S.handle s = none) :
      Step barge S { S with threads := fset S.threads i (.creating s) }
  /-- `handle.wait()?` (src/shard.rs:927) -/
  | collected (i s : Nat) (j : Job) (b : Bool) (h : S.threads i = .collects s j) (hc : S.chan j = .ready b) :
      Step barge S { S with threads := fset S.threads i (if b then .creating s else .out),
                            log := S.log ++ [.told i j b] ++ (if b then [] else [.returned i false]) }
  | collectedNone (i s : Nat) (j : Job) (h : S.threads i = .collects s j) (hc : S.chan j = .closed) :
      Step barge S { S with threads := fset S.threads i .out, log := S.log ++ [.returned i false] }
  /-- `assert!(files_guard.1.is_none())` (src/shard.rs:930) -/
  | assertFails (i s : Nat) (h : S.threads i = .creating s) (ht : S.target s = true) : Step barge S { S with threads := fset S.threads i .panicked }
  /-- the file cannot be created (src/shard.rs:941) -/
  | createFails (i s : Nat) (h : S.threads i = .creating s) (ht : S.target s = false) :
      Step barge S { S with threads := fset S.threads i .out, log := S.log ++ [.returned i false] }
  /-- the compaction is submitted (src/shard.rs:943-954, 300-304) -/
  | submit (i s w : Nat) (h : S.threads i = .creating s) (ht : S.target s = false) (hw : S.workers w ≠ .gone) :
      Step barge S { S with threads := fset S.threads i .out, target := fset S.target s true, queue := S.queue ++ [(s, S.next)],
                            handle := fset S.handle s (some S.next), chan := fset S.chan S.next .pending, next := S.next + 1,
                            log := S.log ++ [.begun s S.next, .returned i true] }
  /-- all workers are gone: `tx.send(..)?` fails (src/shard.rs:302, 945) -/
  | submitFails (i s : Nat) (h : S.threads i = .creating s) (ht : S.target s = false) (hw : ∀ w, S.workers w = .gone) :
      Step barge S { S with threads := fset S.threads i .out, target := fset S.target s true, log := S.log ++ [.returned i false] }
  -- `wait_for_compaction` (src/shard.rs:897-903)
  | waitNone (i s : Nat) (h : S.threads i = .wantWait s) (hm : S.MutexFree s) (hh : S.handle s = none) :
      Step barge S { S with threads := fset S.threads i .out, log := S.log ++ [.returned i true] }
  | waitTake (i s : Nat) (j : Job) (h : S.threads i = .wantWait s) (hm : S.MutexFree s) (hh : S.handle s = some j) :
      Step barge S { S with threads := fset S.threads i (.waits s j), handle := fset S.handle s none }
  | waited (i s : Nat) (j : Job) (b : Bool) (h : S.threads i = .waits s j) (hc : S.chan j = .ready b) :
      Step barge S { S with threads := fset S.threads i .out, log := S.log ++ [.told i j b, .returned i b] }
  | waitedNone (i s : Nat) (j : Job) (h : S.threads i = .waits s j) (hc : S.chan j = .closed) :
      Step barge S { S with threads := fset S.threads i .out, log := S.log ++ [.returned i false] }
  -- the workers (src/shard.rs:284-295, 959-978)
  | next (w s : Nat) (j : Job) (q : List (Nat × Job)) (h : S.workers w = .idle) (hq : S.queue = (s, j) :: q) :
      Step barge S { S with workers := fset S.workers w (.got s j), queue := q }
  /-- `files.upgradable_read()` (src/shard.rs:960) -/
  | lock (w s : Nat) (j : Job) (h : S.workers w = .got s j) (hw : S.NoWriter s) (hu : S.NoUpgradable s) (ht : S.target s = true) :
      Step barge S { S with workers := fset S.workers w (.working s j 0) }
  /-- `files_guard.1.as_ref().unwrap()` fails (src/shard.rs:962): the thread unwinds -/
  | unwrapFails (w s : Nat) (j : Job) (h : S.workers w = .got s j) (hw : S.NoWriter s) (hu : S.NoUpgradable s) (ht : S.target s = false) :
      Step barge S { S with workers := fset S.workers w .gone, chan := fset S.chan j .closed }
  /-- one row (src/shard.rs:489-526), for which nobody may have the lock of the row -/
  | row (w s : Nat) (j : Job) (n : Nat) (h : S.workers w = .working s j n) (hn : n < NUM_ROWS) (hr : ∀ i, S.threads i ≠ .inRow s n) :
      Step barge S { S with workers := fset S.workers w (.working s j (n + 1)) }
  /-- copying a row, or the final `rename`, fails (src/shard.rs:495-525, 966) -/
  | fails (w s : Nat) (j : Job) (n : Nat) (h : S.workers w = .working s j n) (hn : n ≤ NUM_ROWS) :
      Step barge S { S with workers := fset S.workers w (.sending s j false) }
  | rename (w s : Nat) (j : Job) (h : S.workers w = .working s j NUM_ROWS) : Step barge S { S with workers := fset S.workers w (.renamed s j) }
  /-- `with_upgraded` (src/shard.rs:974-976) -/
  | swap (w s : Nat) (j : Job) (h : S.workers w = .renamed s j) (hr : S.NoReader s) :
      Step barge S { S with workers := fset S.workers w (.sending s j true), target := fset S.target s false }
  /-- `handle_tx.send(res)?` (src/shard.rs:291) -/
  | send (w s : Nat) (j : Job) (b : Bool) (h : S.workers w = .sending s j b) (hr : S.Receiver j) :
      Step barge S { S with workers := fset S.workers w .idle, chan := fset S.chan j (.ready b), log := S.log ++ [.ended j b] }
  /-- the same if nobody can receive it: the thread ends -/
  | sendFails (w s : Nat) (j : Job) (b : Bool) (h : S.workers w = .sending s j b) (hr : ¬ S.Receiver j) :
      Step barge S { S with workers := fset S.workers w .gone, chan := fset S.chan j .closed, log := S.log ++ [.ended j b] }

/-- The states of a store with `numThreads` compaction threads. -/
inductive Pool.Run (numThreads : Nat) (barge : Bool) : Pool → Prop
  | init : Run numThreads barge (Pool.init numThreads)
  | enter {S S' : Pool} (h : Run numThreads barge S) (hs : S.Enter S') : Run numThreads barge S'
  | step {S S' : Pool} (h : Run numThreads barge S) (hs : S.Step barge S') : Run numThreads barge S'

/-- `n` steps in which no thread begins a call. -/
inductive Pool.Steps (barge : Bool) : Nat → Pool → Pool → Prop
  | refl (S : Pool) : Steps barge 0 S S
  | step {n : Nat} {S S' S'' : Pool} (h : S.Step barge S') (rest : Steps barge n S' S'') : Steps barge (n + 1) S S''

end Candy
