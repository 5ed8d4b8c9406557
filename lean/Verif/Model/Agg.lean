import Verif.Model.Bytes
/-!
# Flush aggregation (feature `flush_aggregation`)

The protocol by which concurrent modifying calls on one shard share syncs of the shard file (src/shard.rs:813-840), together with the two
locks around it: the reader-writer lock `files`, which every call holds for reading (src/shard.rs:719, 742) and which `begin_compaction` and
the end of a compaction take for writing (src/shard.rs:907, 974), and `sync_agg_mutex`.

Threads are numbers; there is no bound on how many there are or on how many calls each makes. Each step below is one atomic action of the
program (sequentially consistent memory, except for `Mode.stale`). The state keeps the log of what has happened.
-/
namespace Candy

/-- A call: the thread, and the number of the call in that thread. -/
abbrev CallId := Nat × Nat

/-- Where a thread is. -/
inductive APc where
  /-- outside of any call -/
  | idle
  /-- in a call, `files` is locked for reading (src/shard.rs:742) -/
  | inside
  /-- the data has been written and the row lock dropped (src/shard.rs:1010-1027) -/
  | wrote
  /-- `try_lock` failed (src/shard.rs:829) -/
  | lost
  /-- waiting for the mutex, `was_in_delay` has been read (src/shard.rs:834) -/
  | queued (wasInDelay : Bool)
  /-- has the mutex and is about to call `do_sync` (src/shard.rs:828, 836) -/
  | holds
  /-- `in_sync_agg_delay` is set, sleeping (src/shard.rs:821) -/
  | sleeping
  /-- `in_sync_agg_delay` is cleared, about to call `flush` (src/shard.rs:823) -/
  | woken
  /-- inside `sync_data`, with `files` locked for reading a second time (src/shard.rs:532) -/
  | syncing
  /-- about to release the mutex, with this result -/
  | leaving (ok : Bool)
  /-- about to release `files` and to return -/
  | out (ok : Bool)
deriving DecidableEq

/-- The writer side of the lock `files`. parking_lot blocks new readers as soon as a writer waits. -/
inductive AWriter where
  | none
  | waiting
  | inside
deriving DecidableEq

/-- What happens, as seen from outside. -/
inductive AEv where
  /-- the data of the call has been written: to the target of the running compaction, or to the shard file -/
  | wrote (x : CallId) (toTarget : Bool)
  /-- the thread begins to sync the shard file -/
  | began (i : Nat)
  | ended (i : Nat) (ok : Bool)
  /-- the call returns: successfully or not -/
  | returned (x : CallId) (ok : Bool)
deriving DecidableEq

structure Agg where
  pc : Nat → APc
  call : Nat → Nat
  mutex : Option Nat
  delay : Bool
  compacting : Bool
  readers : Nat
  writer : AWriter
  log : List AEv

/-- A new shard. -/
def Agg.init : Agg := ⟨fun _ => .idle, fun _ => 0, none, false, false, 0, .none, []⟩

/-- What is allowed to happen: syncs fail; compactions begin and end; the relaxed load of `in_sync_agg_delay` (src/shard.rs:833) returns an
old value. -/
structure AMode where
  fails : Bool
  compacts : Bool
  stale : Bool

def setPc (f : Nat → APc) (i : Nat) (p : APc) : Nat → APc := fun j => if j = i then p else f j

/-- The steps of the protocol. -/
inductive Agg.Step (m : AMode) : Agg → Agg → Prop
  /-- `operate_on_row_mut` locks `files` for reading (src/shard.rs:742) -/
  | enter {s : Agg} (i : Nat) (h : s.pc i = .idle) (hw : s.writer = .none) : Step m s { s with pc := setPc s.pc i .inside, readers := s.readers + 1 }
  /-- the data is written to the file selected for the row (src/shard.rs:744-756, 875, 1010, 1056) -/
  | write {s : Agg} (i : Nat) (b : Bool) (h : s.pc i = .inside) (hb : b = true → s.compacting = true) :
      Step m s { s with pc := setPc s.pc i .wrote, log := s.log ++ [.wrote (i, s.call i) b] }
  /-- `try_lock` succeeds (src/shard.rs:826) -/
  | tryOk {s : Agg} (i : Nat) (h : s.pc i = .wrote) (hm : s.mutex = none) : Step m s { s with pc := setPc s.pc i .holds, mutex := some i }
  /-- `try_lock` fails (src/shard.rs:829) -/
  | tryFail {s : Agg} (i : Nat) (h : s.pc i = .wrote) (hm : s.mutex ≠ none) : Step m s { s with pc := setPc s.pc i .lost }
  /-- `in_sync_agg_delay.load` (src/shard.rs:833) -/
  | load {s : Agg} (i : Nat) (h : s.pc i = .lost) : Step m s { s with pc := setPc s.pc i (.queued s.delay) }
  /-- the same, reading an old value: the load is relaxed, and nothing has synchronised this thread with the last store -/
  | loadStale {s : Agg} (i : Nat) (h : s.pc i = .lost) (hm : m.stale = true) : Step m s { s with pc := setPc s.pc i (.queued true) }
  /-- `sync_agg_mutex.lock` (src/shard.rs:834-837) -/
  | lock {s : Agg} (i : Nat) (b : Bool) (h : s.pc i = .queued b) (hm : s.mutex = none) :
      Step m s { s with pc := setPc s.pc i (if b then .leaving true else .holds), mutex := some i }
  /-- `in_sync_agg_delay.store(true)` (src/shard.rs:820) -/
  | setFlag {s : Agg} (i : Nat) (h : s.pc i = .holds) : Step m s { s with pc := setPc s.pc i .sleeping, delay := true }
  /-- the end of the sleep and `in_sync_agg_delay.store(false)` (src/shard.rs:821-822) -/
  | wake {s : Agg} (i : Nat) (h : s.pc i = .sleeping) : Step m s { s with pc := setPc s.pc i .woken, delay := false }
  /-- `flush` locks `files` for reading (again) and calls `sync_data` (src/shard.rs:532) -/
  | syncBegin {s : Agg} (i : Nat) (h : s.pc i = .woken) (hw : s.writer = .none) :
      Step m s { s with pc := setPc s.pc i .syncing, readers := s.readers + 1, log := s.log ++ [.began i] }
  /-- `sync_data` returns -/
  | syncOk {s : Agg} (i : Nat) (h : s.pc i = .syncing) :
      Step m s { s with pc := setPc s.pc i (.leaving true), readers := s.readers - 1, log := s.log ++ [.ended i true] }
  /-- `sync_data` fails -/
  | syncFail {s : Agg} (i : Nat) (h : s.pc i = .syncing) (hm : m.fails = true) :
      Step m s { s with pc := setPc s.pc i (.leaving false), readers := s.readers - 1, log := s.log ++ [.ended i false] }
  /-- the mutex is released -/
  | unlock {s : Agg} (i : Nat) (ok : Bool) (h : s.pc i = .leaving ok) : Step m s { s with pc := setPc s.pc i (.out ok), mutex := none }
  /-- `files` is released, the call returns -/
  | ret {s : Agg} (i : Nat) (ok : Bool) (h : s.pc i = .out ok) :
      Step m s { s with pc := setPc s.pc i .idle, readers := s.readers - 1, call := fun j => if j = i then s.call j + 1 else s.call j,
                        log := s.log ++ [.returned (i, s.call i) ok] }
  /-- `begin_compaction`, or the end of `background_compact`, asks for `files` (src/shard.rs:907, 974) -/
  | askWrite {s : Agg} (h : s.writer = .none) (hm : m.compacts = true) : Step m s { s with writer := .waiting }
  /-- ... and gets it -/
  | getWrite {s : Agg} (h : s.writer = .waiting) (hr : s.readers = 0) : Step m s { s with writer := .inside }
  /-- ... and releases it: a compaction has begun or ended -/
  | endWrite {s : Agg} (h : s.writer = .inside) : Step m s { s with writer := .none, compacting := !s.compacting }

/-- The reachable states. -/
inductive Agg.Run (m : AMode) : Agg → Prop
  | init : Run m Agg.init
  | step {s s' : Agg} (h : Run m s) (hs : Agg.Step m s s') : Run m s'

end Candy
