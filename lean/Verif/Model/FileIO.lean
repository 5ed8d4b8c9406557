import Verif.Model.Shard
import Verif.Model.Conc
/-!
# Concurrent writers of one shard file, and the counters of the statistics
-/
namespace Candy

/-- A shard file's data area with the `write_kv` calls in progress: thread `i` has reserved `off` for the pair and has written `n` of its bytes. -/
structure WState where
  off : Nat
  data : Nat → UInt8
  pend : Nat → Option (Nat × KV × Nat)

/-- Interleavings of any number of `write_kv` calls (src/shard.rs:229-247), with the descriptors they return. The write of the buffer
(`write_all_at`) is not atomic: the bytes are stored one after the other. -/
inductive WRun : WState → List (BitVec 64 × KV) → WState → Prop
  | nil (s : WState) : WRun s [] s
  /-- `write_offset.fetch_add` (src/shard.rs:237-240) -/
  | reserve {s s' : WState} {acks : List (BitVec 64 × KV)} (i : Nat) (k v : Bytes) (h : s.pend i = none)
      (rest : WRun { s with off := s.off + (k.length + v.length), pend := setN s.pend i (some (s.off, (k, v), 0)) } acks s') : WRun s acks s'
  /-- one byte of `write_all_at` (src/shard.rs:243) -/
  | byte {s s' : WState} {acks : List (BitVec 64 × KV)} {i o n : Nat} {k v : Bytes} (h : s.pend i = some (o, (k, v), n)) (hn : n < k.length + v.length)
      (rest : WRun { s with data := writeAt s.data (o + n) [(k ++ v).getD n 0], pend := setN s.pend i (some (o, (k, v), n + 1)) } acks s') : WRun s acks s'
  /-- the call returns its descriptor (src/shard.rs:246) -/
  | done {s s' : WState} {acks : List (BitVec 64 × KV)} {i o n : Nat} {k v : Bytes} (h : s.pend i = some (o, (k, v), n)) (hn : n = k.length + v.length)
      (rest : WRun { s with pend := setN s.pend i none } acks s') : WRun s ((pack k.length v.length o, (k, v)) :: acks) s'

/-- `read_kv` (src/shard.rs:211-226) on a data area. -/
def readPair (data : Nat → UInt8) (d : BitVec 64) : KV := MFile.readKV { MFile.empty with data := data } d

/-- The write counters of `InternalStats` (src/stats.rs:148-157). -/
structure WCounters where
  writeOps : Nat
  writeBytes : Nat
  under128 : Nat
  under1k : Nat
  under8k : Nat
  under32k : Nat
  over32k : Nat

def WCounters.zero : WCounters := ⟨0, 0, 0, 0, 0, 0, 0⟩

/-- `InternalStats::add_entry` (src/stats.rs:160-170). The counters are atomic, so concurrent calls happen in some order. -/
def WCounters.addEntry (w : WCounters) (sz : Nat) : WCounters :=
  let w := { w with writeBytes := w.writeBytes + sz, writeOps := w.writeOps + 1 }
  if sz < 128 then { w with under128 := w.under128 + 1 }
  else if sz < 1024 then { w with under1k := w.under1k + 1 }
  else if sz < 8192 then { w with under8k := w.under8k + 1 }
  else if sz < 32768 then { w with under32k := w.under32k + 1 }
  else { w with over32k := w.over32k + 1 }

end Candy
