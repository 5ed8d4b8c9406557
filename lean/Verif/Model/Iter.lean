import Verif.Model.Api
/-!
# Iteration over the whole store (src/store.rs:112-199) and `stats` (src/store.rs:490-504, src/stats.rs)
-/
namespace Candy

/-- `CandyStoreIterator` (src/store.rs:115-121). -/
structure It where
  sel : Nat
  row : Nat
  ent : Nat
  raw : Bool
deriving DecidableEq

/-- `CandyStoreIterator::new` (src/store.rs:124-132). -/
def It.new (raw : Bool) : It := ⟨0, 0, 0, raw⟩

/-- `CandyStoreIterator::cookie` (src/store.rs:136-140), as a 64-bit number. -/
def It.cookie (it : It) : BitVec 64 :=
  (((BitVec.ofNat 64 it.sel &&& 0xffff#64) <<< 32) ||| ((BitVec.ofNat 64 it.row &&& 0xffff#64) <<< 16)) |||
    (BitVec.ofNat 64 it.ent &&& 0xffff#64)

/-- `CandyStoreIterator::from_cookie` (src/store.rs:143-151); the public `iter_from_cookie` (485-487) uses `raw = false`. -/
def It.fromCookie (cookie : BitVec 64) (raw : Bool) : It :=
  ⟨((cookie >>> 32) &&& 0xffff#64).toNat, ((cookie >>> 16) &&& 0xffff#64).toNat, (cookie &&& 0xffff#64).toNat, raw⟩

/-- What `next` makes of a pair read from the shard (src/store.rs:174-179): all pairs if `raw`, else those of the user name space,
without their name-space byte. -/
def It.show (raw : Bool) (kv : KV) : Option KV :=
  if raw then some kv
  else if endsWith kv.1 USER_NS then some (kv.1.take (kv.1.length - USER_NS.length), kv.2)
  else none

/-- The inner `while self.row_idx < NUM_ROWS` of `next` (src/store.rs:160-184): the new `row_idx`, `entry_idx` and the pair returned, if
any. A cookie is arbitrary, so `entry_idx` may be out of range: `row.signatures[entry_idx]` would then panic; this is not modelled
here (the model reads an empty slot) but in `Model/Cookie.lean`; it cannot happen with a cookie made by `cookie`. -/
def It.scan (s : Shard) (raw : Bool) : Nat → Nat → Nat → Nat × Nat × Option KV
  | 0, row, ent => (row, ent, none)
  | n + 1, row, ent =>
    if row < NUM_ROWS then
      let row' := if ROW_WIDTH ≤ ent + 1 then row + 1 else row
      let ent' := if ROW_WIDTH ≤ ent + 1 then 0 else ent + 1
      match (s.readAt row ent).bind (It.show raw) with
      | some kv => (row', ent', some kv)
      | none => It.scan s raw n row' ent'
    else (row, ent, none)

/-- The outer `while` of `next` (src/store.rs:157-198). `n` is fuel: at most 65536 shards. The inner loop makes at most 64 * 512 steps. -/
def It.next (t : Tree) : Nat → It → It × Option KV
  | 0, it => (it, none)
  | n + 1, it =>
    if it.sel < END_OF_SHARDS then
      let s := t.find it.sel
      match It.scan s it.raw (NUM_ROWS * ROW_WIDTH) it.row it.ent with
      | (row, ent, some kv) => (⟨s.lo, row, ent, it.raw⟩, some kv)
      | (_, _, none) => It.next t n ⟨s.hi, 0, 0, it.raw⟩
    else (it, none)

/-- `next` with enough fuel. -/
def It.step (t : Tree) (it : It) : It × Option KV := It.next t (END_OF_SHARDS + 1) it

/-- Calling `next` until it returns `None`, on a store that does not change (`n` is fuel). -/
def It.collect (t : Tree) : Nat → It → List KV
  | 0, _ => []
  | n + 1, it => match It.step t it with
    | (it', some kv) => kv :: It.collect t n it'
    | (_, none) => []

/-- The iterator after `n` calls of `next`. -/
def It.after (t : Tree) : Nat → It → It
  | 0, it => it
  | n + 1, it => It.after t n (It.step t it).1

/-! ## Statistics -/

/-- `Stats` (src/stats.rs:11-41), the fields summed over the shards. -/
structure Stats where
  numShards : Nat
  occupied : Nat
  wasted : Nat
  numInserts : Nat
  numRemovals : Nat
deriving DecidableEq

/-- The loop of `CandyStore::stats` (src/store.rs:496-502). -/
def sumStats : List ShardStats → Stats
  | [] => ⟨0, 0, 0, 0, 0⟩
  | s :: l =>
    let r := sumStats l
    ⟨r.numShards + 1, s.writeOff + r.occupied, s.wasted + r.wasted, s.numInserts + r.numInserts, s.numRemovals + r.numRemovals⟩

/-- `CandyStore::stats` (src/store.rs:490-504): `get_stats` waits for the compaction of each shard. -/
def Tree.stats (cfg : Cfg) (t : Tree) : Option (Tree × Stats) :=
  (t.finishAll cfg).map (fun t' => (t', sumStats (t'.leaves.map Shard.getStats)))

/-- `Stats::data_bytes` (src/stats.rs:46-48), `Stats::num_entries` (52-54): unchecked subtractions. -/
def Stats.dataBytes (s : Stats) : Nat := s.occupied - s.wasted
def Stats.numEntries (s : Stats) : Nat := s.numInserts - s.numRemovals

/-! ## The recent-events buffer -/

/-- `CyclicArr<T, N>` (src/stats.rs:84-96). -/
structure Ring (T : Type) where
  idx : Nat
  arr : Nat → T

/-- `CyclicArr::push` (src/stats.rs:98-101). -/
def Ring.push {T : Type} (N : Nat) (r : Ring T) (x : T) : Ring T :=
  ⟨r.idx + 1, fun i => if i = r.idx % N then x else r.arr i⟩

/-- `CyclicArr::clear` (src/stats.rs:102-107). -/
def Ring.clear {T : Type} (d : T) : Ring T := ⟨0, fun _ => d⟩

/-- `CyclicArr::iter` (src/stats.rs:108-110). -/
def Ring.toList {T : Type} (N : Nat) (r : Ring T) : List T :=
  (List.range' (r.idx - N) (r.idx - (r.idx - N))).map (fun i => r.arr (i % N))

/-- Events of the statistics: a split or compaction is reported (`report_split`, `report_compaction`, src/stats.rs:176-192), or
`stats()` is called (`fill_stats`, 225-234, which reads the buffer and clears it). -/
inductive REvent (T : Type) where
  | report (x : T)
  | read

/-- The buffers returned by the `read`s of a history. -/
def Ring.reads {T : Type} (N : Nat) (d : T) : Ring T → List (REvent T) → List (List T)
  | _, [] => []
  | r, .report x :: es => Ring.reads N d (r.push N x) es
  | r, .read :: es => r.toList N :: Ring.reads N d (Ring.clear d) es

end Candy
