import Verif.Model.Hashing
/-!
# One shard (src/shard.rs)

A shard file is a header (counters and a 64 x 512 table of slots) followed by a data area. The compaction target is a
second file of the same kind. The model keeps the table as a function `row -> column -> slot`; only rows `< 64` and
columns `< 512` are ever used.

All updates of a file are expressed as lists of *primitive stores* (`Prim`) in the order in which the code performs
them, so that a process crash can be described as "stop after any prefix of the primitives".

Simplifications: counters are natural numbers (the code: `u64`/`usize`, release-mode wrapping; they cannot wrap before
2^64 bytes have been written); I/O errors are the subject of `Verif.Model.Errors`; reading beyond the end of the file is not distinguished from reading
zeroes (never happens for a referenced entry, by the invariant); `InternalStats` counters are left out here.
-/
namespace Candy

/-- `KVPair` (src/shard.rs:146). -/
abbrev KV := Bytes × Bytes

/-- One column of a `ShardRow` (src/shard.rs:39-43): signature and packed `| key_size:16 | val_size:16 | offset:32 |`. -/
structure Slot where
  sig : BitVec 32
  desc : BitVec 64

/-- `MmapFile` with its `ShardHeader` (src/shard.rs:110-119, 148-151). -/
structure MFile where
  slot : Nat → Nat → Slot
  data : Nat → UInt8
  wasted : Nat
  writeOff : Nat
  numInserts : Nat
  numRemovals : Nat
  compactedUpTo : Nat

/-- A freshly created (zero-filled) file (`MmapFile::create`, src/shard.rs:175-191). -/
def MFile.empty : MFile :=
  { slot := fun _ _ => ⟨0#32, 0#64⟩, data := fun _ => 0, wasted := 0, writeOff := 0, numInserts := 0, numRemovals := 0,
    compactedUpTo := 0 }

/-- `((key.len() as u64) << 48) | ((val.len() as u64) << 32) | write_offset` (src/shard.rs:246), with the silent
truncation/overlap of 64-bit arithmetic. -/
def pack (klen vlen off : Nat) : BitVec 64 :=
  (BitVec.ofNat 64 klen <<< 48) ||| (BitVec.ofNat 64 vlen <<< 32) ||| BitVec.ofNat 64 off

/-- `klen`, `vlen`, `offset` as decoded by `read_kv` (src/shard.rs:212-215). -/
def descKlen (d : BitVec 64) : Nat := (d >>> 48).toNat
def descVlen (d : BitVec 64) : Nat := ((d >>> 32) &&& 0xffff#64).toNat
def descOff (d : BitVec 64) : Nat := (d.setWidth 32).toNat

/-- `file.read_exact_at(buf, HEADER_SIZE + off)` (src/shard.rs:217). -/
def readAt (data : Nat → UInt8) (off len : Nat) : Bytes := (List.range len).map (fun i => data (off + i))

/-- `file.write_all_at(buf, HEADER_SIZE + off)` (src/shard.rs:243). -/
def writeAt (data : Nat → UInt8) (off : Nat) (bs : Bytes) : Nat → UInt8 :=
  fun i => if off ≤ i ∧ i < off + bs.length then bs.getD (i - off) 0 else data i

/-- `MmapFile::read_kv` (src/shard.rs:211-226). -/
def MFile.readKV (f : MFile) (d : BitVec 64) : KV :=
  let klen := descKlen d
  let vlen := descVlen d
  let buf := readAt f.data (descOff d) (klen + vlen)
  (buf.take klen, (buf.drop klen).take vlen)

/-- Primitive stores to a shard file, in the granularity at which a process crash can separate them. -/
inductive Prim where
  /-- `write_offset.fetch_add(n)` (src/shard.rs:237-240) -/
  | bump (n : Nat)
  /-- `file.write_all_at` (src/shard.rs:243) -/
  | pwrite (off : Nat) (bs : Bytes)
  /-- `row.offsets_and_sizes[idx] = ..` (src/shard.rs:880, 1018, 515, 585, 682) -/
  | setDesc (row col : Nat) (d : BitVec 64)
  /-- `row.signatures[idx] = ..` (src/shard.rs:1020, 1057, 517, 587, 685) -/
  | setSig (row col : Nat) (s : BitVec 32)
  /-- `wasted_bytes.fetch_add(n)` (src/shard.rs:881-883, 1060-1062) -/
  | addWasted (n : Nat)
  /-- `num_inserts.fetch_add(1)` (src/shard.rs:1024, 518, 588, 686-690) -/
  | addInserts
  /-- `num_removals.fetch_add(1)` (src/shard.rs:1059) -/
  | addRemovals
  /-- `compacted_up_to.fetch_add(1)` (src/shard.rs:521-524) -/
  | addCompacted

/-- Update one cell of the slot table. -/
def setSlot (s : Nat → Nat → Slot) (row col : Nat) (x : Slot) : Nat → Nat → Slot :=
  fun r c => if r = row ∧ c = col then x else s r c

/-- Effect of a primitive store. -/
def Prim.app (p : Prim) (f : MFile) : MFile :=
  match p with
  | .bump n => { f with writeOff := f.writeOff + n }
  | .pwrite off bs => { f with data := writeAt f.data off bs }
  | .setDesc r c d => { f with slot := setSlot f.slot r c ⟨(f.slot r c).sig, d⟩ }
  | .setSig r c s => { f with slot := setSlot f.slot r c ⟨s, (f.slot r c).desc⟩ }
  | .addWasted n => { f with wasted := f.wasted + n }
  | .addInserts => { f with numInserts := f.numInserts + 1 }
  | .addRemovals => { f with numRemovals := f.numRemovals + 1 }
  | .addCompacted => { f with compactedUpTo := f.compactedUpTo + 1 }

/-- Perform primitive stores in order. -/
def MFile.run (f : MFile) : List Prim → MFile
  | [] => f
  | p :: ps => (p.app f).run ps

/-- `MmapFile::write_kv` (src/shard.rs:229-247): the stores it performs. -/
def MFile.writePrims (f : MFile) (k v : Bytes) : List Prim :=
  [.bump (k.length + v.length), .pwrite f.writeOff (k ++ v)]

/-- `MmapFile::write_kv` (src/shard.rs:229-247): the descriptor it returns. -/
def MFile.newDesc (f : MFile) (k v : Bytes) : BitVec 64 := pack k.length v.length f.writeOff

/-- Filling an empty slot: data, descriptor, signature, counter, in this order
(src/shard.rs:1015-1024; the same sequence at 515-518, 585-588, 682-690). -/
def MFile.putPrims (f : MFile) (row col : Nat) (k v : Bytes) (sig : BitVec 32) : List Prim :=
  f.writePrims k v ++ [.setDesc row col (f.newDesc k v), .setSig row col sig, .addInserts]

/-- Updating an existing entry (src/shard.rs:879-883). -/
def MFile.replacePrims (f : MFile) (row col : Nat) (k v old : Bytes) : List Prim :=
  f.writePrims k v ++ [.setDesc row col (f.newDesc k v), .addWasted (k.length + old.length)]

/-- Removing an entry (src/shard.rs:1057-1062). -/
def removePrims (row col : Nat) (k v : Bytes) : List Prim :=
  [.setSig row col INVALID_SIG, .addRemovals, .addWasted (k.length + v.length)]

/-- `ShardRow::lookup` (src/shard.rs:47-55): first index `>= start` holding the signature. -/
def lookup (row : Nat → Slot) (sig : BitVec 32) (start : Nat) : Option Nat :=
  (List.range' start (ROW_WIDTH - start)).find? (fun i => (row i).sig == sig)

theorem lookup_some {row sig start i} (h : lookup row sig start = some i) : start ≤ i ∧ i < ROW_WIDTH := by
  unfold lookup at h
  have := List.mem_of_find?_eq_some h
  rw [List.mem_range'_1] at this
  omega

/-- The indices visited by `while let Some(idx) = row.lookup(sig, &mut start)` (src/shard.rs:776, 797, 855, 1054). The loop
bodies do not modify the row before leaving the loop. -/
def lookups (row : Nat → Slot) (sig : BitVec 32) (start : Nat) : List Nat :=
  match h : lookup row sig start with
  | none => []
  | some i => i :: lookups row sig (i + 1)
termination_by ROW_WIDTH - start
decreasing_by have := lookup_some h; omega

/-- `InsertMode` (src/shard.rs:133-138). -/
inductive Mode where
  | set
  | replace (expected : Option Bytes)
  | getOrCreate
deriving DecidableEq

/-- `InsertStatus` (src/shard.rs:124-131). -/
inductive InsStatus where
  | added
  | replaced (v : Bytes)
  | keyDoesNotExist
  | splitNeeded
  | alreadyExists (v : Bytes)
deriving DecidableEq

/-- `TryReplaceStatus` (src/shard.rs:140-144). -/
inductive TryStatus where
  | keyDoesNotExist
  | notReplaced (v : Bytes)
  | replaced (v : Bytes)

/-- The loop of `Shard::get` (src/shard.rs:797-806). -/
def MFile.getLoop (f : MFile) (row : Nat) (key : Bytes) : List Nat → Option Bytes
  | [] => none
  | i :: is =>
    let kv := f.readKV (f.slot row i).desc
    if key = kv.1 then some kv.2 else f.getLoop row key is

/-- The loop of `Shard::remove` (src/shard.rs:1054-1070): stores and result. -/
def MFile.removeLoop (f : MFile) (row : Nat) (key : Bytes) : List Nat → List Prim × Option Bytes
  | [] => ([], none)
  | i :: is =>
    let kv := f.readKV (f.slot row i).desc
    if key = kv.1 then (removePrims row i kv.1 kv.2, some kv.2) else f.removeLoop row key is

/-- `Shard::try_replace` (src/shard.rs:842-895): stores and result. -/
def MFile.tryReplace (f : MFile) (row : Nat) (key val : Bytes) (mode : Mode) : List Nat → List Prim × TryStatus
  | [] => ([], .keyDoesNotExist)
  | i :: is =>
    let kv := f.readKV (f.slot row i).desc
    if key ≠ kv.1 then f.tryReplace row key val mode is
    else
      let upd : List Prim × TryStatus :=
        (if val ≠ kv.2 then f.replacePrims row i key val kv.2 else [], .replaced kv.2)
      match mode with
      | .getOrCreate => ([], .notReplaced kv.2)
      | .set => upd
      | .replace none => upd
      | .replace (some e) => if e ≠ kv.2 then ([], .notReplaced kv.2) else upd

/-- `Shard` (src/shard.rs:337-349): span, `files.0` and `files.1`. `tgt` is `some` exactly while a compaction is running
(the thread-pool handle is not modelled separately). -/
structure Shard where
  lo : Nat
  hi : Nat
  src : MFile
  tgt : Option MFile

/-- The file selected by `operate_on_row(_mut)` (src/shard.rs:714-757). -/
def Shard.active (s : Shard) (row : Nat) : MFile :=
  match s.tgt with
  | some t => if row < t.compactedUpTo then t else s.src
  | none => s.src

/-- Perform stores on the file selected for `row`. -/
def Shard.runActive (s : Shard) (row : Nat) (ps : List Prim) : Shard :=
  match s.tgt with
  | some t => if row < t.compactedUpTo then { s with tgt := some (t.run ps) } else { s with src := s.src.run ps }
  | none => { s with src := s.src.run ps }

/-- `Shard::get` (src/shard.rs:794-811). -/
def Shard.get (s : Shard) (ph : PH) (key : Bytes) : Option Bytes :=
  let f := s.active ph.rowSel
  f.getLoop ph.rowSel key (lookups (f.slot ph.rowSel) ph.sig 0)

/-- `Shard::get_by_hash` (src/shard.rs:771-792). -/
def Shard.getByHash (s : Shard) (ph : PH) : List KV :=
  let f := s.active ph.rowSel
  (lookups (f.slot ph.rowSel) ph.sig 0).map (fun i => f.readKV (f.slot ph.rowSel i).desc)

/-- `Shard::read_at` (src/shard.rs:759-769). -/
def Shard.readAt (s : Shard) (row col : Nat) : Option KV :=
  let f := s.active row
  if (f.slot row col).sig ≠ INVALID_SIG then some (f.readKV (f.slot row col).desc) else none

/-- `Shard::remove` (src/shard.rs:1050-1074): stores on the active file, and the result. -/
def Shard.removePlan (s : Shard) (ph : PH) (key : Bytes) : List Prim × Option Bytes :=
  let f := s.active ph.rowSel
  f.removeLoop ph.rowSel key (lookups (f.slot ph.rowSel) ph.sig 0)

/-- `Shard::remove` (src/shard.rs:1050-1074). -/
def Shard.remove (s : Shard) (ph : PH) (key : Bytes) : Shard × Option Bytes :=
  let p := s.removePlan ph key
  (s.runActive ph.rowSel p.1, p.2)

/-- The closure of `Shard::insert` (src/shard.rs:989-1042): stores on the active file, status, and `should_compact`. -/
def Shard.insertPlan (cfg : Cfg) (s : Shard) (ph : PH) (key val : Bytes) (mode : Mode) :
    List Prim × InsStatus × Option Nat :=
  let row := ph.rowSel
  let f := s.active row
  let full := !s.tgt.isSome && !(decide (cfg.minCompaction.toNat ≤ f.wasted)) &&
    decide (cfg.maxShardSize.toNat < f.writeOff + (key.length + val.length))
  let shouldCompact := if !s.tgt.isSome && decide (cfg.minCompaction.toNat ≤ f.wasted) then some f.writeOff else none
  if full then ([], .splitNeeded, none)
  else
    let r := f.tryReplace row key val mode (lookups (f.slot row) ph.sig 0)
    match r.2 with
    | .notReplaced v => (r.1, .alreadyExists v, shouldCompact)
    | .replaced v => (r.1, .replaced v, shouldCompact)
    | .keyDoesNotExist =>
      match mode with
      | .replace _ => ([], .keyDoesNotExist, shouldCompact)
      | _ =>
        match lookup (f.slot row) INVALID_SIG 0 with
        | some i => (f.putPrims row i key val ph.sig, .added, shouldCompact)
        | none => ([], .splitNeeded, shouldCompact)

/-- `Shard::begin_compaction` (src/shard.rs:905-957). The handle bookkeeping is abstracted: a compaction that is running
(`tgt` is `some`) is left alone. -/
def Shard.beginCompaction (s : Shard) (minWriteOffset : Nat) : Shard :=
  if s.src.writeOff < minWriteOffset then s
  else match s.tgt with
    | some _ => s
    | none => { s with tgt := some MFile.empty }

/-- `Shard::insert` (src/shard.rs:980-1048). -/
def Shard.insert (cfg : Cfg) (s : Shard) (ph : PH) (key val : Bytes) (mode : Mode) : Shard × InsStatus :=
  let p := s.insertPlan cfg ph key val mode
  let s' := s.runActive ph.rowSel p.1
  (match p.2.2 with | some off => s'.beginCompaction off | none => s', p.2.1)

/-- The pairs of one row in column order: `for (col, &sig) in row.signatures.iter().enumerate() { if sig == INVALID_SIG {
continue; } let (k, v) = read_kv(..) ..` (src/shard.rs:500-504, 563-569, 659-665). -/
def MFile.liveRow (f : MFile) (row : Nat) : List KV :=
  (List.range ROW_WIDTH).filterMap (fun c =>
    if (f.slot row c).sig ≠ INVALID_SIG then some (f.readKV (f.slot row c).desc) else none)

/-- The stores made by copying pairs into consecutive columns of a row of `f`, from column `col`
(src/shard.rs:506-519, 570-590, 666-691). `none` is a failed assertion (or an out-of-range column). `first` is `first_row` of
`do_compaction` (which disables the emptiness assertion); it is `false` in `split` and `merge`. The source row is read before
copying; it is in a different file. -/
def copyPrims (cfg : Cfg) (first : Bool) (row : Nat) : MFile → Nat → List KV → Option (List Prim)
  | _, _, [] => some []
  | f, col, kv :: rest =>
    if ROW_WIDTH ≤ col then none
    else if first = false ∧ (f.slot row col).sig ≠ INVALID_SIG then none
    else if (cfg.ph kv.1).rowSel ≠ row then none
    else
      let ps := f.putPrims row col kv.1 kv.2 (cfg.ph kv.1).sig
      match copyPrims cfg first row (f.run ps) (col + 1) rest with
      | none => none
      | some qs => some (ps ++ qs)

/-- One iteration of the loop of `do_compaction` (src/shard.rs:489-526): stores on the target. -/
def compactRowPrims (cfg : Cfg) (first : Bool) (src tgt : MFile) : Option (List Prim) :=
  match copyPrims cfg first tgt.compactedUpTo tgt 0 (src.liveRow tgt.compactedUpTo) with
  | none => none
  | some ps => some (ps ++ [.addCompacted])

/-- One iteration of the loop of `do_compaction` (src/shard.rs:489-526). -/
def compactRow (cfg : Cfg) (first : Bool) (src tgt : MFile) : Option MFile :=
  (compactRowPrims cfg first src tgt).map tgt.run

/-- `n` iterations of the loop of `do_compaction` (src/shard.rs:488-527). -/
def compactRows (cfg : Cfg) (src : MFile) : Nat → Bool → MFile → Option MFile
  | 0, _, tgt => some tgt
  | n + 1, first, tgt => (compactRow cfg first src tgt).bind (compactRows cfg src n false)

/-- `Shard::do_compaction` (src/shard.rs:481-528): runs until `compacted_up_to` reaches `NUM_ROWS`. -/
def doCompaction (cfg : Cfg) (src tgt : MFile) : Option MFile :=
  compactRows cfg src (NUM_ROWS - tgt.compactedUpTo) true tgt

/-- One step of the background thread (`background_compact`, src/shard.rs:959-978, running `do_compaction`): compact one
row (holding its row lock), or, when all rows are done, swap the files. `none` is a failed assertion.
The background thread starts at row 0 of a fresh target, so `first_row` is `compacted_up_to = 0`. -/
def Shard.bgStep (cfg : Cfg) (s : Shard) : Option Shard :=
  match s.tgt with
  | none => some s
  | some t =>
    if t.compactedUpTo < NUM_ROWS then
      (compactRow cfg (t.compactedUpTo == 0) s.src t).map (fun t' => { s with tgt := some t' })
    else some { s with src := t, tgt := none }

/-- `wait_for_compaction` (src/shard.rs:897-903; also 537-540, and `Drop`, 1089-1093): the background thread runs to its end. -/
def Shard.finish (cfg : Cfg) (s : Shard) : Option Shard :=
  match s.tgt with
  | none => some s
  | some t =>
    (compactRows cfg s.src (NUM_ROWS - t.compactedUpTo) (t.compactedUpTo == 0) t).map
      (fun t' => { s with src := t', tgt := none })

/-- Copy the pairs selected by `p` of rows `rows` of the sources into `f` (the loops of `split`, src/shard.rs:560-591, per
target file, and of `merge`, 656-693). -/
def fillRows (cfg : Cfg) (contents : Nat → List KV) : MFile → List Nat → Option MFile
  | f, [] => some f
  | f, row :: rows =>
    match copyPrims cfg false row f 0 (contents row) with
    | none => none
    | some ps => fillRows cfg contents (f.run ps) rows

/-- The middle of a span, `(start + end) / 2` (src/shard.rs:543). -/
def midOf (lo hi : Nat) : Nat := (lo + hi) / 2

/-- `Shard::split` (src/shard.rs:536-632): waits for the compaction, then distributes the pairs. The two target files are
filled independently, so they are modelled one after the other. -/
def Shard.split (cfg : Cfg) (s : Shard) : Option (Shard × Shard) :=
  match s.finish cfg with
  | none => none
  | some s =>
    let mid := midOf s.lo s.hi
    let isBottom : KV → Bool := fun kv => decide ((cfg.ph kv.1).shardSel < mid)
    match fillRows cfg (fun r => (s.src.liveRow r).filter isBottom) MFile.empty (List.range NUM_ROWS),
          fillRows cfg (fun r => (s.src.liveRow r).filter (fun kv => !isBottom kv)) MFile.empty (List.range NUM_ROWS) with
    | some b, some t => some (⟨s.lo, mid, b, none⟩, ⟨mid, s.hi, t, none⟩)
    | _, _ => none

/-- Result of `Shard::merge`. -/
inductive MergeRes where
  | panic
  | rowTooFull
  | merged (s : Shard)

/-- `Shard::merge` (src/shard.rs:634-712), called on shards whose compaction has been waited for by `get_stats`
(src/router.rs:411-416). `Ok(None)` if some row would overflow. -/
def Shard.merge (cfg : Cfg) (b t : Shard) : MergeRes :=
  if (List.range NUM_ROWS).all (fun r =>
      decide ((b.src.liveRow r).length + (t.src.liveRow r).length ≤ ROW_WIDTH)) then
    match fillRows cfg (fun r => b.src.liveRow r ++ t.src.liveRow r) MFile.empty (List.range NUM_ROWS) with
    | none => .panic
    | some f => .merged ⟨b.lo, t.hi, f, none⟩
  else .rowTooFull

/-- `ShardStats` (src/shard.rs:324-335). -/
structure ShardStats where
  writeOff : Nat
  wasted : Nat
  numInserts : Nat
  numRemovals : Nat

/-- `ShardStats::num_items` (src/shard.rs:332-334): an unchecked `usize` subtraction. -/
def ShardStats.numItems (s : ShardStats) : Nat := s.numInserts - s.numRemovals

/-- That subtraction overflows: a panic in debug builds. -/
def ShardStats.underflow (s : ShardStats) : Bool := decide (s.numInserts < s.numRemovals)

/-- `Shard::get_stats` (src/shard.rs:1076-1086), after the wait. -/
def Shard.getStats (s : Shard) : ShardStats :=
  ⟨s.src.writeOff, s.src.wasted, s.src.numInserts, s.src.numRemovals⟩

end Candy
