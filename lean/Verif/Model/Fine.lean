import Verif.Model.Conc
/-!
# Concurrent calls, one memory access at a time

`Verif.Model.Conc` runs a raw storage operation (`get_raw`, `insert_internal`, `remove_raw`, `get_by_hash`) in one step. Here its steps are the
single accesses of the code: loading one signature or descriptor of a row, reading or writing one byte of the data area, reserving
space with `fetch_add`, storing a descriptor or signature, updating a counter; and taking and dropping the read guard of the node, the guard of the
files and the lock of the row. The accesses of different threads, and those of the background compactions, alternate in any way that the locks allow.

Simplifications: memory is sequentially consistent; a signature (`u32`) and a descriptor (`u64`) are stored and loaded in one piece (they are aligned);
`position_simd` looks at the columns from left to right; a split is one step (its thread holds the write guard of the node and has waited for the compaction,
and writes to files that nobody else has, src/router.rs:363-366, src/shard.rs:536-543); so is the start of a compaction
(`files.write()`, src/shard.rs:905-957) and the swap of the files (`with_upgraded`, 974-976). A thread waiting for a guard has no step; where the code would wait
for a guard whose owner cannot influence the result (taking the node's write guard only to find it already split) the model does not wait. The feature
`flush_aggregation` is off.
-/
namespace Candy

/-- `files.0` and `files.1` (src/shard.rs:341). -/
inductive Side where
  | src
  | tgt
deriving DecidableEq

def Side.other : Side → Side
  | .src => .tgt
  | .tgt => .src

/-- The file on that side (an empty one if there is no compaction target). -/
def Shard.file (s : Shard) : Side → MFile
  | .src => s.src
  | .tgt => s.tgt.getD MFile.empty

/-- A store to the file on that side. -/
def Shard.upd (s : Shard) (sd : Side) (p : Prim) : Shard :=
  match sd with
  | .src => { s with src := p.app s.src }
  | .tgt => { s with tgt := s.tgt.map p.app }

/-- The file selected by `operate_on_row(_mut)` (src/shard.rs:721-729, 741-749). -/
def Shard.sideOf (s : Shard) (row : Nat) : Side :=
  match s.tgt with
  | some t => if row < t.compactedUpTo then .tgt else .src
  | none => .src

/-- Programs over the memory accesses of a shard. -/
inductive MProg (α : Type) where
  | ret (a : α)
  | panic
  /-- `row.signatures[c]` -/
  | sig (sd : Side) (r c : Nat) (k : BitVec 32 → MProg α)
  /-- `row.offsets_and_sizes[c]` -/
  | desc (sd : Side) (r c : Nat) (k : BitVec 64 → MProg α)
  /-- one byte of `read_exact_at` (src/shard.rs:217) -/
  | byte (sd : Side) (off : Nat) (k : UInt8 → MProg α)
  /-- `wasted_bytes.load` -/
  | wasted (sd : Side) (k : Nat → MProg α)
  /-- `write_offset.load` -/
  | woff (sd : Side) (k : Nat → MProg α)
  /-- `write_offset.fetch_add(n)` (src/shard.rs:237-240) -/
  | reserve (sd : Side) (n : Nat) (k : Nat → MProg α)
  /-- a store (of one byte, if it is `pwrite`) -/
  | store (sd : Side) (p : Prim) (k : MProg α)

/-- One access. -/
def MProg.step {α : Type} : MProg α → Shard → Option (Shard × MProg α)
  | .ret _, _ => none
  | .panic, _ => none
  | .sig sd r c k, s => some (s, k ((s.file sd).slot r c).sig)
  | .desc sd r c k, s => some (s, k ((s.file sd).slot r c).desc)
  | .byte sd off k, s => some (s, k ((s.file sd).data off))
  | .wasted sd k, s => some (s, k (s.file sd).wasted)
  | .woff sd k, s => some (s, k (s.file sd).writeOff)
  | .reserve sd n k, s => some (s.upd sd (.bump n), k (s.file sd).writeOff)
  | .store sd p k, s => some (s.upd sd p, k)

namespace MProg

/-- `read_exact_at` (src/shard.rs:217): `n` more bytes from `off`; `acc` are those read already. -/
def readBytes {α : Type} (sd : Side) (k : Bytes → MProg α) : Nat → Nat → Bytes → MProg α
  | 0, _, acc => k acc
  | n + 1, off, acc => .byte sd off (fun b => readBytes sd k n (off + 1) (acc ++ [b]))

/-- `read_kv` (src/shard.rs:211-226). -/
def readKV {α : Type} (sd : Side) (d : BitVec 64) (k : KV → MProg α) : MProg α :=
  readBytes sd (fun buf => k (buf.take (descKlen d), (buf.drop (descKlen d)).take (descVlen d))) (descKlen d + descVlen d) (descOff d) []

/-- `write_all_at` (src/shard.rs:243). -/
def writeBytes {α : Type} (sd : Side) (k : MProg α) : Nat → Bytes → MProg α
  | _, [] => k
  | off, b :: bs => .store sd (.pwrite off [b]) (writeBytes sd k (off + 1) bs)

/-- `write_kv` (src/shard.rs:229-247). -/
def writeKV {α : Type} (sd : Side) (key val : Bytes) (k : BitVec 64 → MProg α) : MProg α :=
  .reserve sd (key.length + val.length) (fun off => writeBytes sd (k (pack key.length val.length off)) off (key ++ val))

/-- `while let Some(idx) = row.lookup(sig, &mut start) { let (k, v) = read_kv(..); .. }` (src/shard.rs:797-806, 855-890, 1054-1070), at column
`c` with `n` columns to go. `hit` is the body of the loop if it leaves the loop. -/
def scan {α : Type} (sd : Side) (r : Nat) (sig : BitVec 32) (hit : Nat → KV → Option (MProg α)) (miss : MProg α) : Nat → Nat → MProg α
  | 0, _ => miss
  | n + 1, c => .sig sd r c (fun x =>
      if x = sig then
        .desc sd r c (fun d => readKV sd d (fun kv =>
          match hit c kv with
          | some m => m
          | none => scan sd r sig hit miss n (c + 1)))
      else scan sd r sig hit miss n (c + 1))

/-- The loop of `get_by_hash` (src/shard.rs:776-784). -/
def collect {α : Type} (sd : Side) (r : Nat) (sig : BitVec 32) (k : List KV → MProg α) : Nat → Nat → List KV → MProg α
  | 0, _, acc => k acc
  | n + 1, c, acc => .sig sd r c (fun x =>
      if x = sig then .desc sd r c (fun d => readKV sd d (fun kv => collect sd r sig k n (c + 1) (acc ++ [kv])))
      else collect sd r sig k n (c + 1) acc)

/-- `row.lookup(INVALID_SIG, &mut 0)` (src/shard.rs:1011-1012). -/
def findFree {α : Type} (sd : Side) (r : Nat) (k : Option Nat → MProg α) : Nat → Nat → MProg α
  | 0, _ => k none
  | n + 1, c => .sig sd r c (fun x => if x = INVALID_SIG then k (some c) else findFree sd r k n (c + 1))

end MProg

/-- The raw operations. -/
inductive ROp where
  | get (k : Bytes)
  | ins (k v : Bytes) (mode : Mode)
  | rem (k : Bytes)
  | byHash (ph : PH)

/-- Their answers. -/
inductive Ans where
  | val (x : Option Bytes)
  | st (s : InsStatus)
  | kvs (l : List KV)

def ROp.ph (cfg : Cfg) : ROp → PH
  | .get k => cfg.ph k
  | .ins k _ _ => cfg.ph k
  | .rem k => cfg.ph k
  | .byHash ph => ph

/-- Uses `operate_on_row_mut`, which takes the row lock for writing (src/shard.rs:740). -/
def ROp.writes : ROp → Bool
  | .get _ => false
  | .ins _ _ _ => true
  | .rem _ => true
  | .byHash _ => false

/-- The raw operation a program performs next. -/
def Prog.rop {α : Type} : Prog α → Option ROp
  | .get k _ => some (.get k)
  | .ins k v mode _ => some (.ins k v mode)
  | .rem k _ => some (.rem k)
  | .byHash ph _ _ => some (.byHash ph)
  | _ => none

/-- The program after the answer. -/
def Prog.resume {α : Type} : Prog α → Ans → Prog α
  | .get _ c, .val x => c x
  | .ins _ _ _ c, .st x => c x
  | .rem _ c, .val x => c x
  | .byHash _ suf c, .kvs l => c (l.filter (fun kv => endsWith kv.1 suf))
  | p, _ => p

/-- `try_replace` when the key is found at column `c` with value `old` (src/shard.rs:859-890). -/
def updCode (sd : Side) (r c : Nat) (k v old : Bytes) (mode : Mode) (sc : Option Nat) : MProg (Ans × Option Nat) :=
  let upd : MProg (Ans × Option Nat) :=
    if v ≠ old then
      MProg.writeKV sd k v (fun d => .store sd (.setDesc r c d) (.store sd (.addWasted (k.length + old.length)) (.ret (.st (.replaced old), sc))))
    else .ret (.st (.replaced old), sc)
  match mode with
  | .getOrCreate => .ret (.st (.alreadyExists old), sc)
  | .set => upd
  | .replace none => upd
  | .replace (some e) => if e ≠ old then .ret (.st (.alreadyExists old), sc) else upd

/-- `insert` when the key is not found (src/shard.rs:1005-1034). -/
def addCode (sd : Side) (r : Nat) (sig : BitVec 32) (k v : Bytes) (mode : Mode) (sc : Option Nat) : MProg (Ans × Option Nat) :=
  let add : MProg (Ans × Option Nat) := MProg.findFree sd r (fun o =>
    match o with
    | some c => MProg.writeKV sd k v (fun d => .store sd (.setDesc r c d) (.store sd (.setSig r c sig) (.store sd .addInserts (.ret (.st .added, sc)))))
    | none => .ret (.st .splitNeeded, sc)) ROW_WIDTH 0
  match mode with
  | .replace _ => .ret (.st .keyDoesNotExist, sc)
  | .set => add
  | .getOrCreate => add

/-- `insert` after the size checks (src/shard.rs:1002-1042). -/
def insCode (sd : Side) (ph : PH) (k v : Bytes) (mode : Mode) (sc : Option Nat) : MProg (Ans × Option Nat) :=
  MProg.scan sd ph.rowSel ph.sig
    (fun c kv => if k = kv.1 then some (updCode sd ph.rowSel c k v kv.2 mode sc) else none)
    (addCode sd ph.rowSel ph.sig k v mode sc) ROW_WIDTH 0

/-- What runs under the row lock, on the file selected (`get`, src/shard.rs:794-811; `insert`, 989-1042; `remove`, 1050-1074; `get_by_hash`, 771-792): its answer and, for
`insert`, `should_compact`. -/
def ROp.code (cfg : Cfg) (sd : Side) (compacting : Bool) : ROp → MProg (Ans × Option Nat)
  | .get k =>
    MProg.scan sd (cfg.ph k).rowSel (cfg.ph k).sig (fun _ kv => if k = kv.1 then some (.ret (.val (some kv.2), none)) else none)
      (.ret (.val none, none)) ROW_WIDTH 0
  | .byHash ph => MProg.collect sd ph.rowSel ph.sig (fun l => .ret (.kvs l, none)) ROW_WIDTH 0 []
  | .rem k =>
    MProg.scan sd (cfg.ph k).rowSel (cfg.ph k).sig
      (fun c kv => if k = kv.1 then
          some (.store sd (.setSig (cfg.ph k).rowSel c INVALID_SIG) (.store sd .addRemovals
            (.store sd (.addWasted (k.length + kv.2.length)) (.ret (.val (some kv.2), none)))))
        else none)
      (.ret (.val none, none)) ROW_WIDTH 0
  | .ins k v mode =>
    if compacting then insCode sd (cfg.ph k) k v mode none
    else .wasted sd (fun w =>
      if cfg.minCompaction.toNat ≤ w then .woff sd (fun off => insCode sd (cfg.ph k) k v mode (some off))
      else .woff sd (fun off =>
        if cfg.maxShardSize.toNat < off + (k.length + v.length) then .ret (.st .splitNeeded, none)
        else insCode sd (cfg.ph k) k v mode none))

/-- The loop of `do_compaction` over the columns of row `r` (src/shard.rs:496-524): at column `c` of the source with `n` columns to go; `tc` is `target_col`. -/
def copyCode (cfg : Cfg) (first : Bool) (r : Nat) : Nat → Nat → Nat → MProg Unit
  | 0, _, _ => .store .tgt .addCompacted (.ret ())
  | n + 1, c, tc => .sig .src r c (fun x =>
      if x = INVALID_SIG then copyCode cfg first r n (c + 1) tc
      else .desc .src r c (fun d => MProg.readKV .src d (fun kv => .sig .tgt r tc (fun y =>
        if ROW_WIDTH ≤ tc ∨ (first = false ∧ y ≠ INVALID_SIG) ∨ (cfg.ph kv.1).rowSel ≠ r then .panic
        else MProg.writeKV .tgt kv.1 kv.2 (fun d' => .store .tgt (.setDesc r tc d') (.store .tgt (.setSig r tc (cfg.ph kv.1).sig)
          (.store .tgt .addInserts (copyCode cfg first r n (c + 1) (tc + 1)))))))))

/-- Where a thread is in a raw operation. -/
inductive Flight where
  /-- not in one -/
  | idle
  /-- holds the read guards of the nodes down to the shard (src/router.rs:285, 350) -/
  | node
  /-- and the read guard of `files` (src/shard.rs:719, 739) -/
  | files
  /-- and the row lock (720, 740); runs on the file selected -/
  | run (sd : Side) (m : MProg (Ans × Option Nat))
  /-- row lock dropped -/
  | rel (a : Ans) (sc : Option Nat)
  /-- `files` dropped; about to begin a compaction if `sc` says so (1044-1046) -/
  | out (a : Ans) (sc : Option Nat)
  /-- `SplitNeeded`: all guards dropped, about to take the node's write guard (src/router.rs:362-363). The node is the one at this depth. -/
  | split (depth : Nat)

/-- Holds the read guard of the node of its shard. -/
def Flight.onNode : Flight → Bool
  | .node => true
  | .files => true
  | .run _ _ => true
  | .rel _ _ => true
  | .out _ _ => true
  | _ => false

/-- Holds the read guard of the files. -/
def Flight.onFiles : Flight → Bool
  | .files => true
  | .run _ _ => true
  | .rel _ _ => true
  | _ => false

/-- Holds the lock of its row. -/
def Flight.onRow : Flight → Bool
  | .run _ _ => true
  | _ => false

/-- The depth of the leaf owning `sel`. -/
def Tree.depth : Tree → Nat → Nat
  | .leaf _, _ => 0
  | .vertex b t, sel => if sel < b.hi then b.depth sel + 1 else t.depth sel + 1

/-- The leaf owning `sel` becomes a vertex (src/router.rs:363-385). -/
def Tree.splitAt (cfg : Cfg) : Tree → Nat → Option Tree
  | .leaf s, _ => (s.split cfg).map (fun p => .vertex (.leaf p.1) (.leaf p.2))
  | .vertex b t, sel =>
    if sel < b.hi then (b.splitAt cfg sel).map (fun b' => .vertex b' t) else (t.splitAt cfg sel).map (fun t' => .vertex b t')

/-- The store and its threads: the shard tree; for every shard (by the start of its span) the row that its background compaction is at work on, with what remains to be done;
the holder of each lock of `keyed_locks`; and for every thread the call in progress, what remains of its program, and where it is in the raw operation. -/
structure FState where
  tree : Tree
  bg : Nat → Option (Nat × MProg Unit)
  locks : Nat → Option Nat
  thr : Nat → Option (Call × Prog Resp × Flight)

/-- No call is in progress. A compaction may be, between two rows. -/
def FState.idle (t : Tree) : FState := ⟨t, fun _ => none, fun _ => none, fun _ => none⟩

/-- The shard of an operation. -/
def FState.shard (cfg : Cfg) (s : FState) (op : ROp) : Shard := s.tree.find (op.ph cfg).shardSel

/-- Some thread other than `i` performs an operation on the shard that starts at `lo`, with this property. -/
def FState.Busy (cfg : Cfg) (s : FState) (i : Option Nat) (lo : Nat) (P : ROp → Flight → Prop) : Prop :=
  ∃ j c p fl op, some j ≠ i ∧ s.thr j = some (c, p, fl) ∧ p.rop = some op ∧ (s.shard cfg op).lo = lo ∧ P op fl

/-- The files of the shard are below 4 GiB (a descriptor has 32 bits for the offset). -/
def Shard.Fits (s : Shard) : Prop :=
  s.src.writeOff < 4294967296 ∧ ∀ t, s.tgt = some t → t.writeOff < 4294967296

/-- The thread's flight changes. -/
def FState.fly (s : FState) (i : Nat) (c : Call) (p : Prog Resp) (fl : Flight) : FState := { s with thr := setN s.thr i (some (c, p, fl)) }

/-- One step, with what is observed of it. -/
inductive FStep (cfg : Cfg) : FState → Option CEvent → FState → Prop
  /-- a thread begins a call -/
  | inv {s : FState} (i : Nat) (c : Call) (h : s.thr i = none) : FStep cfg s (some (.inv i c)) (s.fly i c (c.prog cfg) .idle)
  /-- taking a free lock of `keyed_locks` -/
  | lock {s : FState} {i l : Nat} {c : Call} {p : Prog Resp} (h : s.thr i = some (c, .lock l p, .idle)) (hf : s.locks l = none) :
      FStep cfg s none { s.fly i c p .idle with locks := setN s.locks l (some i) }
  /-- dropping it -/
  | unlock {s : FState} {i : Nat} {c : Call} {p : Prog Resp} (h : s.thr i = some (c, .unlock p, .idle)) :
      FStep cfg s none { s.fly i c p .idle with locks := dropLocks s.locks i }
  /-- the call returns -/
  | ret {s : FState} {i : Nat} {c : Call} {p : Prog Resp} {r : Res Resp} (h : s.thr i = some (c, p, .idle)) (hr : p.result = some r)
      (hne : r ≠ .exhausted) : FStep cfg s (some (.ret i c r)) { s with locks := dropLocks s.locks i, thr := setN s.thr i none }
  /-- the size checks of `insert_internal` (src/store.rs:342-356) fail -/
  | sizeErr {s : FState} {i : Nat} {c : Call} {k v : Bytes} {mode : Mode} {q : InsStatus → Prog Resp} {e : Err}
      (h : s.thr i = some (c, .ins k v mode q, .idle)) (hs : sizeErr cfg k v = some e) : FStep cfg s none (s.fly i c (.err e) .idle)
  /-- entering the shard: the node's read guards -/
  | node {s : FState} {i : Nat} {c : Call} {p : Prog Resp} {op : ROp} (h : s.thr i = some (c, p, .idle)) (ho : p.rop = some op)
      (hs : ∀ k v mode, op = .ins k v mode → sizeErr cfg k v = none) : FStep cfg s none (s.fly i c p .node)
  /-- `files.read()` -/
  | files {s : FState} {i : Nat} {c : Call} {p : Prog Resp} (h : s.thr i = some (c, p, .node)) : FStep cfg s none (s.fly i c p .files)
  /-- `row_locks[row].read()` or `.write()`, and the selection of the file -/
  | row {s : FState} {i : Nat} {c : Call} {p : Prog Resp} {op : ROp} (h : s.thr i = some (c, p, .files)) (ho : p.rop = some op)
      (hx : ¬ s.Busy cfg (some i) (s.shard cfg op).lo (fun op' fl => fl.onRow = true ∧ (op'.ph cfg).rowSel = (op.ph cfg).rowSel ∧
        (op.writes = true ∨ op'.writes = true)))
      (hb : ∀ r m, s.bg (s.shard cfg op).lo = some (r, m) → r ≠ (op.ph cfg).rowSel) :
      FStep cfg s none (s.fly i c p (.run ((s.shard cfg op).sideOf (op.ph cfg).rowSel)
        (op.code cfg ((s.shard cfg op).sideOf (op.ph cfg).rowSel) (s.shard cfg op).tgt.isSome)))
  /-- one access of a thread -/
  | mem {s : FState} {i : Nat} {c : Call} {p : Prog Resp} {op : ROp} {sd : Side} {m m' : MProg (Ans × Option Nat)} {sh' : Shard}
      (h : s.thr i = some (c, p, .run sd m)) (ho : p.rop = some op) (hf : (s.shard cfg op).Fits) (hm : m.step (s.shard cfg op) = some (sh', m')) :
      FStep cfg s none { s.fly i c p (.run sd m') with tree := s.tree.modify (op.ph cfg).shardSel (fun _ => sh') }
  /-- dropping the row lock -/
  | rel {s : FState} {i : Nat} {c : Call} {p : Prog Resp} {sd : Side} {a : Ans} {sc : Option Nat}
      (h : s.thr i = some (c, p, .run sd (.ret (a, sc)))) : FStep cfg s none (s.fly i c p (.rel a sc))
  /-- dropping the guard of the files -/
  | out {s : FState} {i : Nat} {c : Call} {p : Prog Resp} {a : Ans} {sc : Option Nat}
      (h : s.thr i = some (c, p, .rel a sc)) : FStep cfg s none (s.fly i c p (.out a sc))
  /-- `begin_compaction` (`files.write()`) -/
  | begin {s : FState} {i : Nat} {c : Call} {p : Prog Resp} {op : ROp} {a : Ans} {off : Nat}
      (h : s.thr i = some (c, p, .out a (some off))) (ho : p.rop = some op)
      (hx : ¬ s.Busy cfg none (s.shard cfg op).lo (fun _ fl => fl.onFiles = true)) :
      FStep cfg s none { s.fly i c p (.out a none) with tree := s.tree.modify (op.ph cfg).shardSel (fun sh => sh.beginCompaction off) }
  /-- the operation ends -/
  | done {s : FState} {i : Nat} {c : Call} {p : Prog Resp} {a : Ans}
      (h : s.thr i = some (c, p, .out a none)) (ha : a ≠ .st .splitNeeded) : FStep cfg s none (s.fly i c (p.resume a) .idle)
  /-- or needs a split -/
  | full {s : FState} {i : Nat} {c : Call} {p : Prog Resp} {op : ROp}
      (h : s.thr i = some (c, p, .out (.st .splitNeeded) none)) (ho : p.rop = some op) :
      FStep cfg s none (s.fly i c p (.split (s.tree.depth (op.ph cfg).shardSel)))
  /-- `node.write()`: the node is still a leaf; it is split -/
  | split {s : FState} {i : Nat} {c : Call} {p : Prog Resp} {op : ROp} {t' : Tree}
      (h : s.thr i = some (c, p, .split (s.tree.depth (op.ph cfg).shardSel))) (ho : p.rop = some op)
      (hx : ¬ s.Busy cfg none (s.shard cfg op).lo (fun _ fl => fl.onNode = true)) (hq : (s.shard cfg op).tgt = none) (hf : (s.shard cfg op).Fits)
      (ht : s.tree.splitAt cfg (op.ph cfg).shardSel = some t') : FStep cfg s none { s.fly i c p .node with tree := t' }
  /-- or it has been split already -/
  | already {s : FState} {i : Nat} {c : Call} {p : Prog Resp} {op : ROp} {d : Nat}
      (h : s.thr i = some (c, p, .split d)) (ho : p.rop = some op) (hd : s.tree.depth (op.ph cfg).shardSel ≠ d) :
      FStep cfg s none (s.fly i c p .node)
  /-- a background compaction takes the lock of its next row (src/shard.rs:490-495) -/
  | bgRow {s : FState} {t : MFile} (sel : Nat) (hsel : sel < END_OF_SHARDS) (h : (s.tree.find sel).tgt = some t) (hc : t.compactedUpTo < NUM_ROWS)
      (hb : s.bg (s.tree.find sel).lo = none)
      (hx : ¬ s.Busy cfg none (s.tree.find sel).lo (fun op fl => fl.onRow = true ∧ (op.ph cfg).rowSel = t.compactedUpTo)) :
      FStep cfg s none { s with
        bg := setN s.bg (s.tree.find sel).lo (some (t.compactedUpTo, copyCode cfg (t.compactedUpTo == 0) t.compactedUpTo ROW_WIDTH 0 0)) }
  /-- one access of a background compaction -/
  | bgMem {s : FState} {r : Nat} {m m' : MProg Unit} {sh' : Shard} (sel : Nat) (hsel : sel < END_OF_SHARDS)
      (h : s.bg (s.tree.find sel).lo = some (r, m)) (hf : (s.tree.find sel).Fits) (hm : m.step (s.tree.find sel) = some (sh', m')) :
      FStep cfg s none { s with tree := s.tree.modify sel (fun _ => sh'), bg := setN s.bg (s.tree.find sel).lo (some (r, m')) }
  /-- it drops the row lock -/
  | bgRel {s : FState} {r : Nat} (sel : Nat) (hsel : sel < END_OF_SHARDS) (h : s.bg (s.tree.find sel).lo = some (r, .ret ())) :
      FStep cfg s none { s with bg := setN s.bg (s.tree.find sel).lo none }
  /-- all rows are done: the files are swapped (src/shard.rs:974-976) -/
  | bgSwap {s : FState} {t : MFile} (sel : Nat) (hsel : sel < END_OF_SHARDS) (h : (s.tree.find sel).tgt = some t) (hc : NUM_ROWS ≤ t.compactedUpTo)
      (hb : s.bg (s.tree.find sel).lo = none) (hx : ¬ s.Busy cfg none (s.tree.find sel).lo (fun _ fl => fl.onFiles = true)) :
      FStep cfg s none { s with tree := s.tree.modify sel (fun sh => { sh with src := t, tgt := none }) }

/-- Executions, with what is observed of them. -/
inductive FineRun (cfg : Cfg) : FState → List CEvent → FState → Prop
  | nil (s : FState) : FineRun cfg s [] s
  | obs {s s' s'' : FState} {e : CEvent} {tr : List CEvent} (h : FStep cfg s (some e) s') (rest : FineRun cfg s' tr s'') : FineRun cfg s (e :: tr) s''
  | tau {s s' s'' : FState} {tr : List CEvent} (h : FStep cfg s none s') (rest : FineRun cfg s' tr s'') : FineRun cfg s tr s''

end Candy
