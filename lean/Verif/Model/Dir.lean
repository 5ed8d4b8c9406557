import Verif.Model.Router
/-!
# The directory: files, file-system traces, crashes and recovery

`Dir` is the content of the store's directory as far as the library looks at it. Every operation of the store that touches files is
given its *trace*: the list of file-system and memory-mapped stores (`FOp`) it performs, in program order. A process crash
(`Dir.Crash`) stops a trace after any of its elements, or inside a data write.

Assumptions about the platform: stores to a memory-mapped header and `pwrite`s survive the death of the process (they are in the page
cache) and are visible to the next process in program order; `set_len`, `rename` and `unlink` are atomic. No I/O errors other than
"no such file" (see `Verif.Model.Errors` for others).
-/
namespace Candy

/-- The prefixes of the file names used by the library: `shard_`, `compact_`, `bottom_`, `top_`, `merge_`. All other
files are ignored by it (src/router.rs:108-127). -/
inductive Kind where
  | shard
  | compact
  | bottom
  | top
  | merge
deriving DecidableEq

/-- A file name `{kind}_{lo:04x}-{hi:04x}` (printing and parsing: `Verif.Model.Names`). -/
structure FName where
  kind : Kind
  lo : Nat
  hi : Nat
deriving DecidableEq

/-- A file: of length 0; with its length set but without a complete magic/version header (the rest of the header is zeroes); complete. -/
inductive DFile where
  | zero
  | blank
  | good (f : MFile)

/-- The directory. The order of the list is the order of `read_dir`, which is arbitrary. -/
abbrev Dir := List (FName × DFile)

/-- Lookup by name. -/
def Dir.find : Dir → FName → Option DFile
  | [], _ => none
  | (m, x) :: d, n => if m = n then some x else Dir.find d n

/-- Remove a name. -/
def Dir.del (d : Dir) (n : FName) : Dir := d.filter (fun e => decide (e.1 ≠ n))

/-- Create or overwrite a name. -/
def Dir.put (d : Dir) (n : FName) (x : DFile) : Dir := (n, x) :: d.del n

/-- One file-system operation, or one store to a file. -/
inductive FOp where
  /-- `OpenOptions::create(true).truncate(true)` (src/shard.rs:176-181, 364-369) -/
  | trunc (n : FName)
  /-- `set_len` of a fresh file (src/shard.rs:182-189, 406-414) -/
  | setLen (n : FName)
  /-- magic and version written by `MmapFile::new` (src/shard.rs:168-170); before that, `posix_fallocate` has
  extended the file to the header size (src/shard.rs:163-166) -/
  | magic (n : FName)
  /-- a primitive store to the file -/
  | prim (n : FName) (p : Prim)
  /-- `std::fs::rename` -/
  | rename (a b : FName)
  /-- `std::fs::remove_file(..)?` -/
  | unlink (n : FName)
  /-- `_ = std::fs::remove_file(..)` (src/shard.rs:428) -/
  | unlinkIf (n : FName)

/-- Effect of an operation; `none` is an I/O error. -/
def FOp.app (d : Dir) : FOp → Option Dir
  | .trunc n => some (d.put n .zero)
  | .setLen n => match d.find n with
    | none => none
    | some .zero => some (d.put n .blank)
    | some _ => some d
  | .magic n => match d.find n with
    | none => none
    | some (.good _) => some d
    | some _ => some (d.put n (.good MFile.empty))
  | .prim n p => match d.find n with
    | some (.good f) => some (d.put n (.good (p.app f)))
    | _ => none
  | .rename a b => match d.find a with
    | none => none
    | some x => some ((d.del a).put b x)
  | .unlink n => match d.find n with
    | none => none
    | some _ => some (d.del n)
  | .unlinkIf n => some (d.del n)

/-- Run a trace to its end. -/
def Dir.run (d : Dir) : List FOp → Option Dir
  | [] => some d
  | o :: os => match o.app d with
    | none => none
    | some d' => Dir.run d' os

/-- The directory a process may leave behind if it dies while performing the trace: after any number of operations, or inside a data
write, whose bytes are then arbitrary (the area reserved for it is not referenced by anything yet). -/
inductive Dir.Crash : Dir → List FOp → Dir → Prop
  | stop (d : Dir) (os : List FOp) : Dir.Crash d os d
  | torn (d : Dir) (n : FName) (f : MFile) (off : Nat) (bs : Bytes) (data : Nat → UInt8) (os : List FOp)
      (hf : d.find n = some (.good f)) (hd : ∀ i, ¬ (off ≤ i ∧ i < off + bs.length) → data i = f.data i) :
      Dir.Crash d (.prim n (.pwrite off bs) :: os) (d.put n (.good { f with data := data }))
  | step {d d' d'' : Dir} {o : FOp} {os : List FOp} (h : o.app d = some d') (hc : Dir.Crash d' os d'') : Dir.Crash d (o :: os) d''

/-! ## Traces -/

/-- Primitive stores to a file. -/
def onFile (n : FName) (ps : List Prim) : List FOp := ps.map (FOp.prim n)

/-- `MmapFile::create` (src/shard.rs:175-191). -/
def createOps (n : FName) : List FOp := [.trunc n, .setLen n, .magic n]

/-- The names of a shard's files (src/shard.rs:361-363, 423-425). -/
def Shard.srcName (s : Shard) : FName := ⟨.shard, s.lo, s.hi⟩
def Shard.tgtName (s : Shard) : FName := ⟨.compact, s.lo, s.hi⟩

/-- The name of the file selected for a row (src/shard.rs:714-757). -/
def Shard.activeName (s : Shard) (row : Nat) : FName :=
  match s.tgt with
  | some t => if row < t.compactedUpTo then s.tgtName else s.srcName
  | none => s.srcName

/-- `begin_compaction` (src/shard.rs:905-957). -/
def Shard.beginOps (s : Shard) (minWriteOffset : Nat) : List FOp :=
  if s.src.writeOff < minWriteOffset then []
  else match s.tgt with
    | some _ => []
    | none => createOps s.tgtName

/-- `Shard::insert` (src/shard.rs:980-1048). -/
def Shard.insertOps (cfg : Cfg) (s : Shard) (ph : PH) (key val : Bytes) (mode : Mode) : List FOp :=
  let p := s.insertPlan cfg ph key val mode
  onFile (s.activeName ph.rowSel) p.1 ++
    (match p.2.2 with | some off => (s.runActive ph.rowSel p.1).beginOps off | none => [])

/-- `Shard::remove` (src/shard.rs:1050-1074). -/
def Shard.removeOps (s : Shard) (ph : PH) (key : Bytes) : List FOp :=
  onFile (s.activeName ph.rowSel) (s.removePlan ph key).1

/-- The stores of `n` iterations of the loop of `do_compaction` (src/shard.rs:488-527). -/
def compactPrims (cfg : Cfg) (src : MFile) : Nat → Bool → MFile → Option (List Prim)
  | 0, _, _ => some []
  | n + 1, first, tgt =>
    match compactRowPrims cfg first src tgt with
    | none => none
    | some ps => (compactPrims cfg src n false (tgt.run ps)).map (ps ++ ·)

/-- One step of the background thread (src/shard.rs:959-978): the stores of one row, or the rename. -/
def Shard.bgOps (cfg : Cfg) (s : Shard) : List FOp :=
  match s.tgt with
  | none => []
  | some t =>
    if t.compactedUpTo < NUM_ROWS then onFile s.tgtName ((compactRowPrims cfg (t.compactedUpTo == 0) s.src t).getD [])
    else [.rename s.tgtName s.srcName]

/-- What the background thread still has to do when it is waited for (src/shard.rs:897-903). -/
def Shard.finishOps (cfg : Cfg) (s : Shard) : List FOp :=
  match s.tgt with
  | none => []
  | some t =>
    onFile s.tgtName ((compactPrims cfg s.src (NUM_ROWS - t.compactedUpTo) (t.compactedUpTo == 0) t).getD []) ++
      [.rename s.tgtName s.srcName]

/-- The stores of `fillRows`. -/
def fillPrims (cfg : Cfg) (contents : Nat → List KV) : MFile → List Nat → Option (List Prim)
  | _, [] => some []
  | f, row :: rows =>
    match copyPrims cfg false row f 0 (contents row) with
    | none => none
    | some ps => (fillPrims cfg contents (f.run ps) rows).map (ps ++ ·)

/-- `Shard::split` (src/shard.rs:536-632). The stores to the two new files, which the code interleaves pair by pair, are listed one
file after the other. -/
def Shard.splitOps (cfg : Cfg) (s : Shard) : List FOp :=
  s.finishOps cfg ++
  match s.finish cfg with
  | none => []
  | some s =>
    let mid := midOf s.lo s.hi
    let isBottom : KV → Bool := fun kv => decide ((cfg.ph kv.1).shardSel < mid)
    createOps ⟨.bottom, s.lo, mid⟩ ++ createOps ⟨.top, mid, s.hi⟩ ++
    onFile ⟨.bottom, s.lo, mid⟩ ((fillPrims cfg (fun r => (s.src.liveRow r).filter isBottom) MFile.empty (List.range NUM_ROWS)).getD []) ++
    onFile ⟨.top, mid, s.hi⟩
      ((fillPrims cfg (fun r => (s.src.liveRow r).filter (fun kv => !isBottom kv)) MFile.empty (List.range NUM_ROWS)).getD []) ++
    [.rename ⟨.bottom, s.lo, mid⟩ ⟨.shard, s.lo, mid⟩, .rename ⟨.top, mid, s.hi⟩ ⟨.shard, mid, s.hi⟩, .unlink s.srcName]

/-- `Shard::merge` (src/shard.rs:634-712) and the decision in `_merge` (src/router.rs:411-431). When a row overflows, what has been copied
until then is deleted again. -/
def mergeLeavesOps (cfg : Cfg) (maxFill : Nat) (b t : Shard) : List FOp :=
  if b.getStats.numItems > maxFill then []
  else if t.getStats.numItems > maxFill then []
  else
    let tmp : FName := ⟨.merge, b.lo, t.hi⟩
    let contents := fun r => b.src.liveRow r ++ t.src.liveRow r
    match b.merge cfg t with
    | .panic => createOps tmp
    | .rowTooFull =>
      let fits := fun r => decide ((contents r).length ≤ ROW_WIDTH)
      let ok := (List.range NUM_ROWS).takeWhile fits
      let rows := ok ++ ((List.range NUM_ROWS).drop ok.length).take 1
      createOps tmp ++ onFile tmp ((fillPrims cfg (fun r => (contents r).take ROW_WIDTH) MFile.empty rows).getD []) ++ [.unlink tmp]
    | .merged _ =>
      createOps tmp ++ onFile tmp ((fillPrims cfg contents MFile.empty (List.range NUM_ROWS)).getD []) ++
      [.rename tmp ⟨.shard, b.lo, t.hi⟩, .unlink b.srcName, .unlink t.srcName]

/-- `ShardRouter::insert` (src/router.rs:341-394). -/
def Tree.insertOps (cfg : Cfg) (ph : PH) (key val : Bytes) (mode : Mode) : Nat → Tree → List FOp
  | 0, _ => []
  | n + 1, .leaf s =>
    s.insertOps cfg ph key val mode ++
    match s.insert cfg ph key val mode with
    | (s', .splitNeeded) =>
      s'.splitOps cfg ++
      (match s'.split cfg with
      | none => []
      | some (b, t) => Tree.insertOps cfg ph key val mode n (.vertex (.leaf b) (.leaf t)))
    | _ => []
  | n + 1, .vertex b t =>
    if ph.shardSel < b.hi then Tree.insertOps cfg ph key val mode n b else Tree.insertOps cfg ph key val mode n t

/-- `CandyStore::remove_raw` (src/store.rs:317-321). -/
def Tree.removeOps (cfg : Cfg) (t : Tree) (key : Bytes) : List FOp :=
  (t.find (cfg.ph key).shardSel).removeOps (cfg.ph key) key

/-- A step of the background thread of the shard owning `sel`. -/
def Tree.bgOps (cfg : Cfg) (t : Tree) (sel : Nat) : List FOp := (t.find sel).bgOps cfg

/-- Waiting for all compactions (closing the store, src/shard.rs:1089-1093; src/router.rs:465). -/
def Tree.finishOps (cfg : Cfg) (t : Tree) : List FOp := t.leaves.flatMap (fun s => s.finishOps cfg)

/-- `_merge` (src/router.rs:396-457). -/
def Tree.mergeRecOps (cfg : Cfg) (maxFill : Nat) : Tree → Nat → List FOp
  | .leaf _, _ => []
  | .vertex _ _, 0 => []
  | .vertex b t, n + 1 =>
    match b.isLeaf, t.isLeaf with
    | some sb, some st => mergeLeavesOps cfg maxFill sb st
    | some _, none => Tree.mergeRecOps cfg maxFill t (n + 1)
    | none, some _ => Tree.mergeRecOps cfg maxFill b (n + 1)
    | none, none =>
      Tree.mergeRecOps cfg maxFill b (n + 1) ++
      match Tree.mergeRec cfg maxFill b (n + 1) with
      | .ok r1 =>
        Tree.mergeRecOps cfg maxFill t r1.remaining ++
        (match Tree.mergeRec cfg maxFill t r1.remaining with
        | .ok r2 =>
          match r1.merged, r2.merged, r2.remaining with
          | some m1, some m2, _ + 1 => mergeLeavesOps cfg maxFill m1 m2
          | _, _, _ => []
        | _ => [])
      | _ => []

/-! ## Opening -/

/-- Result of opening. -/
inductive LRes (α : Type) where
  | ok (a : α)
  | err
  | panic

/-- The scan of the directory in `load` (src/router.rs:106-148): deletions, and the spans found unless one is bad. -/
def scanDir : Dir → List FOp × Option (List Span)
  | [] => ([], some [])
  | (n, _) :: d =>
    let r := scanDir d
    match n.kind with
    | .bottom => (.unlink n :: r.1, r.2)
    | .top => (.unlink n :: r.1, r.2)
    | .merge => (.unlink n :: r.1, r.2)
    | .compact => r
    | .shard => if n.lo < n.hi ∧ n.hi ≤ END_OF_SHARDS then (r.1, r.2.map ((n.lo, n.hi) :: ·)) else ([], none)

/-- A compaction target as `MmapFile::new` sees it (src/shard.rs:154-173): an incomplete file is one of zeroes. -/
def DFile.asFile : DFile → MFile
  | .good f => f
  | _ => MFile.empty

/-- The first half of `Shard::open` (src/shard.rs:361-421) without truncation: the shard file. `clearBad` is
`clear_on_unsupported_version`. `none` is the error "unsupported magic". -/
def openSrc (clearBad : Bool) (n : FName) : Option DFile → List FOp × Option MFile
  | none => (createOps n, some MFile.empty)
  | some .zero => ([.setLen n, .magic n], some MFile.empty)
  | some .blank => if clearBad then (createOps n, some MFile.empty) else ([], none)
  | some (.good f) => ([.magic n], some f)

/-- `Shard::open` without truncation (src/shard.rs:354-451): finishes an interrupted compaction. -/
def openShard (cfg : Cfg) (clearBad : Bool) (d : Dir) (p : Span) : List FOp × LRes Shard :=
  let n : FName := ⟨.shard, p.1, p.2⟩
  let c : FName := ⟨.compact, p.1, p.2⟩
  let r := openSrc clearBad n (d.find n)
  match r.2 with
  | none => (r.1, .err)
  | some f =>
    match d.find c with
    | none => (r.1, .ok ⟨p.1, p.2, f, none⟩)
    | some x =>
      match compactPrims cfg f (NUM_ROWS - x.asFile.compactedUpTo) true x.asFile with
      | none => (r.1 ++ [.magic c], .panic)
      | some ps => (r.1 ++ ([.magic c] ++ onFile c ps ++ [.rename c n]), .ok ⟨p.1, p.2, x.asFile.run ps, none⟩)

/-- The loop opening the kept shards (src/router.rs:152-161). Opening one shard does not touch the files of another. -/
def openAll (cfg : Cfg) (clearBad : Bool) (d : Dir) : List Span → List FOp × LRes (List Shard)
  | [] => ([], .ok [])
  | p :: ps =>
    let r := openShard cfg clearBad d p
    match r.2 with
    | .err => (r.1, .err)
    | .panic => (r.1, .panic)
    | .ok s =>
      let q := openAll cfg clearBad d ps
      (r.1 ++ q.1, match q.2 with
        | .ok l => .ok (s :: l)
        | .err => .err
        | .panic => .panic)

/-- `ShardRouter::load` (src/router.rs:100-165). -/
def load (cfg : Cfg) (clearBad : Bool) (d : Dir) : List FOp × LRes (List Shard) :=
  let s := scanDir d
  match s.2 with
  | none => (s.1, .err)
  | some found =>
    let c := consolidate found
    let r := openAll cfg clearBad d c.1
    (s.1 ++ c.2.map (fun p => .unlink ⟨.shard, p.1, p.2⟩) ++ r.1, r.2)

/-- `Shard::open` with truncation, for a fresh shard (src/shard.rs:364-428). -/
def createShardOps (s : Shard) : List FOp := createOps s.srcName ++ [.unlinkIf s.tgtName]

/-- `ShardRouter::new` (src/router.rs:81-98): load, or create the initial shards, and build the tree. -/
def openStore (cfg : Cfg) (clearBad : Bool) (d : Dir) : List FOp × LRes Tree :=
  let r := load cfg clearBad d
  match r.2 with
  | .err => (r.1, .err)
  | .panic => (r.1, .panic)
  | .ok [] =>
    match createInitialShards cfg with
    | none => (r.1, .panic)
    | some l => (r.1 ++ l.flatMap createShardOps, match treeify l with
      | none => .panic
      | some t => .ok t)
  | .ok (s :: l) => (r.1, match treeify (s :: l) with
    | none => .panic
    | some t => .ok t)

/-- The deletions of `clear` (src/router.rs:300-319). -/
def clearScan : Dir → List FOp
  | [] => []
  | (n, _) :: d => match n.kind with
    | .merge => clearScan d
    | _ => .unlink n :: clearScan d

/-- `clear` (src/router.rs:297-325), with no compaction running. -/
def clearOps (cfg : Cfg) (d : Dir) : List FOp := clearScan d ++ ((createInitialShards cfg).getD []).flatMap createShardOps

/-- The directory holds exactly the files of the given shards, each once. -/
structure DirOf (d : Dir) (l : List Shard) : Prop where
  nodup : (d.map Prod.fst).Nodup
  files : ∀ s ∈ l, d.find s.srcName = some (.good s.src) ∧ d.find s.tgtName = s.tgt.map .good
  only : ∀ n, d.find n ≠ none → ∃ s ∈ l, n = s.srcName ∨ n = s.tgtName

end Candy
