import Verif.Model.Names
/-!
# The directory with its real names, and with files that are not the store's

`Dir` (Model/Dir) only has the files whose names the library has printed. Here the directory is a list of entries with arbitrary names, as
`read_dir` returns them; operations go by the printed names, and opening and `clear` take the names found apart (Model/Names).
-/
namespace Candy

/-- An entry of the directory, as `load` and `clear` see it (src/router.rs:106-121, 300-312). The contents of a file are described as in `Dir`; those of
files that are not the store's are never looked at. -/
inductive RawEntry where
  /-- a regular file whose name is valid UTF-8 -/
  | file (name : List Char) (x : DFile)
  /-- anything else: a subdirectory, a link, or a name that is not valid UTF-8. (Assumed not to have the name of a file of the store.) -/
  | other (id : Nat)

/-- The directory, in the order of `read_dir`. -/
abbrev RawDir := List RawEntry

/-- Lookup by name (`OpenOptions::open` and the like). -/
def RawDir.find : RawDir → List Char → Option DFile
  | [], _ => none
  | .file m x :: r, s => if m = s then some x else RawDir.find r s
  | .other _ :: r, s => RawDir.find r s

/-- The entry is a regular file of this name. -/
def RawEntry.named (s : List Char) : RawEntry → Bool
  | .file m _ => decide (m = s)
  | .other _ => false

/-- Remove a name. -/
def RawDir.del (r : RawDir) (s : List Char) : RawDir := r.filter (fun e => !e.named s)

/-- Create or overwrite a file. -/
def RawDir.put (r : RawDir) (s : List Char) (x : DFile) : RawDir := .file s x :: r.del s

/-- The name does not begin like those of the store's files. -/
def foreignName (s : List Char) : Bool :=
  !("shard_".toList.isPrefixOf s || "compact_".toList.isPrefixOf s || "bottom_".toList.isPrefixOf s || "top_".toList.isPrefixOf s || "merge_".toList.isPrefixOf s)

/-- The entry is not the store's. -/
def RawEntry.foreign : RawEntry → Bool
  | .file m _ => foreignName m
  | .other _ => true

/-- The entries that are not the store's, in order. -/
def RawDir.others (r : RawDir) : RawDir := r.filter RawEntry.foreign

/-- `r` consists of the store's files `d` and, anywhere in between, foreign entries. -/
inductive Among : Dir → RawDir → Prop
  | nil : Among [] []
  | own {d : Dir} {r : RawDir} (n : FName) (x : DFile) (hn : n.lo < 2 ^ 32 ∧ n.hi < 2 ^ 32) (h : Among d r) : Among ((n, x) :: d) (.file n.print x :: r)
  | foreign {d : Dir} {r : RawDir} (e : RawEntry) (he : e.foreign = true) (h : Among d r) : Among d (e :: r)

/-- An operation on the directory: one of `FOp`, by printed name (src/shard.rs:355-361, 422-425, 549-557, 596-606, 636-640, 930-938; src/router.rs:146-150),
or `remove_file(entry.path())` (src/router.rs:125, 317). -/
inductive DirOp where
  | op (o : FOp)
  | rm (s : List Char)

/-- Effect of an operation; `none` is an I/O error. The same clauses as `FOp.app`. -/
def DirOp.app (r : RawDir) : DirOp → Option RawDir
  | .rm s => match r.find s with
    | none => none
    | some _ => some (r.del s)
  | .op (.trunc n) => some (r.put n.print .zero)
  | .op (.setLen n) => match r.find n.print with
    | none => none
    | some .zero => some (r.put n.print .blank)
    | some _ => some r
  | .op (.magic n) => match r.find n.print with
    | none => none
    | some (.good _) => some r
    | some _ => some (r.put n.print (.good MFile.empty))
  | .op (.prim n p) => match r.find n.print with
    | some (.good f) => some (r.put n.print (.good (p.app f)))
    | _ => none
  | .op (.rename a b) => match r.find a.print with
    | none => none
    | some x => some ((r.del a.print).put b.print x)
  | .op (.unlink n) => match r.find n.print with
    | none => none
    | some _ => some (r.del n.print)
  | .op (.unlinkIf n) => some (r.del n.print)

/-- Run a trace to its end. -/
def RawDir.run (r : RawDir) : List DirOp → Option RawDir
  | [] => some r
  | o :: os => match o.app r with
    | none => none
    | some r' => RawDir.run r' os

/-- The names `read_dir` returns, of regular files in UTF-8 (src/router.rs:106-117, 300-311). -/
def RawDir.names (r : RawDir) : List (List Char) := r.filterMap (fun e => match e with | .file m _ => some m | .other _ => none)

/-- The files that opening shards with the given spans looks up (src/shard.rs:361, 422). -/
def RawDir.view (r : RawDir) (ps : List Span) : Dir :=
  ps.flatMap (fun p => [(⟨.shard, p.1, p.2⟩ : FName), ⟨.compact, p.1, p.2⟩].filterMap (fun n => (r.find n.print).map (fun x => (n, x))))

/-- `ShardRouter::new` (src/router.rs:81-165): the trace, and the result if no operation of the trace fails. -/
def RawDir.openStore (cfg : Cfg) (clearBad : Bool) (r : RawDir) : List DirOp × LRes Tree :=
  let s := scanNames r.names
  match s.2 with
  | .err => (s.1.map .rm, .err)
  | .panic => (s.1.map .rm, .panic)
  | .ok found =>
    let c := consolidate found
    let r1 := c.2.foldl (fun r p => r.del (FName.print ⟨.shard, p.1, p.2⟩)) r
    let q := openAll cfg clearBad (r1.view c.1) c.1
    let ops := s.1.map .rm ++ (c.2.map (fun p => FOp.unlink ⟨.shard, p.1, p.2⟩) ++ q.1).map .op
    match q.2 with
    | .err => (ops, .err)
    | .panic => (ops, .panic)
    | .ok [] =>
      match createInitialShards cfg with
      | none => (ops, .panic)
      | some l => (ops ++ (l.flatMap createShardOps).map .op, match treeify l with
        | none => .panic
        | some t => .ok t)
    | .ok (s :: l) => (ops, match treeify (s :: l) with
      | none => .panic
      | some t => .ok t)

/-- `clear` (src/router.rs:297-325), with no compaction running. -/
def RawDir.clearOps (cfg : Cfg) (r : RawDir) : List DirOp :=
  (r.names.filter clearTakes).map .rm ++ (((createInitialShards cfg).getD []).flatMap createShardOps).map .op

end Candy
