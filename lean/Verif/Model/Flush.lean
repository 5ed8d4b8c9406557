import Verif.Model.Dir
/-!
# `flush`, and what survives a machine crash

A machine crash (power loss) is not a process crash: what was written but not synced need not be on the disk. `PowerLoss` is
generous to the program: creations, renames and removals of files are on the disk at once, and only the contents of files need
syncing. A file is *clean* if it has been synced since it was last written to; the contents of the other files may be anything.
-/
namespace Candy

/-- `CandyStore::flush` (src/store.rs:256-259): `Shard::flush` (src/shard.rs:530-534) of every shard syncs `files.0`, the shard file - and
not the target of a running compaction. These are the files synced. -/
def Tree.flushed (t : Tree) : List FName := t.leaves.map Shard.srcName

/-- Which files are clean after a file operation. A renamed file stays what it was. -/
def FOp.clean (c : FName → Bool) : FOp → FName → Bool
  | .trunc n, m => if m = n then false else c m
  | .setLen n, m => if m = n then false else c m
  | .magic n, m => if m = n then false else c m
  | .prim n _, m => if m = n then false else c m
  | .rename a b, m => if m = b then c a else c m
  | .unlink _, m => c m
  | .unlinkIf _, m => c m

/-- Which files are clean after a trace. -/
def cleanAfter : (FName → Bool) → List FOp → FName → Bool
  | c, [] => c
  | c, o :: os => cleanAfter (o.clean c) os

/-- Which files are clean after `flush`. -/
def afterFlush (c : FName → Bool) (t : Tree) : FName → Bool := fun m => c m || t.flushed.contains m

/-- What a machine crash may leave of a directory: the same files; the clean ones intact. -/
structure PowerLoss (c : FName → Bool) (d d' : Dir) : Prop where
  nodup : (d'.map Prod.fst).Nodup
  names : ∀ n, d'.find n = none ↔ d.find n = none
  kept : ∀ n, c n = true → d'.find n = d.find n

end Candy
