import Verif.Model.Router
/-!
# `merge_small_shards` with other threads

`merge_small_shards` (src/router.rs:459-498) first counts the items, shard by shard and without holding the root lock, waiting for the
compaction of each shard (463-468, src/shard.rs:1077). Other threads go on calling. Then it takes the root lock (478), which excludes other
*calls*; but a compaction that one of these calls has started goes on in its background thread, which uses only the locks of the shard.
-/
namespace Candy

/-- `merge_small_shards` from the moment it has the root lock (src/router.rs:477-494), with `n` shards to remove, if no compaction is running. -/
def Tree.mergeLocked (cfg : Cfg) (maxFill n : Nat) (t : Tree) : Out Tree :=
  (t.mergeRec cfg maxFill n).bind (fun r =>
    match treeify r.shards with
    | none => .panic
    | some t' => .ok t')

/-- Where a thread is in the loop of `do_compaction` (src/shard.rs:488-527): about to load `compacted_up_to` (490), or holding the row it has
loaded, or past the loop. `first` is `first_row`. -/
inductive CompPc where
  | atLoad (first : Bool)
  | atRow (first : Bool) (row : Nat)
  | done

/-- One step of a thread in that loop. `tgt` is shared with other threads (the header is a shared memory map). Copying a row is one step here,
`fetch_add` of `compacted_up_to` included. -/
inductive CompStep (cfg : Cfg) (src : MFile) : MFile → CompPc → MFile → CompPc → Prop
  | load {tgt : MFile} {first : Bool} (h : tgt.compactedUpTo < NUM_ROWS) : CompStep cfg src tgt (.atLoad first) tgt (.atRow first tgt.compactedUpTo)
  | stop {tgt : MFile} {first : Bool} (h : NUM_ROWS ≤ tgt.compactedUpTo) : CompStep cfg src tgt (.atLoad first) tgt .done
  | copy {tgt : MFile} {first : Bool} {row : Nat} {ps : List Prim} (h : copyPrims cfg first row tgt 0 (src.liveRow row) = some ps) :
      CompStep cfg src tgt (.atRow first row) (tgt.run (ps ++ [.addCompacted])) (.atLoad false)

/-- Two threads compacting the same source into the same target: the background thread, and `merge_small_shards`, whose `load`
(src/router.rs:488) opens the shard and finds the target of the running compaction, taking it for one left by a crash (src/shard.rs:430-440).
The row locks of the two are different objects (src/shard.rs:416-419). -/
inductive TwoComp (cfg : Cfg) (src : MFile) : MFile → CompPc → CompPc → MFile → CompPc → CompPc → Prop
  | nil (tgt : MFile) (a b : CompPc) : TwoComp cfg src tgt a b tgt a b
  | bg {tgt tgt1 tgt2 : MFile} {a a1 a2 b b2 : CompPc} (h : CompStep cfg src tgt a tgt1 a1) (hs : TwoComp cfg src tgt1 a1 b tgt2 a2 b2) :
      TwoComp cfg src tgt a b tgt2 a2 b2
  | merge {tgt tgt1 tgt2 : MFile} {a a2 b b1 b2 : CompPc} (h : CompStep cfg src tgt b tgt1 b1) (hs : TwoComp cfg src tgt1 a b1 tgt2 a2 b2) :
      TwoComp cfg src tgt a b tgt2 a2 b2

end Candy
