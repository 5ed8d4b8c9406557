import Verif.Model.Dir
import Verif.Model.Prog
import Verif.Proofs.Tree
/-!
# Crashes of the process, and reopening

`CrashDir cfg t p d`: the process dies while the store is in state `t` and the rest `p` of a call is about to be executed or its first raw
operation is under way; `d` is the directory it leaves behind. `Restart cfg d t'`: from then on the store is opened, possibly dying
again and again while opening, until an opening succeeds, giving the state `t'`.

Two simplifications. The stores of the interrupted raw operation come first in time, and those of the background threads after them (they
work on different files, or on different rows of the same file, so that they commute); a background thread that is
waited for (`split`, `merge`) does its stores inside the waiting operation. And the insertion that is interrupted would have returned, with
no shard of an empty range in the result (see C10 and C19).
-/
namespace Candy

/-- The background threads go on for a while and are killed: each step does some of the stores of the next row of a compaction, or
the rename (src/shard.rs:481-528, 959-978), as determined by the two files. -/
inductive BgCrash (cfg : Cfg) : Dir → Dir → Prop
  | refl (d : Dir) : BgCrash cfg d d
  | step {d d' d'' : Dir} (s : Shard) (f : MFile) (hs : d.find s.srcName = some (.good s.src)) (ht : s.tgt = some f)
      (hf : d.find s.tgtName = some (.good f)) (hsm : s.Small) (h : Dir.Crash d (s.bgOps cfg) d') (rest : BgCrash cfg d' d'') :
      BgCrash cfg d d''

/-- Every shard that can be assembled from the files is below 4 GiB, and stays so when its compaction ends. -/
def Dir.Sized (d : Dir) : Prop :=
  ∀ a b f, d.find ⟨.shard, a, b⟩ = some (.good f) → Shard.Small ⟨a, b, f, (d.find ⟨.compact, a, b⟩).map DFile.asFile⟩

/-- The stores of the next raw operation of a program, cut off anywhere. -/
inductive OpCrash (cfg : Cfg) {α : Type} (t : Tree) : Prog α → Dir → Dir → Prop
  /-- between two raw operations -/
  | idle (p : Prog α) (d : Dir) : OpCrash cfg t p d d
  /-- in `insert_internal` (src/store.rs:334-359) -/
  | ins (k v : Bytes) (mode : Mode) (c : InsStatus → Prog α) (n : Nat) (t' : Tree) (st : InsStatus) (d d' : Dir)
      (hs : sizeErr cfg k v = none) (h : t.insert cfg (cfg.ph k) k v mode n = .ok (t', st)) (hd : ∀ s ∈ t'.leaves, s.lo < s.hi)
      (hc : Dir.Crash d (t.insertOps cfg (cfg.ph k) k v mode n) d') : OpCrash cfg t (.ins k v mode c) d d'
  /-- in `remove_raw` (src/store.rs:317-321) -/
  | rem (k : Bytes) (c : Option Bytes → Prog α) (d d' : Dir) (hc : Dir.Crash d (t.removeOps cfg k) d') : OpCrash cfg t (.rem k c) d d'

/-- The directory left behind by a process that dies in state `t`, about to execute `p`. -/
def CrashDir (cfg : Cfg) {α : Type} (t : Tree) (p : Prog α) (d : Dir) : Prop :=
  ∃ d0 d1, DirOf d0 t.leaves ∧ OpCrash cfg t p d0 d1 ∧ BgCrash cfg d1 d

/-- The stores of `merge_small_shards` (src/router.rs:459-498): waiting for all compactions, then `_merge`. (The final `load`, 489,
rewrites the magic numbers of the files with the same values. If the counters underflow, `Tree.mergeSmall` panics and makes fewer stores.) -/
def Tree.mergeSmallOps (cfg : Cfg) (maxFill : Nat) (t : Tree) : List FOp :=
  t.finishOps cfg ++ match t.finishAll cfg with
    | none => []
    | some t' =>
      let items := (t'.leaves.map (fun s => s.getStats.numItems)).sum
      match calcNumShards (Nat.max items cfg.expectedKeys) with
      | none => []
      | some needed => if t'.leaves.length ≤ needed then [] else t'.mergeRecOps cfg maxFill (t'.leaves.length - needed)

/-- The directory left behind by a process that dies in `merge_small_shards` (also if that has deadlocked). -/
def MergeCrashDir (cfg : Cfg) (maxFill : Nat) (t : Tree) (d : Dir) : Prop :=
  ∃ d0 d1, DirOf d0 t.leaves ∧ Dir.Crash d0 (t.mergeSmallOps cfg maxFill) d1 ∧ BgCrash cfg d1 d

/-- The store is opened, perhaps after more crashes while opening. -/
inductive Restart (cfg : Cfg) (clearBad : Bool) : Dir → Tree → Prop
  | done {d : Dir} {ops : List FOp} {t : Tree} (hs : d.Sized) (h : openStore cfg clearBad d = (ops, .ok t)) : Restart cfg clearBad d t
  | again {d d' : Dir} {t : Tree} (hs : d.Sized) (h : Dir.Crash d (openStore cfg clearBad d).1 d') (rest : Restart cfg clearBad d' t) :
      Restart cfg clearBad d t

end Candy
