import Verif.Model.Shard
/-!
# The shard tree (src/router.rs)

`Tree` models the tree of `ShardRouter`/`ShardNode`s. The locks of the nodes are not part of the state; the one place where
they matter for a single caller (`_merge` locking a node it already holds) is modelled by the outcome `deadlock`.
-/
namespace Candy

/-- Outcome of a call: a result, a failed assertion / `unreachable!` / arithmetic panic, a loop that has not ended within the
fuel of the model, a thread waiting for a lock it holds itself. -/
inductive Out (α : Type) where
  | ok (a : α)
  | panic
  | diverge
  | deadlock

/-- Sequencing. -/
def Out.bind {α β : Type} (x : Out α) (f : α → Out β) : Out β :=
  match x with
  | .ok a => f a
  | .panic => .panic
  | .diverge => .diverge
  | .deadlock => .deadlock

/-- A missing result is a failed assertion. -/
def Out.ofOption {α : Type} : Option α → Out α
  | some a => .ok a
  | none => .panic

/-- `ShardNode` (src/router.rs:53-56) together with the `ShardRouter`s (70-76) around its children. A router's `span` field is
always the span of its node (88-98, 209-215, 371-384, 421-427), so it is computed. -/
inductive Tree where
  | leaf (s : Shard)
  | vertex (bottom top : Tree)

/-- `ShardNode::span` (src/router.rs:59-64). -/
def Tree.lo : Tree → Nat
  | .leaf s => s.lo
  | .vertex b _ => b.lo
def Tree.hi : Tree → Nat
  | .leaf s => s.hi
  | .vertex _ t => t.hi

/-- `ShardNode::len` (src/router.rs:65-67). -/
def Tree.len (t : Tree) : Nat := t.hi - t.lo

/-- The shard on which `shared_op` (src/router.rs:280-295) runs its function. -/
def Tree.find : Tree → Nat → Shard
  | .leaf s, _ => s
  | .vertex b t, sel => if sel < b.hi then b.find sel else t.find sel

/-- The tree after `shared_op` has run a function with side effects on the shard of `sel` (src/router.rs:280-295). -/
def Tree.modify : Tree → Nat → (Shard → Shard) → Tree
  | .leaf s, _, f => .leaf (f s)
  | .vertex b t, sel, f => if sel < b.hi then .vertex (b.modify sel f) t else .vertex b (t.modify sel f)

/-- `ShardNode::Leaf(sh)` (src/router.rs:410-446). -/
def Tree.isLeaf : Tree → Option Shard
  | .leaf s => some s
  | .vertex _ _ => none

/-- The shards in the order of `call_on_all_shards` (src/router.rs:327-339). -/
def Tree.leaves : Tree → List Shard
  | .leaf s => [s]
  | .vertex b t => b.leaves ++ t.leaves

/-- `CandyStore::get_raw` (src/store.rs:290-294). -/
def Tree.get (cfg : Cfg) (t : Tree) (key : Bytes) : Option Bytes :=
  (t.find (cfg.ph key).shardSel).get (cfg.ph key) key

/-- `CandyStore::get_by_hash` (src/store.rs:284-288). -/
def Tree.getByHash (t : Tree) (ph : PH) : List KV := (t.find ph.shardSel).getByHash ph

/-- `CandyStore::remove_raw` (src/store.rs:317-321). -/
def Tree.remove (cfg : Cfg) (t : Tree) (key : Bytes) : Tree × Option Bytes :=
  let ph := cfg.ph key
  (t.modify ph.shardSel (fun s => (s.remove ph key).1), ((t.find ph.shardSel).remove ph key).2)

/-- `ShardRouter::insert` (src/router.rs:341-394). The `loop` at a node runs the insertion in the node's shard or child; if the
shard asks for a split, the node becomes a vertex and the loop continues there (so it descends into the proper half). A child never
returns `SplitNeeded`: its own loop handles it. One unit of fuel is used per node visited. -/
def Tree.insert (cfg : Cfg) (ph : PH) (key val : Bytes) (mode : Mode) : Nat → Tree → Out (Tree × InsStatus)
  | 0, _ => .diverge
  | n + 1, .leaf s =>
    match s.insert cfg ph key val mode with
    | (s', .splitNeeded) =>
      match s'.split cfg with
      | none => .panic
      | some (b, t) => Tree.insert cfg ph key val mode n (.vertex (.leaf b) (.leaf t))
    | (s', st) => .ok (.leaf s', st)
  | n + 1, .vertex b t =>
    if ph.shardSel < b.hi then
      (Tree.insert cfg ph key val mode n b).bind (fun r => .ok (.vertex r.1 t, r.2))
    else
      (Tree.insert cfg ph key val mode n t).bind (fun r => .ok (.vertex b r.1, r.2))

/-- One step of the background compaction thread of the shard owning `sel` (src/shard.rs:959-978). -/
def Tree.bgStep (cfg : Cfg) : Tree → Nat → Option Tree
  | .leaf s, _ => (s.bgStep cfg).map .leaf
  | .vertex b t, sel =>
    if sel < b.hi then (b.bgStep cfg sel).map (fun b' => .vertex b' t) else (t.bgStep cfg sel).map (fun t' => .vertex b t')

/-- `call_on_all_shards(|sh| sh.get_stats())` waits for every running compaction (src/router.rs:327-339, 465,
src/shard.rs:1077; also `Drop for Shard`, 1089-1093, when the store is closed). -/
def Tree.finishAll (cfg : Cfg) : Tree → Option Tree
  | .leaf s => (s.finish cfg).map .leaf
  | .vertex b t =>
    match b.finishAll cfg, t.finishAll cfg with
    | some b', some t' => some (.vertex b' t')
    | _, _ => none

/-! ## Building trees -/

/-- `Shard::EXPECTED_CAPACITY` (src/shard.rs:352). -/
abbrev EXPECTED_CAPACITY : Nat := 29491

/-- `ShardRouter::calc_step` (src/router.rs:167-171). The `f64` computation is modelled by exact division and rounding down; `none` is the
panic of `0u32.ilog2()`. (Only the position of the quotient between two powers of two matters for the result, and `f64` is exact
about that for all item counts below 2^50.) -/
def calcStep (numItems : Nat) : Option Nat :=
  let step := if numItems ≤ EXPECTED_CAPACITY then END_OF_SHARDS else END_OF_SHARDS * EXPECTED_CAPACITY / numItems
  if step = 0 then none else some (2 ^ Nat.log2 step)

/-- `ShardRouter::calc_num_shards` (src/router.rs:172-174). -/
def calcNumShards (numItems : Nat) : Option Nat := (calcStep numItems).map (fun s => END_OF_SHARDS / s)

/-- The loop of `create_initial_shards` (src/router.rs:183-197), with fuel (at most 65536 iterations for a positive step). -/
def initialSpans (step : Nat) : Nat → Nat → List (Nat × Nat)
  | 0, _ => []
  | n + 1, start => if start < END_OF_SHARDS then (start, start + step) :: initialSpans step n (start + step) else []

/-- `create_initial_shards` (src/router.rs:176-198): fresh shards. -/
def createInitialShards (cfg : Cfg) : Option (List Shard) :=
  (calcStep cfg.expectedKeys).map (fun step =>
    (initialSpans step END_OF_SHARDS 0).map (fun p => ⟨p.1, p.2, MFile.empty, none⟩))

/-- One pass of the inner loop of `treeify` (src/router.rs:256-271). After two nodes have been joined the index stays, but the new
node is larger than `unit`, so it is skipped by the next comparison. -/
def pairUp (unit : Nat) : List Tree → List Tree
  | a :: b :: rest =>
    if a.len = unit ∧ b.len = unit then .vertex a b :: pairUp unit rest else a :: pairUp unit (b :: rest)
  | l => l

/-- The outer loop of `treeify` (src/router.rs:255-274). `unit` is a power of two, so 17 iterations are enough. -/
def treeLoop : Nat → Nat → List Tree → List Tree
  | 0, _, nodes => nodes
  | n + 1, unit, nodes => if unit < END_OF_SHARDS then treeLoop n (unit * 2) (pairUp unit nodes) else nodes

/-- `x.is_power_of_two()`. -/
def isPow2 (x : Nat) : Bool := x != 0 && 2 ^ Nat.log2 x == x

/-- `spans_debug.is_sorted_by(|a, b| a.start < b.start)` (src/router.rs:245-248; implies the check at 233-237). -/
def sortedByStart : List Shard → Bool
  | a :: b :: rest => decide (a.lo < b.lo) && sortedByStart (b :: rest)
  | _ => true

/-- `treeify` (src/router.rs:218-278): `none` is a failed assertion. -/
def treeify (shards : List Shard) : Option Tree :=
  let nodes := shards.map Tree.leaf
  let unit := (nodes.map Tree.len).foldl (fun u l => if l < u then l else u) END_OF_SHARDS
  if !sortedByStart shards || !isPow2 unit || nodes.length == 0 || (nodes.length ≤ 1 && unit != END_OF_SHARDS) then none
  else
    match treeLoop 17 unit nodes with
    | [t] => some t
    | _ => none

/-- `ShardRouter::new` on an empty directory (src/router.rs:86-98). -/
def Tree.create (cfg : Cfg) : Option Tree := (createInitialShards cfg).bind treeify

/-! ## Merging -/

/-- What `_merge` leaves behind: the shards now on disk for the two subtrees, whether they were merged into one shard, and
the remaining number of shards to remove. -/
structure MergeOut where
  shards : List Shard
  merged : Option Shard
  remaining : Nat

/-- The leaf/leaf case of `_merge` (src/router.rs:411-431). -/
def mergeLeaves (cfg : Cfg) (maxFill : Nat) (b t : Shard) (n : Nat) : Out MergeOut :=
  if b.getStats.numItems > maxFill then .ok ⟨[b, t], none, n⟩
  else if t.getStats.numItems > maxFill then .ok ⟨[b, t], none, n⟩
  else match b.merge cfg t with
    | .panic => .panic
    | .rowTooFull => .ok ⟨[b, t], none, n⟩
    | .merged m => .ok ⟨[m], some m, n - 1⟩

/-- `_merge` (src/router.rs:396-457) applied to the two children of a vertex. All compactions have been waited for. The guards
`bottom_guard` and `top_guard` are held until the function returns, so a recursive call on `bottom` or `top` itself (434, 441,
451, 452) blocks forever - unless it returns at once because `shards_to_remove` is 0 (403-405). -/
def Tree.mergeRec (cfg : Cfg) (maxFill : Nat) : Tree → Nat → Out MergeOut
  | .leaf s, n => .ok ⟨[s], none, n⟩
  | .vertex b t, 0 => .ok ⟨b.leaves ++ t.leaves, none, 0⟩
  | .vertex b t, n + 1 =>
    match b.isLeaf, t.isLeaf with
    | some sb, some st => mergeLeaves cfg maxFill sb st (n + 1)
    | some sb, none =>
      (Tree.mergeRec cfg maxFill t (n + 1)).bind (fun r =>
        match r.merged, r.remaining with
        | none, m => .ok ⟨sb :: r.shards, none, m⟩
        | some _, 0 => .ok ⟨sb :: r.shards, none, 0⟩
        | some _, _ + 1 => .deadlock)
    | none, some st =>
      (Tree.mergeRec cfg maxFill b (n + 1)).bind (fun r =>
        match r.merged, r.remaining with
        | none, m => .ok ⟨r.shards ++ [st], none, m⟩
        | some _, 0 => .ok ⟨r.shards ++ [st], none, 0⟩
        | some _, _ + 1 => .deadlock)
    | none, none =>
      (Tree.mergeRec cfg maxFill b (n + 1)).bind (fun r1 =>
        (Tree.mergeRec cfg maxFill t r1.remaining).bind (fun r2 =>
          match r1.merged, r2.merged, r2.remaining with
          | none, none, m => .ok ⟨r1.shards ++ r2.shards, none, m⟩
          | _, _, 0 => .ok ⟨r1.shards ++ r2.shards, none, 0⟩
          | some m1, some m2, m + 1 => mergeLeaves cfg maxFill m1 m2 (m + 1)
          | _, _, _ + 1 => .deadlock))

/-- `merge_small_shards` (src/router.rs:459-498). `maxFill` is `(EXPECTED_CAPACITY as f32 * max_fill_level) as usize`. The final
`load` of the directory (489) is modelled by the shards left on disk by `_merge`; see `DirOf.reopen` (Proofs/CrashRun.lean) for the justification.
Counting the items (465-468) panics if the subtraction in `num_items` overflows, in debug builds. -/
def Tree.mergeSmall (cfg : Cfg) (maxFill : Nat) (t : Tree) : Out (Tree × Bool) :=
  match t.finishAll cfg with
  | none => .panic
  | some t =>
    if t.leaves.any (fun s => s.getStats.underflow) then .panic else
    let items := (t.leaves.map (fun s => s.getStats.numItems)).sum
    match calcNumShards (Nat.max items cfg.expectedKeys) with
    | none => .panic
    | some needed =>
      if t.leaves.length ≤ needed then .ok (t, false)
      else
        (t.mergeRec cfg maxFill (t.leaves.length - needed)).bind (fun r =>
          match treeify r.shards with
          | none => .panic
          | some t' => .ok (t', t'.leaves.length != t.leaves.length))

/-- `ShardRouter::clear` (src/router.rs:297-325). (Closing the old shards waits for their compactions.) -/
def Tree.clear (cfg : Cfg) (_ : Tree) : Option Tree := Tree.create cfg

/-! ## Opening -/

/-- A shard's span. -/
abbrev Span := Nat × Nat

/-- The order of `sort_by` in `consolidate_ranges` (src/router.rs:16-22). -/
def spanLe (a b : Span) : Bool := if a.1 = b.1 then decide (b.2 ≤ a.2) else decide (a.1 ≤ b.1)

/-- The loop of `consolidate_ranges` (src/router.rs:24-33), comparing with the last kept range. -/
def consolidateLoop (prev : Span) : List Span → List Span × List Span
  | [] => ([prev], [])
  | x :: xs =>
    if prev.1 ≤ x.1 ∧ x.2 ≤ prev.2 then
      let r := consolidateLoop prev xs
      (r.1, x :: r.2)
    else
      let r := consolidateLoop x xs
      (prev :: r.1, r.2)

/-- `consolidate_ranges` (src/router.rs:10-34): kept and removed ranges. -/
def consolidate (ranges : List Span) : List Span × List Span :=
  match ranges.mergeSort spanLe with
  | [] => ([], [])
  | x :: xs => consolidateLoop x xs

end Candy
