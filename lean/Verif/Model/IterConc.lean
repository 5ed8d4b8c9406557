import Verif.Model.Fine
import Verif.Model.Iter
/-!
# Iterating over the store while other threads work

`CandyStoreIterator::next` (src/store.rs:154-199) reads the table slot by slot; the read of a slot is done under the row lock (`read_at`, src/shard.rs:759-769). Here
the steps of other threads and of compactions may come between any two of these reads.

Simplification: the iterator holds the read guard of the shard node during the scan of a shard within one call of `next` (`shared_op`, src/router.rs:280-295), which
keeps splits of that shard away; the model does not use this and so allows more executions.
-/
namespace Candy

/-- One iteration of the loops of `next` (src/store.rs:157-198): the slot at the position is read and the position advanced (160-184), or, at the end of the table, the
iterator moves to the next shard (190-196). -/
def It.tick (t : Tree) (it : It) : It × Option KV :=
  let s := t.find it.sel
  if it.row < NUM_ROWS then
    let row' := if ROW_WIDTH ≤ it.ent + 1 then it.row + 1 else it.row
    let ent' := if ROW_WIDTH ≤ it.ent + 1 then 0 else it.ent + 1
    match (s.readAt it.row it.ent).bind (It.show it.raw) with
    | some kv => (⟨s.lo, row', ent', it.raw⟩, some kv)
    | none => (⟨it.sel, row', ent', it.raw⟩, none)
  else (⟨s.hi, 0, 0, it.raw⟩, none)

/-- One step of a concurrent execution (the steps of `ConcRun`, Model/Conc), with what is observed of it. -/
inductive CMove (cfg : Cfg) : CState → List CEvent → CState → Prop
  | inv {s : CState} (i : Nat) (c : Call) (h : s.thr i = none) : CMove cfg s [.inv i c] { s with thr := setN s.thr i (some (c, c.prog cfg)) }
  | raw {s : CState} {i : Nat} {c : Call} {p p' : Prog Resp} {t' : Tree} (h : s.thr i = some (c, p)) (hl : p.onLock = false) (hs : s.tree.Small)
      (hc : CStep cfg s.tree p t' p') : CMove cfg s [] { s with tree := t', thr := setN s.thr i (some (c, p')) }
  | lock {s : CState} {i l : Nat} {c : Call} {p : Prog Resp} (h : s.thr i = some (c, .lock l p)) (hf : s.locks l = none) :
      CMove cfg s [] { s with locks := setN s.locks l (some i), thr := setN s.thr i (some (c, p)) }
  | unlock {s : CState} {i : Nat} {c : Call} {p : Prog Resp} (h : s.thr i = some (c, .unlock p)) :
      CMove cfg s [] { s with locks := dropLocks s.locks i, thr := setN s.thr i (some (c, p)) }
  | ret {s : CState} {i : Nat} {c : Call} {p : Prog Resp} {r : Res Resp} (h : s.thr i = some (c, p)) (hr : p.result = some r) (hne : r ≠ .exhausted) :
      CMove cfg s [.ret i c r] { s with locks := dropLocks s.locks i, thr := setN s.thr i none }
  | bg {s : CState} {t' : Tree} (sel : Nat) (hs : s.tree.Small) (h : s.tree.bgStep cfg sel = some t') : CMove cfg s [] { s with tree := t' }

/-- An iteration from the given iterator position to its end, with the steps of the other threads in between: the pairs returned, what is observed of the other threads.
`P` holds of the store at every moment of the iteration. -/
inductive IterRun (cfg : Cfg) (P : Tree → Prop) : CState → It → List KV → List CEvent → CState → Prop
  | done {s : CState} {it : It} (hp : P s.tree) (h : END_OF_SHARDS ≤ it.sel) : IterRun cfg P s it [] [] s
  | tick {s s' : CState} {it it' : It} {o : Option KV} {kvs : List KV} {tr : List CEvent} (hp : P s.tree) (hlt : it.sel < END_OF_SHARDS)
      (h : It.tick s.tree it = (it', o)) (rest : IterRun cfg P s it' kvs tr s') : IterRun cfg P s it (o.toList ++ kvs) tr s'
  | move {s s1 s' : CState} {it : It} {kvs : List KV} {tr1 tr : List CEvent} (hp : P s.tree) (h : CMove cfg s tr1 s1) (rest : IterRun cfg P s1 it kvs tr s') :
      IterRun cfg P s it kvs (tr1 ++ tr) s'

/-- The entries of this row of the shard are in the target file of a running compaction (src/shard.rs:714-757). -/
def Shard.inTarget (s : Shard) (row : Nat) : Bool := match s.tgt with
  | none => false
  | some t => decide (row < t.compactedUpTo)

/-- Where the entry of user key `k` is stored: the depth of its shard in the tree (every split of the shard increases it), and whether its row is in the
target file of a running compaction. -/
def Tree.home (cfg : Cfg) (t : Tree) (k : Bytes) : Nat × Bool :=
  let ph := cfg.ph (userKey k)
  (t.depth ph.shardSel, (t.find ph.shardSel).inTarget ph.rowSel)

/-- The calls that may change the value of user key `k` (the key-value calls on `k` other than `get` and `contains`). -/
def Call.changesKey (k : Bytes) : Call → Prop
  | .kv k' op => k' = k ∧ op ≠ .get ∧ op ≠ .contains
  | _ => False

end Candy
