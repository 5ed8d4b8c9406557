import Verif.Model.Api
import Verif.Proofs.Pot
import Verif.Model.Crash
/-!
# Histories of a store

What can happen to a store between its creation and now: public calls, background compaction at any moment (also in the middle of a
call, between any two raw operations), `merge_small_shards`, `clear`, closing and reopening, and crashes of the process at any point
(inside a call, in background work, in `merge_small_shards`, and again while reopening).

`Tree.Small` (every shard file is below 4 GiB, and stays so when its running compaction ends) is required of every state in
which something is done: a file offset is a 32-bit field of a slot (src/shard.rs:246), and beyond that the store corrupts itself. It holds
as long as the bytes written to the store in total stay below 4 GiB (`Run.small_of_budget`).
-/
namespace Candy

/-- What the user can observe of one step of a history. -/
inductive Event where
  /-- a public call and its result -/
  | call (c : Call) (r : Res Resp)
  /-- `merge_small_shards` (src/store.rs:517-519) returned -/
  | merge (changed : Bool)
  /-- `clear` (src/store.rs:262-267) returned -/
  | clear
  /-- the store was closed and opened again, both successfully -/
  | reopen
  /-- the process died - inside call `c`, or with no call in progress - and the store was opened again -/
  | crash (c : Option Call)

/-- The call that was made or begun. -/
def Event.begun : Event → Option Call
  | .call c _ => some c
  | .crash c => c
  | _ => none

/-- The counters of all shards are exact (they always are unless the process crashed). -/
def Tree.Exact (t : Tree) : Prop := ∀ s ∈ t.leaves, s.AcctInv true

/-- When the effect of `merge_small_shards` is modelled: no shard with an empty span; the merged files stay below 4 GiB (guaranteed by the
limit on `max_fill_level`, src/router.rs:460, if the counters are exact); the number of items does not exceed what 65536 shards
hold. -/
structure MergeOK (cfg : Cfg) (maxFill : Nat) (t : Tree) : Prop where
  small : t.Small
  spans : ∀ s ∈ t.leaves, s.lo < s.hi
  fits : (t.Exact ∧ maxFill ≤ 14745) ∨ t.pot < 4294967296
  cap : ∀ t', t.finishAll cfg = some t' → (t'.leaves.map (fun s => s.getStats.numItems)).sum ≤ 65536 * 29491

/-- The process dies in state `t` - inside the call `c`, or outside any call - and leaves the directory `d` behind. -/
inductive Dies (cfg : Cfg) (t : Tree) : Option Call → Dir → Prop
  /-- in the middle of call `c`, when the rest `p` of it remains to be done -/
  | call {t1 : Tree} {c : Call} {p : Prog Resp} {d : Dir} (h : CExec cfg Tree.Small t (c.prog cfg) t1 p) (hs : t1.Small)
      (hn : ∀ s ∈ t1.leaves, s.lo < s.hi) (hd : CrashDir cfg t1 p d) : Dies cfg t (some c) d
  /-- between two calls (there may be background work) -/
  | idle {d : Dir} (hs : t.Small) (hn : ∀ s ∈ t.leaves, s.lo < s.hi) (hd : CrashDir cfg t (Prog.ret ()) d) : Dies cfg t none d
  /-- in `merge_small_shards` -/
  | merge {maxFill : Nat} {d : Dir} (hok : MergeOK cfg maxFill t) (hd : MergeCrashDir cfg maxFill t d) : Dies cfg t none d

/-- A history from one state of the store to another, with what was observed. -/
inductive Run (cfg : Cfg) : Tree → List Event → Tree → Prop
  | nil (t : Tree) : Run cfg t [] t
  /-- a call that finished (and did not exhaust the 2^63 indices of a list or queue); background steps may happen inside -/
  | call {t t' t'' : Tree} {c : Call} {p : Prog Resp} {r : Res Resp} {es : List Event} (h : CExec cfg Tree.Small t (c.prog cfg) t' p)
      (hr : p.result = some r) (hne : r ≠ .exhausted) (rest : Run cfg t' es t'') : Run cfg t (.call c r :: es) t''
  /-- a step of the background compaction of the shard owning `sel` -/
  | bg {t t' t'' : Tree} {es : List Event} (sel : Nat) (hs : t.Small) (h : t.bgStep cfg sel = some t')
      (rest : Run cfg t' es t'') : Run cfg t es t''
  | merge {t t' t'' : Tree} {es : List Event} {maxFill : Nat} {b : Bool} (hok : MergeOK cfg maxFill t)
      (h : t.mergeSmall cfg maxFill = .ok (t', b)) (rest : Run cfg t' es t'') : Run cfg t (.merge b :: es) t''
  | clear {t t' t'' : Tree} {es : List Event} (h : t.clear cfg = some t') (rest : Run cfg t' es t'') : Run cfg t (.clear :: es) t''
  /-- closing waits for the background compactions (`Drop`, src/shard.rs:1089-1093); `d` is the directory then -/
  | reopen {t u t' t'' : Tree} {es : List Event} {d : Dir} {ops : List FOp} {clearBad : Bool} (hs : t.Small) (hn : ∀ s ∈ t.leaves, s.lo < s.hi)
      (hu : t.finishAll cfg = some u) (hd : DirOf d u.leaves) (h : openStore cfg clearBad d = (ops, .ok t'))
      (rest : Run cfg t' es t'') : Run cfg t (.reopen :: es) t''
  /-- the process dies, and the store is opened again -/
  | crash {t t' t'' : Tree} {c : Option Call} {es : List Event} {d : Dir} {clearBad : Bool} (h : Dies cfg t c d)
      (hr : Restart cfg clearBad d t') (rest : Run cfg t' es t'') : Run cfg t (.crash c :: es) t''

/-- `t` is the state of a store after the history `es` since its creation. -/
def Reachable (cfg : Cfg) (es : List Event) (t : Tree) : Prop := ∃ t0, Tree.create cfg = some t0 ∧ Run cfg t0 es t

/-- The call finishes in state `t'` with result `r` (background compaction may run meanwhile). -/
def Calls (cfg : Cfg) (t : Tree) (c : Call) (r : Res Resp) (t' : Tree) : Prop :=
  ∃ p, CExec cfg Tree.Small t (c.prog cfg) t' p ∧ p.result = some r

/-- What `get(k)` returns in state `t` (src/store.rs:298-305). -/
def Tree.userGet (cfg : Cfg) (t : Tree) (k : Bytes) : Option Bytes := t.get cfg (userKey k)

end Candy
