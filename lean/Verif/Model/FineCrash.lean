import Verif.Model.Fine
import Verif.Model.Crash
/-!
# The process dies during a concurrent period

Every store to a shard file is a step of `FStep`, so that a process killed between any two of them leaves the files of the current state. Two operations consist of
several steps on files: `begin_compaction` and `split`; of those that are under way when the process is killed any part may have been performed (they exclude all other
accesses to their shards). The final `rename` of a compaction is one step.
-/
namespace Candy

/-- Operations on files under way in different shards are cut off anywhere. `los`: the starts of the shards dealt with already. -/
inductive Interrupted (cfg : Cfg) (S : FState) : List Nat → Dir → Dir → Prop
  | nil (los : List Nat) (d : Dir) : Interrupted cfg S los d d
  /-- `begin_compaction` (src/shard.rs:905-957) -/
  | begin {los : List Nat} {d d' d'' : Dir} {i : Nat} {c : Call} {p : Prog Resp} {op : ROp} {a : Ans} {off : Nat}
      (h : S.thr i = some (c, p, .out a (some off))) (ho : p.rop = some op)
      (hx : ¬ S.Busy cfg none (S.shard cfg op).lo (fun _ fl => fl.onFiles = true)) (hl : (S.shard cfg op).lo ∉ los)
      (hc : Dir.Crash d ((S.shard cfg op).beginOps off) d') (rest : Interrupted cfg S ((S.shard cfg op).lo :: los) d' d'') : Interrupted cfg S los d d''
  /-- `split` (src/router.rs:363-385, src/shard.rs:536-632); it would not leave a shard with an empty range (see C10) -/
  | split {los : List Nat} {d d' d'' : Dir} {i : Nat} {c : Call} {p : Prog Resp} {op : ROp}
      (h : S.thr i = some (c, p, .split (S.tree.depth (op.ph cfg).shardSel))) (ho : p.rop = some op)
      (hx : ¬ S.Busy cfg none (S.shard cfg op).lo (fun _ fl => fl.onNode = true)) (hq : (S.shard cfg op).tgt = none) (hf : (S.shard cfg op).Fits)
      (hd : (S.shard cfg op).lo + 1 < (S.shard cfg op).hi) (hl : (S.shard cfg op).lo ∉ los)
      (hc : Dir.Crash d ((S.shard cfg op).splitOps cfg) d') (rest : Interrupted cfg S ((S.shard cfg op).lo :: los) d' d'') : Interrupted cfg S los d d''

/-- The directory left behind by a process that is killed in this state. -/
def FineCrash (cfg : Cfg) (S : FState) (d : Dir) : Prop := ∃ d0, DirOf d0 S.tree.leaves ∧ Interrupted cfg S [] d0 d

end Candy
