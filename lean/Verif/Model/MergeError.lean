import Verif.Model.Errors
/-!
# `merge_small_shards` fails

`merge_small_shards` (src/router.rs:459-498) waits for the compactions, merges files (`_merge`, 396-457; src/shard.rs:634-712) and then loads the directory
again and puts the new tree in place of the old one. If a system call fails on the way, the error is passed on by `?`, and the tree in memory is still
the old one: it goes on using its open files, some of which may no longer be in the directory, or be covered by a merged file.

Simplification: the error of a background compaction that is waited for is not described here (C77), nor a failing merge in a directory with remains of other failed
calls.
-/
namespace Candy

/-- `merge_small_shards` returns an I/O error. `t` is the tree before, `u` after waiting for the compactions; `u` stays in memory. `d` is the directory left. -/
inductive MergeFails (cfg : Cfg) (maxFill : Nat) (t u : Tree) (d : Dir) : Prop
  /-- in `_merge`: at any point, any `write_kv` having written anything into its area (src/router.rs:484) -/
  | merging {d0 : Dir} (hok : MergeOK cfg maxFill t) (hu : t.finishAll cfg = some u) (hd : DirOf d0 u.leaves)
      (hc : Dir.Crash d0 (u.mergeSmallOps cfg maxFill) d)
  /-- in `load`, when the merging is done (src/router.rs:488-492) -/
  | loading {d0 d1 : Dir} {clearBad : Bool} (hok : MergeOK cfg maxFill t) (hu : t.finishAll cfg = some u) (hd : DirOf d0 u.leaves)
      (hr : d0.run (u.mergeSmallOps cfg maxFill) = some d1) (hz : d1.Sized) (hc : Dir.Crash d1 (load cfg clearBad d1).1 d)

/-- What is known about the directory. -/
inductive Disk where
  /-- it has the files of the tree (and perhaps, if the flag is set, remains of failed calls, see `ERun`) -/
  | agrees (x : Bool)
  /-- a merge has failed and left this -/
  | left (d : Dir)
  /-- a merge has failed, and then the open store has been written to -/
  | lost

inductive MEvent where
  | done (e : Event)
  /-- the call returned an I/O error -/
  | failed (c : Call)
  /-- `merge_small_shards` returned an I/O error -/
  | mergeFailed

def EEvent.asM : EEvent → MEvent
  | .done e => .done e
  | .failed c => .failed c

/-- The same history with "the process died during the call, and the store was opened again" in place of "the call returned an error", and "nothing changed" in place
of "`merge_small_shards` returned an error" (used to state properties). -/
def MEvent.asIfDied : MEvent → Event
  | .done e => e
  | .failed c => .crash (some c)
  | .mergeFailed => .merge false

/-- A history in which calls and merges may fail with I/O errors. The store is not reopened if after a failed merge it has been written to. -/
inductive MRun (cfg : Cfg) : Tree → Disk → List MEvent → Tree → Disk → Prop
  | nil (t : Tree) (k : Disk) : MRun cfg t k [] t k
  /-- anything else, as in C76 -/
  | other {t t' t'' : Tree} {x x' : Bool} {k : Disk} {es : List EEvent} {es' : List MEvent} (h : ERun cfg t x es t' x') (rest : MRun cfg t' (.agrees x') es' t'' k) :
      MRun cfg t (.agrees x) (es.map EEvent.asM ++ es') t'' k
  | mergeFails {t u t'' : Tree} {d : Dir} {k : Disk} {maxFill : Nat} {es : List MEvent} (h : MergeFails cfg maxFill t u d) (rest : MRun cfg u (.left d) es t'' k) :
      MRun cfg t (.agrees false) (.mergeFailed :: es) t'' k
  /-- a call on the store that is still open, after a failed merge -/
  | call {t t' t'' : Tree} {k k' k'' : Disk} {c : Call} {p : Prog Resp} {r : Res Resp} {es : List MEvent} (h : CExec cfg Tree.Small t (c.prog cfg) t' p)
      (hr : p.result = some r) (hne : r ≠ .exhausted) (hk : (k' = k ∧ t' = t) ∨ k' = .lost) (rest : MRun cfg t' k' es t'' k'') : MRun cfg t k (.done (.call c r) :: es) t'' k''
  /-- a call that returned an I/O error, after a failed merge (for instance a `split` that cannot delete its file) -/
  | failed {t t' t'' : Tree} {k k' k'' : Disk} {y : Bool} {c : Call} {es : List MEvent} (h : CallFails cfg t c t' y)
      (hk : (k' = k ∧ t' = t ∧ y = false) ∨ k' = .lost) (rest : MRun cfg t' k' es t'' k'') :
      MRun cfg t k (.failed c :: es) t'' k''
  | bg {t t' t'' : Tree} {k k'' : Disk} {es : List MEvent} (sel : Nat) (hs : t.Small) (h : t.bgStep cfg sel = some t') (rest : MRun cfg t' .lost es t'' k'') :
      MRun cfg t k es t'' k''
  | clear {t t' t'' : Tree} {k k'' : Disk} {es : List MEvent} (h : t.clear cfg = some t') (rest : MRun cfg t' (.agrees false) es t'' k'') :
      MRun cfg t k (.done .clear :: es) t'' k''
  /-- the store is closed and opened after a failed merge -/
  | reopen {t t' t'' : Tree} {d : Dir} {k'' : Disk} {es : List MEvent} {clearBad : Bool} (h : Restart cfg clearBad d t') (rest : MRun cfg t' (.agrees false) es t'' k'') :
      MRun cfg t (.left d) (.done .reopen :: es) t'' k''

/-- The state of a store after a history in which calls and merges may have failed, since its creation. -/
def MReachable (cfg : Cfg) (es : List MEvent) (t : Tree) (k : Disk) : Prop := ∃ t0, Tree.create cfg = some t0 ∧ MRun cfg t0 (.agrees false) es t k

/-- After a failed merge the open store has come to `u'` by stores to its files, without splitting or compacting. Those of its files that still have a name
follow in the directory; nothing else changes there. -/
structure Follow (d : Dir) (u' : Tree) (d' : Dir) : Prop where
  names : d'.map Prod.fst = d.map Prod.fst
  files : ∀ s ∈ u'.leaves, d.find s.srcName ≠ none → d'.find s.srcName = some (.good s.src)
  other : ∀ n : FName, (∀ s ∈ u'.leaves, s.srcName ≠ n) → d'.find n = d.find n

end Candy
