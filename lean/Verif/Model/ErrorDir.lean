import Verif.Model.Errors
import Verif.Proofs.DirRun
/-!
# I/O errors, with the directory

As `Verif.Model.Errors`, but the directory is followed through the whole history: whatever a failed call leaves lying around stays there while other calls work, compactions
begin and end, shards are split and merged, and the process dies in the middle of any of this.
-/
namespace Candy

/-- One raw operation (`CStep`), with its file-system trace. The operation does not create a shard with an empty range (see C10). -/
inductive DStep (cfg : Cfg) {α : Type} : Tree → Prog α → Tree → Prog α → List FOp → Prop
  | get (t : Tree) (k c) : DStep cfg t (.get k c) t (c (t.get cfg k)) []
  | insErr (t : Tree) (k v mode c e) (hs : sizeErr cfg k v = some e) : DStep cfg t (.ins k v mode c) t (.err e) []
  | ins (t t' : Tree) (k v mode c st n) (hs : sizeErr cfg k v = none) (h : t.insert cfg (cfg.ph k) k v mode n = .ok (t', st))
      (hn : ∀ s ∈ t'.leaves, s.lo < s.hi) : DStep cfg t (.ins k v mode c) t' (c st) (t.insertOps cfg (cfg.ph k) k v mode n)
  | rem (t : Tree) (k c) : DStep cfg t (.rem k c) (t.remove cfg k).1 (c (t.remove cfg k).2) (t.removeOps cfg k)
  | byHash (t : Tree) (ph suf c) :
      DStep cfg t (.byHash ph suf c) t (c ((t.getByHash ph).filter (fun kv => endsWith kv.1 suf))) []
  | lock (t : Tree) (i c) : DStep cfg t (.lock i c) t c []
  | unlock (t : Tree) (c) : DStep cfg t (.unlock c) t c []

/-- Execution of a program in a directory, interleaved with steps of the background compaction threads. -/
inductive DExec (cfg : Cfg) {α : Type} : Tree → Dir → Prog α → Tree → Dir → Prog α → Prop
  | refl (t : Tree) (d : Dir) (p : Prog α) : DExec cfg t d p t d p
  | step {t t' t'' : Tree} {d d' d'' : Dir} {p p' p'' : Prog α} {ops : List FOp} (hs : t.Small) (h : DStep cfg t p t' p' ops) (hd : d.run ops = some d')
      (hr : DExec cfg t' d' p' t'' d'' p'') : DExec cfg t d p t'' d'' p''
  | bg {t t' t'' : Tree} {d d' d'' : Dir} {p p'' : Prog α} (sel : Nat) (hs : t.Small) (h : t.bgStep cfg sel = some t') (hd : d.run (t.bgOps cfg sel) = some d')
      (hr : DExec cfg t' d' p t'' d'' p'') : DExec cfg t d p t'' d'' p''

/-- `ShardRouter::insert` (src/router.rs:341-394) returns an I/O error (`InsFails`), leaving the given tree and directory. -/
inductive InsFailsD (cfg : Cfg) (ph : PH) (key val : Bytes) (mode : Mode) : Tree → Dir → Tree → Dir → Prop
  /-- reading a pair with the same signature fails (src/shard.rs:856) -/
  | read (s : Shard) (d : Dir) : InsFailsD cfg ph key val mode (.leaf s) d (.leaf s) d
  /-- writing the pair fails (src/shard.rs:880, 1015) -/
  | write {s : Shard} {d : Dir} {g : MFile} (h : (s.insertPlan cfg ph key val mode).1 ≠ []) (hw : WriteFails (s.active ph.rowSel) key val g) :
      InsFailsD cfg ph key val mode (.leaf s) d (.leaf (s.setActive ph.rowSel g)) (d.put (s.activeName ph.rowSel) (.good g))
  /-- the pair has been stored, but syncing it fails (src/shard.rs:885-889, 1025-1029; feature `flush_aggregation`) -/
  | sync {s : Shard} {d d' : Dir} (h : (s.insertPlan cfg ph key val mode).1 ≠ [])
      (hd : d.run (onFile (s.activeName ph.rowSel) (s.insertPlan cfg ph key val mode).1) = some d') :
      InsFailsD cfg ph key val mode (.leaf s) d (.leaf (s.runActive ph.rowSel (s.insertPlan cfg ph key val mode).1)) d'
  /-- the pair has been stored, but creating the file of the compaction that is due fails, at any point (src/shard.rs:941, 1044-1046, 175-191) -/
  | begin {s : Shard} {d d1 d' : Dir} {off : Nat} (h : (s.insertPlan cfg ph key val mode).2.2 = some off)
      (hd : d.run (onFile (s.activeName ph.rowSel) (s.insertPlan cfg ph key val mode).1) = some d1)
      (hc : Dir.Crash d1 ((s.runActive ph.rowSel (s.insertPlan cfg ph key val mode).1).beginOps off) d') :
      InsFailsD cfg ph key val mode (.leaf s) d (.leaf (s.runActive ph.rowSel (s.insertPlan cfg ph key val mode).1)) d'
  /-- a split is needed; the running compaction (if any) is waited for; then any system call of `split` fails (src/shard.rs:536-632; the deletion of the file of the
  shard is the last) and the shard stays. Its range can be halved. -/
  | split {s s' s'' : Shard} {d d1 d2 d' : Dir} (h : s.insert cfg ph key val mode = (s', .splitNeeded)) (hd : d.run (s.insertOps cfg ph key val mode) = some d1)
      (hf : s'.finish cfg = some s'') (hd2 : d1.run (s'.finishOps cfg) = some d2) (hw : s.lo + 1 < s.hi) (hc : Dir.Crash d2 (s''.splitOps cfg).dropLast d') :
      InsFailsD cfg ph key val mode (.leaf s) d (.leaf s'') d'
  /-- the split succeeds, and the loop goes on -/
  | afterSplit {s s' b t : Shard} {u : Tree} {d d1 d2 d' : Dir} (h : s.insert cfg ph key val mode = (s', .splitNeeded))
      (hd : d.run (s.insertOps cfg ph key val mode) = some d1) (hs : s'.split cfg = some (b, t)) (hd2 : d1.run (s'.splitOps cfg) = some d2) (hw : s.lo + 1 < s.hi)
      (hr : InsFailsD cfg ph key val mode (.vertex (.leaf b) (.leaf t)) d2 u d') : InsFailsD cfg ph key val mode (.leaf s) d u d'
  | bottom {b t b' : Tree} {d d' : Dir} (h : ph.shardSel < b.hi) (hr : InsFailsD cfg ph key val mode b d b' d') :
      InsFailsD cfg ph key val mode (.vertex b t) d (.vertex b' t) d'
  | top {b t t' : Tree} {d d' : Dir} (h : ¬ ph.shardSel < b.hi) (hr : InsFailsD cfg ph key val mode t d t' d') :
      InsFailsD cfg ph key val mode (.vertex b t) d (.vertex b t') d'

/-- The next raw operation of a program returns an I/O error (`OpFails`), leaving the given tree and directory. -/
inductive OpFailsD (cfg : Cfg) {α : Type} (t : Tree) (d : Dir) : Prog α → Tree → Dir → Prop
  | get (k : Bytes) (c : Option Bytes → Prog α) : OpFailsD cfg t d (.get k c) t d
  | byHash (ph : PH) (suf : Bytes) (c : List KV → Prog α) : OpFailsD cfg t d (.byHash ph suf c) t d
  | rem (k : Bytes) (c : Option Bytes → Prog α) : OpFailsD cfg t d (.rem k c) t d
  | remSync {d' : Dir} (k : Bytes) (c : Option Bytes → Prog α) (hd : d.run (t.removeOps cfg k) = some d') : OpFailsD cfg t d (.rem k c) (t.remove cfg k).1 d'
  | ins {k v : Bytes} {mode : Mode} {t' : Tree} {d' : Dir} (c : InsStatus → Prog α) (hs : sizeErr cfg k v = none)
      (h : InsFailsD cfg (cfg.ph k) k v mode t d t' d') : OpFailsD cfg t d (.ins k v mode c) t' d'

/-- The background threads go on for a while and are killed (`BgCrash`). They work on shards of the open store, whose files are not covered by other shard files. -/
inductive BgCrashD (cfg : Cfg) : Dir → Dir → Prop
  | refl (d : Dir) : BgCrashD cfg d d
  | step {d d' d'' : Dir} (s : Shard) (f : MFile) (hs : d.find s.srcName = some (.good s.src)) (ht : s.tgt = some f)
      (hf : d.find s.tgtName = some (.good f)) (hlive : ∀ a b, d.find ⟨.shard, a, b⟩ ≠ none → a ≤ s.lo → s.hi ≤ b → a = s.lo ∧ b = s.hi) (hsm : s.Small)
      (h : Dir.Crash d (s.bgOps cfg) d') (rest : BgCrashD cfg d' d'') : BgCrashD cfg d d''

/-- The store is opened, perhaps after more crashes while opening (`Restart`), and the directory is then `d'`. -/
inductive RestartD (cfg : Cfg) (clearBad : Bool) : Dir → Tree → Dir → Prop
  | done {d d' : Dir} {ops : List FOp} {t : Tree} (hs : d.Sized) (h : openStore cfg clearBad d = (ops, .ok t)) (hd : d.run ops = some d') :
      RestartD cfg clearBad d t d'
  | again {d d1 d' : Dir} {t : Tree} (hs : d.Sized) (h : Dir.Crash d (openStore cfg clearBad d).1 d1) (rest : RestartD cfg clearBad d1 t d') :
      RestartD cfg clearBad d t d'

/-- A history of the store and its directory in which calls may end with I/O errors. -/
inductive DRun (cfg : Cfg) : Tree → Dir → List EEvent → Tree → Dir → Prop
  | nil (t : Tree) (d : Dir) : DRun cfg t d [] t d
  /-- a call that returned (with a result or an error of its own) -/
  | call {t t1 t' : Tree} {d d1 d' : Dir} {c : Call} {p : Prog Resp} {r : Res Resp} {es : List EEvent} (h : DExec cfg t d (c.prog cfg) t1 d1 p)
      (hr : p.result = some r) (hne : r ≠ .exhausted) (rest : DRun cfg t1 d1 es t' d') : DRun cfg t d (.done (.call c r) :: es) t' d'
  /-- a call that ended with an I/O error: some of its raw operations are done, the next one fails -/
  | failed {t t1 t2 t' : Tree} {d d1 d2 d' : Dir} {c : Call} {p : Prog Resp} {es : List EEvent} (h : DExec cfg t d (c.prog cfg) t1 d1 p) (hs : t1.Small)
      (hf : OpFailsD cfg t1 d1 p t2 d2) (rest : DRun cfg t2 d2 es t' d') : DRun cfg t d (.failed c :: es) t' d'
  | bg {t t1 t' : Tree} {d d1 d' : Dir} {es : List EEvent} (sel : Nat) (hs : t.Small) (h : t.bgStep cfg sel = some t1)
      (hd : d.run (t.bgOps cfg sel) = some d1) (rest : DRun cfg t1 d1 es t' d') : DRun cfg t d es t' d'
  /-- `merge_small_shards` (src/router.rs:459-498) without the final `load` (it returns before, if there are not too many shards, 473-475) -/
  | merge {t t1 t' : Tree} {d d1 d' : Dir} {es : List EEvent} {maxFill : Nat} {b : Bool} (hok : MergeOK cfg maxFill t) (h : t.mergeSmall cfg maxFill = .ok (t1, b))
      (hd : d.run (t.mergeSmallOps cfg maxFill) = some d1) (rest : DRun cfg t1 d1 es t' d') : DRun cfg t d (.done (.merge b) :: es) t' d'
  /-- with the final `load` (488-492), which deletes remains and finishes "interrupted" compactions -/
  | mergeLoad {t t1 t2 t' : Tree} {d d1 d2 d' : Dir} {es : List EEvent} {maxFill : Nat} {b clearBad : Bool} {ops : List FOp} (hok : MergeOK cfg maxFill t)
      (h : t.mergeSmall cfg maxFill = .ok (t1, b)) (hd : d.run (t.mergeSmallOps cfg maxFill) = some d1) (hz : d1.Sized)
      (ho : openStore cfg clearBad d1 = (ops, .ok t2)) (hd2 : d1.run ops = some d2) (rest : DRun cfg t2 d2 es t' d') : DRun cfg t d (.done (.merge b) :: es) t' d'
  /-- `clear`, with no compaction running (see C74) -/
  | clear {t t1 t' : Tree} {d d1 d' : Dir} {es : List EEvent} (hq : ∀ s ∈ t.leaves, s.tgt = none) (h : t.clear cfg = some t1) (hd : d.run (clearOps cfg d) = some d1)
      (rest : DRun cfg t1 d1 es t' d') : DRun cfg t d (.done .clear :: es) t' d'
  /-- closing waits for the compactions; then the store is opened, perhaps dying while opening -/
  | reopen {t u t1 t' : Tree} {d d1 d2 d' : Dir} {es : List EEvent} {clearBad : Bool} (hs : t.Small) (hu : t.finishAll cfg = some u)
      (hd : d.run (t.finishOps cfg) = some d1) (h : RestartD cfg clearBad d1 t1 d2) (rest : DRun cfg t1 d2 es t' d') : DRun cfg t d (.done .reopen :: es) t' d'
  /-- the process dies in the middle of call `c`, when the rest `p` of it remains to be done, and the store is opened again -/
  | crash {t t1 t2 t' : Tree} {d d1 d2 d3 d4 d' : Dir} {c : Call} {p : Prog Resp} {es : List EEvent} {clearBad : Bool} (h : DExec cfg t d (c.prog cfg) t1 d1 p)
      (hs : t1.Small) (hc : OpCrash cfg t1 p d1 d2) (hb : BgCrashD cfg d2 d3) (hr : RestartD cfg clearBad d3 t2 d4) (rest : DRun cfg t2 d4 es t' d') :
      DRun cfg t d (.done (.crash (some c)) :: es) t' d'
  /-- the process dies between two calls -/
  | crashIdle {t t1 t' : Tree} {d d1 d2 d' : Dir} {es : List EEvent} {clearBad : Bool} (hs : t.Small) (hb : BgCrashD cfg d d1)
      (hr : RestartD cfg clearBad d1 t1 d2) (rest : DRun cfg t1 d2 es t' d') : DRun cfg t d (.done (.crash none) :: es) t' d'
  /-- the process dies in `merge_small_shards`, before the final `load` (dying in the `load` is dying while opening) -/
  | crashMerge {t t1 t' : Tree} {d d1 d2 d3 d' : Dir} {es : List EEvent} {maxFill : Nat} {clearBad : Bool} (hok : MergeOK cfg maxFill t)
      (hc : Dir.Crash d (t.mergeSmallOps cfg maxFill) d1) (hb : BgCrashD cfg d1 d2) (hr : RestartD cfg clearBad d2 t1 d3) (rest : DRun cfg t1 d3 es t' d') :
      DRun cfg t d (.done (.crash none) :: es) t' d'

/-- `t` and `d` are the state and the directory of a store after a history in which calls may have failed, since its creation in an empty directory. -/
def DReachable (cfg : Cfg) (es : List EEvent) (t : Tree) (d : Dir) : Prop :=
  ∃ (clearBad : Bool) (ops : List FOp) (t0 : Tree) (d0 : Dir), openStore cfg clearBad [] = (ops, .ok t0) ∧ Dir.run [] ops = some d0 ∧ DRun cfg t0 d0 es t d

end Candy
