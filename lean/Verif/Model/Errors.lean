import Verif.Model.History
import Verif.Proofs.CrashShard
/-!
# I/O errors

`Verif.Model.Shard` describes what happens when every system call succeeds. Here a system call may fail at any point: reading a pair
(`read_kv`), writing a pair (`write_kv`), creating the file of a new compaction (`begin_compaction`), any system call of `split`, and (with
the feature `flush_aggregation`) syncing after the update. The error is passed on by `?` (there is no place in src/lists.rs,
src/queues.rs or src/store.rs where an error of a raw operation is swallowed), so the public call ends with an error and the raw
operations it has already done stay done. The program keeps running, with the store open.

The file-system residue of a failed `split` (temporary files, and files of one or both halves already renamed, src/shard.rs:593-610) and of a
compaction target whose creation failed (src/shard.rs:175-191) is
described by `LeftDir`: it lies around until the next opening, which deletes it. Errors of the background compaction and of `merge_small_shards` are not described here; an opening that fails with an error after some of its work is an opening that is cut off (`Restart.again`).
-/
namespace Candy

/-- `write_kv` (src/shard.rs:229-247) fails: the area has been allocated, and anything may be written in it. -/
def WriteFails (f : MFile) (k v : Bytes) (g : MFile) : Prop :=
  ∃ data : Nat → UInt8, (∀ i, ¬ (f.writeOff ≤ i ∧ i < f.writeOff + (k ++ v).length) → data i = f.data i) ∧
    g = { f with writeOff := f.writeOff + (k.length + v.length), data := data }

/-- `ShardRouter::insert` (src/router.rs:341-394) returns an I/O error, leaving the given tree; the flag tells whether the directory may
now hold remains of a failed `split` or of a compaction that could not begin. -/
inductive InsFails (cfg : Cfg) (ph : PH) (key val : Bytes) (mode : Mode) : Tree → Tree → Bool → Prop
  /-- reading a pair with the same signature fails (src/shard.rs:856) -/
  | read (s : Shard) : InsFails cfg ph key val mode (.leaf s) (.leaf s) false
  /-- writing the pair fails (src/shard.rs:880, 1015) -/
  | write {s : Shard} {g : MFile} (h : (s.insertPlan cfg ph key val mode).1 ≠ []) (hw : WriteFails (s.active ph.rowSel) key val g) :
      InsFails cfg ph key val mode (.leaf s) (.leaf (s.setActive ph.rowSel g)) false
  /-- the pair has been stored, but syncing it fails (src/shard.rs:885-889, 1025-1029; feature `flush_aggregation`) -/
  | sync {s : Shard} (h : (s.insertPlan cfg ph key val mode).1 ≠ []) :
      InsFails cfg ph key val mode (.leaf s) (.leaf (s.runActive ph.rowSel (s.insertPlan cfg ph key val mode).1)) false
  /-- the pair has been stored, but the file of the compaction that is due cannot be created (src/shard.rs:941, 1044-1046) -/
  | begin {s : Shard} {off : Nat} (h : (s.insertPlan cfg ph key val mode).2.2 = some off) :
      InsFails cfg ph key val mode (.leaf s) (.leaf (s.runActive ph.rowSel (s.insertPlan cfg ph key val mode).1)) true
  /-- a split is needed; the running compaction (if any) is waited for; then the split fails (src/shard.rs:536-632) and the shard stays -/
  | split {s s' s'' : Shard} (h : s.insert cfg ph key val mode = (s', .splitNeeded)) (hf : s'.finish cfg = some s'') :
      InsFails cfg ph key val mode (.leaf s) (.leaf s'') true
  /-- the split succeeds, and the loop goes on -/
  | afterSplit {s s' b t : Shard} {u : Tree} {x : Bool} (h : s.insert cfg ph key val mode = (s', .splitNeeded)) (hs : s'.split cfg = some (b, t))
      (hr : InsFails cfg ph key val mode (.vertex (.leaf b) (.leaf t)) u x) : InsFails cfg ph key val mode (.leaf s) u x
  | bottom {b t b' : Tree} {x : Bool} (h : ph.shardSel < b.hi) (hr : InsFails cfg ph key val mode b b' x) :
      InsFails cfg ph key val mode (.vertex b t) (.vertex b' t) x
  | top {b t t' : Tree} {x : Bool} (h : ¬ ph.shardSel < b.hi) (hr : InsFails cfg ph key val mode t t' x) :
      InsFails cfg ph key val mode (.vertex b t) (.vertex b t') x

/-- The next raw operation of a program returns an I/O error, leaving the given tree. -/
inductive OpFails (cfg : Cfg) {α : Type} (t : Tree) : Prog α → Tree → Bool → Prop
  /-- `get_raw` (src/store.rs:290-294): `read_kv` fails -/
  | get (k : Bytes) (c : Option Bytes → Prog α) : OpFails cfg t (.get k c) t false
  /-- `get_by_hash` (src/store.rs:284-288) -/
  | byHash (ph : PH) (suf : Bytes) (c : List KV → Prog α) : OpFails cfg t (.byHash ph suf c) t false
  /-- `remove_raw` (src/store.rs:317-321): `read_kv` fails (src/shard.rs:1055) -/
  | rem (k : Bytes) (c : Option Bytes → Prog α) : OpFails cfg t (.rem k c) t false
  /-- `remove_raw`: the key has been removed, but syncing fails (src/shard.rs:1063-1067; feature `flush_aggregation`) -/
  | remSync (k : Bytes) (c : Option Bytes → Prog α) : OpFails cfg t (.rem k c) (t.remove cfg k).1 false
  /-- `insert_internal` (src/store.rs:334-359) -/
  | ins {k v : Bytes} {mode : Mode} {t' : Tree} {x : Bool} (c : InsStatus → Prog α) (hs : sizeErr cfg k v = none)
      (h : InsFails cfg (cfg.ph k) k v mode t t' x) : OpFails cfg t (.ins k v mode c) t' x

/-- The call `c` ends with an I/O error, leaving `t'`: some of its raw operations are done, the next one fails. -/
def CallFails (cfg : Cfg) (t : Tree) (c : Call) (t' : Tree) (x : Bool) : Prop :=
  ∃ t1 p, CExec cfg Tree.Small t (c.prog cfg) t1 p ∧ t1.Small ∧ OpFails cfg t1 p t' x

/-- The directory holds the files of the given shards and the remains of operations that failed: temporary files, shard files (halves written by a
failed `split`) that are covered by one of the shards, and the file, without contents, of a compaction that could not begin. -/
structure LeftDir (d : Dir) (l : List Shard) : Prop where
  nodup : (d.map Prod.fst).Nodup
  src : ∀ s ∈ l, d.find s.srcName = some (.good s.src)
  tgt : ∀ s ∈ l, d.find s.tgtName = s.tgt.map .good ∨
    (s.tgt = none ∧ (d.find s.tgtName = some .zero ∨ d.find s.tgtName = some .blank ∨ d.find s.tgtName = some (.good MFile.empty)))
  shards : ∀ a b, d.find ⟨.shard, a, b⟩ ≠ none → a < b ∧ ∃ s ∈ l, s.lo ≤ a ∧ b ≤ s.hi
  compacts : ∀ a b, d.find ⟨.compact, a, b⟩ ≠ none → ∃ s ∈ l, s.lo = a ∧ s.hi = b

/-- What is observed in one step of a history in which calls may fail. -/
inductive EEvent where
  /-- a step without I/O error -/
  | done (e : Event)
  /-- the call returned an I/O error -/
  | failed (c : Call)

/-- The same history, with "the process died during the call, and the store was opened again" in place of "the call returned an I/O error" (used
to state properties). -/
def EEvent.asIfDied : EEvent → Event
  | .done e => e
  | .failed c => .crash (some c)

/-- A history of the store in which calls may end with I/O errors. The flag tells whether the directory may hold remains of failed calls;
a crash in the middle of a call is described only if not. -/
inductive ERun (cfg : Cfg) : Tree → Bool → List EEvent → Tree → Bool → Prop
  | nil (t : Tree) (x : Bool) : ERun cfg t x [] t x
  /-- anything that can happen without I/O errors, in a directory without remains -/
  | clean {t t' t'' : Tree} {x : Bool} {es : List Event} {es' : List EEvent} (h : Run cfg t es t') (rest : ERun cfg t' false es' t'' x) :
      ERun cfg t false (es.map .done ++ es') t'' x
  /-- a call that returned (with a result or an error of its own) -/
  | call {t t' t'' : Tree} {x x' : Bool} {c : Call} {p : Prog Resp} {r : Res Resp} {es : List EEvent}
      (h : CExec cfg Tree.Small t (c.prog cfg) t' p) (hr : p.result = some r) (hne : r ≠ .exhausted) (rest : ERun cfg t' x es t'' x') :
      ERun cfg t x (.done (.call c r) :: es) t'' x'
  /-- a call that ended with an I/O error -/
  | failed {t t' t'' : Tree} {x y x' : Bool} {c : Call} {es : List EEvent} (h : CallFails cfg t c t' y) (rest : ERun cfg t' (x || y) es t'' x') :
      ERun cfg t x (.failed c :: es) t'' x'
  | bg {t t' t'' : Tree} {x x' : Bool} {es : List EEvent} (sel : Nat) (hs : t.Small) (h : t.bgStep cfg sel = some t')
      (rest : ERun cfg t' x es t'' x') : ERun cfg t x es t'' x'
  | merge {t t' t'' : Tree} {x x' : Bool} {es : List EEvent} {maxFill : Nat} {b : Bool} (hok : MergeOK cfg maxFill t)
      (h : t.mergeSmall cfg maxFill = .ok (t', b)) (rest : ERun cfg t' x es t'' x') : ERun cfg t x (.done (.merge b) :: es) t'' x'
  | clear {t t' t'' : Tree} {x x' : Bool} {es : List EEvent} (h : t.clear cfg = some t') (rest : ERun cfg t' false es t'' x') :
      ERun cfg t x (.done .clear :: es) t'' x'
  | reopen {t u t' t'' : Tree} {x x' : Bool} {es : List EEvent} {d : Dir} {clearBad : Bool} (hs : t.Small) (hn : ∀ s ∈ t.leaves, s.lo < s.hi)
      (hu : t.finishAll cfg = some u) (hd : LeftDir d u.leaves) (h : Restart cfg clearBad d t') (rest : ERun cfg t' false es t'' x') :
      ERun cfg t x (.done .reopen :: es) t'' x'
  /-- the process dies between two calls -/
  | crash {t t' t'' : Tree} {x x' : Bool} {es : List EEvent} {d0 d : Dir} {clearBad : Bool} (hs : t.Small) (hn : ∀ s ∈ t.leaves, s.lo < s.hi)
      (hd : LeftDir d0 t.leaves) (hb : BgCrash cfg d0 d) (hr : Restart cfg clearBad d t') (rest : ERun cfg t' false es t'' x') :
      ERun cfg t x (.done (.crash none) :: es) t'' x'

/-- `t` is the state of a store after a history in which calls may have failed, since its creation. -/
def EReachable (cfg : Cfg) (es : List EEvent) (t : Tree) : Prop := ∃ t0 x, Tree.create cfg = some t0 ∧ ERun cfg t0 false es t x

end Candy
