import Verif.Model.Errors
/-!
# Background compactions that fail

A background compaction that meets an I/O error ends (src/shard.rs:495-525, 968): its thread returns the error, which waits in the handle of the
compaction; `files.1` stays set. From then on the shard is *dead*: it looks like one with a running compaction that makes no progress. Rows that have been
compacted are served from the target, the others from the source, and no further compaction begins (`is_compacting` is true). The error is
delivered to the first who asks for the handle (`handle.take().wait()?`): a `split` (src/shard.rs:537-540), or `get_stats` of `merge_small_shards` (1077);
that call fails, and the handle is gone. Whoever comes next takes `files.0` for the contents of the shard: `split` and `merge` then use
the source alone. Closing the store ignores the error (1089-1093), and opening it resumes the compaction (427-438).

Simplifications: no crash in the middle of a call; `merge_small_shards` is described only if all dead shards are merged with others
(otherwise it would resume their compaction when it loads the directory again).
-/
namespace Candy

/-- `background_compact` (src/shard.rs:959-978) fails: while copying a row (the stores of the row have been done up to some point, or a write has been
done in part; `compacted_up_to` is not incremented), or with the final `rename`. -/
inductive Shard.BgFails (cfg : Cfg) (s : Shard) : Shard → Prop
  | row {t g : MFile} {ps : List Prim} (ht : s.tgt = some t) (hlt : t.compactedUpTo < NUM_ROWS)
      (hp : copyPrims cfg (t.compactedUpTo == 0) t.compactedUpTo t 0 (s.src.liveRow t.compactedUpTo) = some ps) (hc : MFile.Crash t ps g) :
      Shard.BgFails cfg s { s with tgt := some g }
  | rename {t : MFile} (ht : s.tgt = some t) (hge : NUM_ROWS ≤ t.compactedUpTo) : Shard.BgFails cfg s s

def Shard.place (s : Shard) : Span := (s.lo, s.hi)

/-- The store, the dead shards, and those of them whose error has not been delivered yet. -/
structure BState where
  tree : Tree
  dead : List Span
  unread : List Span

/-- A step of a background thread. -/
inductive BgStep (cfg : Cfg) (S : BState) : BState → Prop
  | work {t' : Tree} (sel : Nat) (hs : S.tree.Small) (hd : (S.tree.find sel).place ∉ S.dead) (h : S.tree.bgStep cfg sel = some t') :
      BgStep cfg S { S with tree := t' }
  | fail {s' : Shard} (sel : Nat) (hs : S.tree.Small) (hd : (S.tree.find sel).place ∉ S.dead) (h : (S.tree.find sel).BgFails cfg s') :
      BgStep cfg S ⟨S.tree.modify sel (fun _ => s'), (S.tree.find sel).place :: S.dead, (S.tree.find sel).place :: S.unread⟩

/-- The next raw operation of the program is an insertion that wants to split a dead shard. -/
def BState.stuck (cfg : Cfg) {α : Type} (S : BState) : Prog α → Prop
  | .ins k v mode _ => sizeErr cfg k v = none ∧ (S.tree.find (cfg.ph k).shardSel).place ∈ S.dead ∧
      ((S.tree.find (cfg.ph k).shardSel).insert cfg (cfg.ph k) k v mode).2 = .splitNeeded
  | _ => False

/-- The shard used by an insertion. -/
def BState.target (cfg : Cfg) {α : Type} (S : BState) : Prog α → Shard
  | .ins k _ _ _ => S.tree.find (cfg.ph k).shardSel
  | _ => S.tree.find 0

/-- The leaf that owns `sel` becomes a vertex (src/router.rs:362-386). -/
def Tree.graft : Tree → Nat → Shard → Shard → Tree
  | .leaf _, _, b, t => .vertex (.leaf b) (.leaf t)
  | .vertex x y, sel, b, t => if sel < x.hi then .vertex (x.graft sel b t) y else .vertex x (y.graft sel b t)

/-- Execution of a program. With `safe = true`, no dead shard is split. -/
inductive BExec (cfg : Cfg) (safe : Bool) {α : Type} : BState → Prog α → BState → Prog α → Prop
  | refl (S : BState) (p : Prog α) : BExec cfg safe S p S p
  | step {S S'' : BState} {p p' p'' : Prog α} {t' : Tree} (hs : S.tree.Small) (hn : ¬ S.stuck cfg p) (h : CStep cfg S.tree p t' p')
      (rest : BExec cfg safe { S with tree := t' } p' S'' p'') : BExec cfg safe S p S'' p''
  | bg {S S' S'' : BState} {p p'' : Prog α} (h : BgStep cfg S S') (rest : BExec cfg safe S' p S'' p'') : BExec cfg safe S p S'' p''
  /-- a dead shard whose error has been delivered is split: the contents of its target are ignored -/
  | split {S S'' : BState} {p'' : Prog α} {k v : Bytes} {mode : Mode} {c : InsStatus → Prog α} {b t : Shard} (hsafe : safe = false) (hs : S.tree.Small)
      (hn : S.stuck cfg (.ins k v mode c)) (hu : (S.tree.find (cfg.ph k).shardSel).place ∉ S.unread)
      (hsp : Shard.split cfg { S.tree.find (cfg.ph k).shardSel with tgt := none } = some (b, t))
      (rest : BExec cfg safe ⟨S.tree.graft (cfg.ph k).shardSel b t, S.dead.filter (· ≠ (S.tree.find (cfg.ph k).shardSel).place), S.unread⟩ (.ins k v mode c) S'' p'') :
      BExec cfg safe S (.ins k v mode c) S'' p''

/-- The tree with `files.1` of the dead shards ignored. -/
def Tree.dropDead (dead : List Span) : Tree → Tree
  | .leaf s => .leaf (if s.place ∈ dead then { s with tgt := none } else s)
  | .vertex b t => .vertex (b.dropDead dead) (t.dropDead dead)

/-- Waiting for the compactions that are still alive (`Drop`, src/shard.rs:1089-1093). -/
def Tree.finishLive (cfg : Cfg) (dead : List Span) : Tree → Option Tree
  | .leaf s => if s.place ∈ dead then some (.leaf s) else (s.finish cfg).map .leaf
  | .vertex b t =>
    match b.finishLive cfg dead, t.finishLive cfg dead with
    | some b', some t' => some (.vertex b' t')
    | _, _ => none

/-- The target has entries in rows that have not been compacted: the compaction failed in the middle of a row. -/
def Shard.Leftover (s : Shard) : Prop := ∃ t r c, s.tgt = some t ∧ t.compactedUpTo ≤ r ∧ r < NUM_ROWS ∧ c < ROW_WIDTH ∧ (t.slot r c).sig ≠ INVALID_SIG

/-- What is observed. -/
inductive BEvent where
  | done (e : Event)
  /-- the call returned the error of the failed compaction -/
  | failed (c : Call)
  /-- `merge_small_shards` returned the error of a failed compaction -/
  | mergeFailed

/-- The same history with "the process died during the call, and the store was opened again" in place of "the call returned an error", and "nothing changed" in place
of "`merge_small_shards` returned an error" (used to state properties). -/
def BEvent.asIfDied : BEvent → Event
  | .done e => e
  | .failed c => .crash (some c)
  | .mergeFailed => .merge false

/-- A history in which background compactions may fail. With `safe = true`, no dead shard is split or merged, and the store is not
opened again when a compaction has failed in the middle of a row. -/
inductive BRun (cfg : Cfg) (safe : Bool) : BState → List BEvent → BState → Prop
  | nil (S : BState) : BRun cfg safe S [] S
  | call {S S' S'' : BState} {c : Call} {p : Prog Resp} {r : Res Resp} {es : List BEvent} (h : BExec cfg safe S (c.prog cfg) S' p) (hr : p.result = some r)
      (hne : r ≠ .exhausted) (rest : BRun cfg safe S' es S'') : BRun cfg safe S (.done (.call c r) :: es) S''
  /-- a call that needs to split a dead shard and is given its error -/
  | failed {S S' S'' : BState} {c : Call} {p : Prog Resp} {es : List BEvent} (h : BExec cfg safe S (c.prog cfg) S' p) (hn : S'.stuck cfg p)
      (hu : (S'.target cfg p).place ∈ S'.unread) (rest : BRun cfg safe { S' with unread := S'.unread.filter (· ≠ (S'.target cfg p).place) } es S'') :
      BRun cfg safe S (.failed c :: es) S''
  | bg {S S' S'' : BState} {es : List BEvent} (h : BgStep cfg S S') (rest : BRun cfg safe S' es S'') : BRun cfg safe S es S''
  | mergeFails {S S'' : BState} {es : List BEvent} {sp : Span} (hu : sp ∈ S.unread)
      (rest : BRun cfg safe { S with unread := S.unread.filter (· ≠ sp) } es S'') : BRun cfg safe S (.mergeFailed :: es) S''
  | merge {S S'' : BState} {t' : Tree} {es : List BEvent} {maxFill : Nat} {b : Bool} (hsafe : safe = true → S.dead = []) (hu : S.unread = [])
      (hok : MergeOK cfg maxFill (S.tree.dropDead S.dead)) (h : (S.tree.dropDead S.dead).mergeSmall cfg maxFill = .ok (t', b))
      (hd : ∀ s ∈ t'.leaves, s.place ∉ S.dead) (rest : BRun cfg safe ⟨t', [], []⟩ es S'') : BRun cfg safe S (.done (.merge b) :: es) S''
  | clear {S S'' : BState} {t' : Tree} {es : List BEvent} (h : S.tree.clear cfg = some t') (rest : BRun cfg safe ⟨t', [], []⟩ es S'') :
      BRun cfg safe S (.done .clear :: es) S''
  | reopen {S S'' : BState} {u t' : Tree} {es : List BEvent} {d : Dir} {clearBad : Bool} (hs : S.tree.Small) (hn : ∀ s ∈ S.tree.leaves, s.lo < s.hi)
      (hsafe : safe = true → ∀ s ∈ S.tree.leaves, ¬ s.Leftover)
      (hu : S.tree.finishLive cfg S.dead = some u) (hd : DirOf d u.leaves) (h : Restart cfg clearBad d t') (rest : BRun cfg safe ⟨t', [], []⟩ es S'') :
      BRun cfg safe S (.done .reopen :: es) S''
  /-- the process dies between two calls -/
  | crash {S S'' : BState} {t' : Tree} {es : List BEvent} {d0 d : Dir} {clearBad : Bool} (hs : S.tree.Small) (hn : ∀ s ∈ S.tree.leaves, s.lo < s.hi)
      (hsafe : safe = true → ∀ s ∈ S.tree.leaves, ¬ s.Leftover) (hd : DirOf d0 S.tree.leaves) (hb : BgCrash cfg d0 d) (h : Restart cfg clearBad d t')
      (rest : BRun cfg safe ⟨t', [], []⟩ es S'') : BRun cfg safe S (.done (.crash none) :: es) S''

/-- `S` is the state of a store after a history in which background compactions may have failed, since its creation. -/
def BReachable (cfg : Cfg) (safe : Bool) (es : List BEvent) (S : BState) : Prop := ∃ t0, Tree.create cfg = some t0 ∧ BRun cfg safe ⟨t0, [], []⟩ es S

end Candy
