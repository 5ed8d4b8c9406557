import Verif.Model.History
/-!
# How much is written to a shard while it is being compacted

While a compaction of a shard runs, `Shard::insert` checks neither the size of the file nor the amount of waste (`if !is_compacting`, src/shard.rs:991-1003): whatever is inserted is appended.
Here the bytes given to insertions into each shard since its running compaction began are counted, and executions are described in which they stay below a quota. In contrast to `CExec` and `Run` nothing
is assumed about the size of files.
-/
namespace Candy

/-- For each shard (given by its span): bytes inserted since its running compaction began. -/
abbrev Charged := Span → Nat

/-- Is the shard with this span being compacted (`files.1.is_some()`, src/shard.rs:337-349)? -/
def Tree.compacting (t : Tree) (sp : Span) : Bool := t.leaves.any (fun s => decide (s.lo = sp.1) && decide (s.hi = sp.2) && s.tgt.isSome)

/-- The count after `n` bytes have been given to an insertion into the shard of `sel`, in state `t`: it is zero for shards not being compacted. -/
def Charged.add (w : Charged) (t : Tree) (sel n : Nat) : Charged :=
  fun sp => if t.compacting sp then (if sp.1 ≤ sel ∧ sel < sp.2 then w sp + n else w sp) else 0

/-- The count after the next raw operation of a program: only insertions (src/store.rs:334-359) count, with the length of key and value. -/
def Charged.step (cfg : Cfg) (w : Charged) (t : Tree) {α : Type} : Prog α → Charged
  | .ins k v _ _ => w.add t (cfg.ph k).shardSel (k.length + v.length)
  | _ => w

/-- No shard being compacted has been given more than `q` bytes since the compaction began. -/
def Tree.Within (q : Nat) (t : Tree) (w : Charged) : Prop := ∀ sp, t.compacting sp = true → w sp ≤ q

/-- Execution of a program as in `CExec` (Model/Prog.lean), without conditions on the size of files, in which no compaction lasts for more than `q` inserted bytes. -/
inductive QExec (cfg : Cfg) (q : Nat) {α : Type} : Tree → Charged → Prog α → Tree → Charged → Prog α → Prop
  | refl (t : Tree) (w : Charged) (p : Prog α) : QExec cfg q t w p t w p
  | step {t : Tree} {w : Charged} {p : Prog α} {t' p' t'' w'' p''} (h : CStep cfg t p t' p') (hq : t'.Within q (w.step cfg t p))
      (hr : QExec cfg q t' (w.step cfg t p) p' t'' w'' p'') : QExec cfg q t w p t'' w'' p''
  | bg {t : Tree} {w : Charged} {p : Prog α} {t' t'' w'' p''} (sel : Nat) (h : t.bgStep cfg sel = some t')
      (hr : QExec cfg q t' w p t'' w'' p'') : QExec cfg q t w p t'' w'' p''

/-- A history as in `Run` (Model/History.lean) without crashes and without conditions on the size of files, in which no compaction lasts for more than `q` inserted bytes. `maxFill ≤ 14745` is the assertion
`max_fill_level < 0.5` (src/router.rs:460). -/
inductive QRun (cfg : Cfg) (q : Nat) : Tree → Charged → List Event → Tree → Charged → Prop
  | nil (t : Tree) (w : Charged) : QRun cfg q t w [] t w
  | call {t t' t'' : Tree} {w w' w'' : Charged} {c : Call} {p : Prog Resp} {r : Res Resp} {es : List Event} (h : QExec cfg q t w (c.prog cfg) t' w' p)
      (hr : p.result = some r) (hne : r ≠ .exhausted) (rest : QRun cfg q t' w' es t'' w'') : QRun cfg q t w (.call c r :: es) t'' w''
  | bg {t t' t'' : Tree} {w w'' : Charged} {es : List Event} (sel : Nat) (h : t.bgStep cfg sel = some t')
      (rest : QRun cfg q t' w es t'' w'') : QRun cfg q t w es t'' w''
  | merge {t t' t'' : Tree} {w w'' : Charged} {es : List Event} {maxFill : Nat} {b : Bool} (hm : maxFill ≤ 14745) (hn : ∀ s ∈ t.leaves, s.lo < s.hi)
      (hcap : ∀ t', t.finishAll cfg = some t' → (t'.leaves.map (fun s => s.getStats.numItems)).sum ≤ 65536 * 29491)
      (h : t.mergeSmall cfg maxFill = .ok (t', b)) (rest : QRun cfg q t' w es t'' w'') : QRun cfg q t w (.merge b :: es) t'' w''
  | clear {t t' t'' : Tree} {w w'' : Charged} {es : List Event} (h : t.clear cfg = some t') (rest : QRun cfg q t' w es t'' w'') :
      QRun cfg q t w (.clear :: es) t'' w''
  | reopen {t u t' t'' : Tree} {w w'' : Charged} {es : List Event} {d : Dir} {ops : List FOp} {clearBad : Bool} (hn : ∀ s ∈ t.leaves, s.lo < s.hi)
      (hu : t.finishAll cfg = some u) (hd : DirOf d u.leaves) (h : openStore cfg clearBad d = (ops, .ok t'))
      (rest : QRun cfg q t' w es t'' w'') : QRun cfg q t w (.reopen :: es) t'' w''

end Candy
