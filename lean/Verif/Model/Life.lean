import Verif.Model.FineCrash
/-!
# The life of a store with concurrent periods
-/
namespace Candy

/-- A store's life in blocks. All calls of a concurrent block have returned at its end. The steps of a concurrent block are raw storage operations (`conc`, src/store.rs:284-369) or
single memory accesses (`fine`; a background compaction may be in progress at the end, between two rows). -/
inductive Lives (cfg : Cfg) : Tree → List Block → Tree → Prop
  | nil (t : Tree) : Lives cfg t [] t
  | seq {t t' t'' : Tree} {es : List Event} {bs : List Block} (h : Run cfg t es t') (rest : Lives cfg t' bs t'') : Lives cfg t (.seq es :: bs) t''
  | conc {t t'' : Tree} {s : CState} {tr : List CEvent} {bs : List Block} (h : ConcRun cfg (CState.idle t) tr s) (hq : ∀ i, s.thr i = none)
      (rest : Lives cfg s.tree bs t'') : Lives cfg t (.conc tr :: bs) t''
  | fine {t t'' : Tree} {s : FState} {tr : List CEvent} {bs : List Block} (h : FineRun cfg (FState.idle t) tr s) (hq : ∀ i, s.thr i = none)
      (hb : ∀ l, s.bg l = none) (rest : Lives cfg s.tree bs t'') : Lives cfg t (.conc tr :: bs) t''
  /-- the process is killed at some moment of a concurrent period; calls may be in progress. No shard has an empty range (see C10). -/
  | died {t t' t'' : Tree} {s : FState} {tr : List CEvent} {bs : List Block} {clearBad : Bool} {d : Dir} (h : FineRun cfg (FState.idle t) tr s)
      (hn : ∀ x ∈ s.tree.leaves, x.lo < x.hi) (hd : FineCrash cfg s d) (hr : Restart cfg clearBad d t') (rest : Lives cfg t' bs t'') :
      Lives cfg t (.died tr :: bs) t''

end Candy
