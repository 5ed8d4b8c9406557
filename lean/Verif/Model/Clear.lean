import Verif.Model.Conc
/-!
# `clear` called while other threads work

`ShardRouter::clear` (src/router.rs:297-325) takes the write guard of the root of the shard tree and holds it until the new shards are in place. Every raw operation of
another thread holds the read guard of the root from its beginning to its end (`shared_op`, src/router.rs:280-295; `insert`, 349-360), so the exchange of the tree
happens between two raw operations. It does not take the locks of lists and queues (src/lists.rs:141-143).

Simplifications: the calls of `clear` have numbers of their own (the model allows the thread that is in `clear` to make other calls meanwhile, which the code does not). A raw
insertion that found its shard full before the exchange and takes the write guard after it (src/router.rs:363-367) starts again in the model; in the code it would split the new shard
first, if there is only one. `clear` does not fail (see `Props/ClearConc` for what happens to the files if it does).
-/
namespace Candy

/-- What is observed of a period with `clear`: events of the other calls; call number `j` of `clear` begins; it returns. -/
inductive XEvent where
  | ev (e : CEvent)
  | clearInv (j : Nat)
  | clearRet (j : Nat)

/-- The store and its threads, and the calls of `clear` in progress: begun (`some false`), or done and about to return (`some true`). -/
structure XState where
  st : CState
  clr : Nat → Option Bool

/-- No call is in progress. -/
def XState.idle (t : Tree) : XState := ⟨CState.idle t, fun _ => none⟩

/-- Executions of concurrent calls together with calls of `clear` (src/store.rs:262-267, src/router.rs:297-325). `P` holds of the threads at the moment of each clear. -/
inductive ClearRun (cfg : Cfg) (P : CState → Prop) : XState → List XEvent → XState → Prop
  | nil (s : XState) : ClearRun cfg P s [] s
  /-- the other threads work for a while -/
  | run {s s1 : CState} {clr : Nat → Option Bool} {s' : XState} {tr : List CEvent} {tr' : List XEvent} (h : ConcRun cfg s tr s1)
      (rest : ClearRun cfg P ⟨s1, clr⟩ tr' s') : ClearRun cfg P ⟨s, clr⟩ (tr.map .ev ++ tr') s'
  /-- a call of `clear` begins -/
  | inv {s : CState} {clr : Nat → Option Bool} {s' : XState} {tr : List XEvent} (j : Nat) (h : clr j = none)
      (rest : ClearRun cfg P ⟨s, setN clr j (some false)⟩ tr s') : ClearRun cfg P ⟨s, clr⟩ (.clearInv j :: tr) s'
  /-- it has the write guard of the root: the tree is exchanged -/
  | clear {s : CState} {clr : Nat → Option Bool} {s' : XState} {tr : List XEvent} {t' : Tree} (j : Nat) (h : clr j = some false) (hp : P s)
      (ht : s.tree.clear cfg = some t') (rest : ClearRun cfg P ⟨{ s with tree := t' }, setN clr j (some true)⟩ tr s') : ClearRun cfg P ⟨s, clr⟩ tr s'
  /-- it returns -/
  | ret {s : CState} {clr : Nat → Option Bool} {s' : XState} {tr : List XEvent} (j : Nat) (h : clr j = some true)
      (rest : ClearRun cfg P ⟨s, setN clr j none⟩ tr s') : ClearRun cfg P ⟨s, clr⟩ (.clearRet j :: tr) s'

/-- A call of the key-value API, typed or not. -/
def Call.isKv : Call → Bool
  | .kv _ _ => true
  | .typed _ _ => true
  | _ => false

/-- No list or queue call holds a lock (is between its first and its last access of the list or queue). -/
def CState.NoSection (s : CState) : Prop := ∀ i c p, s.thr i = some (c, p) → c.isKv = true ∨ ∀ l, s.locks l ≠ some i

end Candy
