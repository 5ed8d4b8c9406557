import Verif.Model.History
/-!
# Concurrent calls

Any number of threads make public calls at the same time. A step is one raw storage operation of one thread (or taking or dropping a
lock of the `keyed_locks` table, src/lists.rs:141-143), or a step of a background compaction; the steps of different threads may alternate in
any way. A thread that wants a lock held by another one has no step until it is free.

Simplification: a raw operation (`get_raw`, `insert_internal`, `remove_raw`, `get_by_hash`) is one step. In the code it holds the
read guard of the shard node and the row lock of its row from its first access of the row to its last (src/router.rs:280-295, src/shard.rs:714-757),
the space for the data is reserved with an atomic `fetch_add` (src/shard.rs:237-240), and a split holds the write guard of the
node (src/router.rs:351-360).
-/
namespace Candy

/-- What is observed of a concurrent history: a thread begins a call; the call returns. -/
inductive CEvent where
  | inv (i : Nat) (c : Call)
  | ret (i : Nat) (c : Call) (r : Res Resp)

/-- The store and its threads: the shard tree, the holder of each lock, and the call in progress of each thread with what
remains of its program. -/
structure CState where
  tree : Tree
  locks : Nat → Option Nat
  thr : Nat → Option (Call × Prog Resp)

/-- Update of a function on thread numbers or lock numbers. -/
def setN {β : Type} (f : Nat → β) (i : Nat) (x : β) : Nat → β := fun j => if j = i then x else f j

/-- Dropping the guards of thread `i`. -/
def dropLocks (locks : Nat → Option Nat) (i : Nat) : Nat → Option Nat := fun l => if locks l = some i then none else locks l

/-- The next thing a program does concerns a lock. -/
def Prog.onLock {α : Type} : Prog α → Bool
  | .lock _ _ => true
  | .unlock _ => true
  | _ => false

/-- Concurrent executions, with what is observed of them. -/
inductive ConcRun (cfg : Cfg) : CState → List CEvent → CState → Prop
  | nil (s : CState) : ConcRun cfg s [] s
  /-- a thread begins a call -/
  | inv {s s' : CState} {tr : List CEvent} (i : Nat) (c : Call) (h : s.thr i = none)
      (rest : ConcRun cfg { s with thr := setN s.thr i (some (c, c.prog cfg)) } tr s') : ConcRun cfg s (.inv i c :: tr) s'
  /-- a raw operation -/
  | raw {s s' : CState} {tr : List CEvent} {i : Nat} {c : Call} {p p' : Prog Resp} {t' : Tree} (h : s.thr i = some (c, p))
      (hl : p.onLock = false) (hs : s.tree.Small) (hc : CStep cfg s.tree p t' p')
      (rest : ConcRun cfg { s with tree := t', thr := setN s.thr i (some (c, p')) } tr s') : ConcRun cfg s tr s'
  /-- taking a free lock -/
  | lock {s s' : CState} {tr : List CEvent} {i l : Nat} {c : Call} {p : Prog Resp} (h : s.thr i = some (c, .lock l p))
      (hf : s.locks l = none)
      (rest : ConcRun cfg { s with locks := setN s.locks l (some i), thr := setN s.thr i (some (c, p)) } tr s') : ConcRun cfg s tr s'
  /-- dropping the guard -/
  | unlock {s s' : CState} {tr : List CEvent} {i : Nat} {c : Call} {p : Prog Resp} (h : s.thr i = some (c, .unlock p))
      (rest : ConcRun cfg { s with locks := dropLocks s.locks i, thr := setN s.thr i (some (c, p)) } tr s') : ConcRun cfg s tr s'
  /-- the call returns (a guard still held, after an error, is dropped); it has not exhausted the 2^63 indices of a list or queue -/
  | ret {s s' : CState} {tr : List CEvent} {i : Nat} {c : Call} {p : Prog Resp} {r : Res Resp} (h : s.thr i = some (c, p))
      (hr : p.result = some r) (hne : r ≠ .exhausted)
      (rest : ConcRun cfg { s with locks := dropLocks s.locks i, thr := setN s.thr i none } tr s') : ConcRun cfg s (.ret i c r :: tr) s'
  /-- a step of the background compaction of the shard owning `sel` -/
  | bg {s s' : CState} {tr : List CEvent} {t' : Tree} (sel : Nat) (hs : s.tree.Small) (h : s.tree.bgStep cfg sel = some t')
      (rest : ConcRun cfg { s with tree := t' } tr s') : ConcRun cfg s tr s'

/-- No call is in progress. -/
def CState.idle (t : Tree) : CState := ⟨t, fun _ => none, fun _ => none⟩

/-- A part of the life of a store: calls (and reopening, merging, …) one at a time, or a period with concurrent calls, or such a
period at whose end the process dies (and the store is opened again). -/
inductive Block where
  | seq (es : List Event)
  | conc (tr : List CEvent)
  | died (tr : List CEvent)

/-- A call begun in a part of the life of a store. -/
def Block.begins (b : Block) (c : Call) : Prop := match b with
  | .seq es => ∃ e ∈ es, e.begun = some c
  | .conc tr => ∃ i, CEvent.inv i c ∈ tr
  | .died tr => ∃ i, CEvent.inv i c ∈ tr

/-- The calls that change a list or queue in a single critical section, and the key-value calls (of the typed and untyped API). The others
(`set_in_list_promoting`, `pop_list_head`/`tail`, `set_big`: several critical sections; all reading of lists and queues other
than `queue_len` and `queue_range`: no critical section) are not atomic, see C38, C39, C53, C54; `get_from_list` is covered separately (`Serial`, C66). -/
def Call.atomic : Call → Bool
  | .kv _ _ => true
  | .typed _ _ => true
  | .list _ op => match op with
    | .set .. => true
    | .replace .. => true
    | .getOrCreate .. => true
    | .remove _ => true
    | .compact _ => true
    | .discard => true
    | _ => false
  | .queue _ op => match op with
    | .push .. => true
    | .pop _ => true
    | .remove _ => true
    | .discard => true
    | .extend _ => true
    | .len => true
    | .range => true
    | .removeBig => true
    | _ => false

/-- The calls of a concurrent period that are known to be linearizable: the atomic ones, and `get_from_list` on lists that no thread discards in this period. (For lists whose keys
have the same hash: nor does a thread compact one of the others.) -/
def Serial (cfg : Cfg) (tr : List CEvent) : Prop :=
  ∀ i c, CEvent.inv i c ∈ tr → c.atomic = true ∨ ∃ lk ik, c = .list lk (.get ik) ∧
    ∀ j lk' op, CEvent.inv j (.list lk' op) ∈ tr → cfg.listPh lk' = cfg.listPh lk → op ≠ .discard ∧ ∀ par, op = .compact par → lk' = lk

end Candy
