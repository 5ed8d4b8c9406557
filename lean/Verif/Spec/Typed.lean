import Verif.Model.Typed
import Verif.Spec.World
/-!
# Specification of the typed wrappers

Maps, insertion-ordered maps and deques of typed keys and values. Nothing here refers to how they are stored; the serialization is mentioned only for the
size limits.
-/
namespace Candy.Spec

/-- The serialization is faithful. -/
def Good {T : Type} (c : Codec T) : Prop := ∀ x, c.dec (c.enc x) = some x

variable {K V : Type}

/-! ## Typed stores -/

/-- What a call on a key with value `cur` answers, and the new value. -/
def tkvAnswer [DecidableEq V] (cur : Option V) : TKvOp V → TResp K V × Option V
  | .get => (.val cur, cur)
  | .contains => (.flag cur.isSome, cur)
  | .remove => (.val cur, none)
  | .set v => (.val cur, some v)
  | .replace v e => match cur with
    | none => (.val none, none)
    | some old => if e = none ∨ e = some old then (.val (some old), some v) else (.val none, some old)
  | .getOrCreate v => (.one (cur.getD v), some (cur.getD v))

/-- The answers are those of an ideal map of typed keys to typed values. Calls fail exactly if the serialized pair is too large. -/
def LikeTypedMap [DecidableEq K] [DecidableEq V] (cfg : Cfg) (w : TStore K V) :
    (K → Option V) → List (TEvent (K × TKvOp V) (TRes (TResp K V))) → Prop
  | _, [] => True
  | m, .call (k, op) r :: ts =>
    match typedError cfg (w.key k) (op.raw w.vc) with
    | some e => r = .err e ∧ LikeTypedMap cfg w m ts
    | none => r = .ok (tkvAnswer (m k) op).1 ∧ LikeTypedMap cfg w (fun k' => if k' = k then (tkvAnswer (K := K) (m k) op).2 else m k') ts
  | m, .crash (k, op) :: ts => LikeTypedMap cfg w m ts ∨
      (typedError cfg (w.key k) (op.raw w.vc) = none ∧
        LikeTypedMap cfg w (fun k' => if k' = k then (tkvAnswer (K := K) (m k) op).2 else m k') ts)
  | _, .clear :: ts => LikeTypedMap cfg w (fun _ => none) ts

/-- The answers to the big-value calls on one key. The big value is set by `set_big` (but see C36: a value with an empty serialization is not stored); a
failing `set_big` (too large) removes the old value. If 2^63 pieces have been stored, or the process died inside a call, nothing is promised. -/
def LikeTypedBig (cfg : Cfg) (w : TStore K V) (k : K) : Option V → List (TEvent (TBigOp V) (TRes (TResp K V))) → Prop
  | _, [] => True
  | cur, .call .get r :: ts => r = .exhausted ∨ (r = .ok (.val cur) ∧ LikeTypedBig cfg w k cur ts)
  | cur, .call (.set v) r :: ts => r = .exhausted ∨
      (∃ b, r = .ok (.flag b) ∧ (cur.isSome = true → b = true) ∧ LikeTypedBig cfg w k (if w.vc.enc v = [] then none else some v) ts) ∨
      (∃ e, r = .err e ∧ ¬ QOp.fits cfg (typedKey (w.key k)) (.setBig (w.vc.enc v)) ∧ LikeTypedBig cfg w k none ts)
  | cur, .call .remove r :: ts => r = .exhausted ∨ (∃ b, r = .ok (.flag b) ∧ (cur.isSome = true → b = true) ∧ LikeTypedBig cfg w k none ts)
  | _, .crash _ :: _ => True
  | _, .clear :: ts => LikeTypedBig cfg w k none ts

/-! ## Typed lists -/

/-- The value of an item. -/
def tGet [DecidableEq K] (l : List (K × V)) (k : K) : Option V := (l.find? (fun p => decide (p.1 = k))).map Prod.snd

/-- Update an item in place, or append a new one. -/
def tSet [DecidableEq K] (l : List (K × V)) (k : K) (v : V) : List (K × V) :=
  if (tGet l k).isSome then l.map (fun p => if p.1 = k then (k, v) else p) else l ++ [(k, v)]

/-- Remove an item. -/
def tErase [DecidableEq K] (l : List (K × V)) (k : K) : List (K × V) := l.filter (fun p => decide (p.1 ≠ k))

/-- The items in the order of an iterator. -/
def tDir {T : Type} (l : List T) (fwd : Bool) : List T := if fwd then l else l.reverse

/-- A typed list: its items, whether no call has failed, and a bound on the number of indices used (see `LState`). -/
structure TLState (K V : Type) where
  items : List (K × V)
  clean : Bool
  used : Nat

/-- Answer and new items of a successful operation. -/
def tlAnswer [DecidableEq K] (vc : Codec V) (s : TLState K V) (op : TLOp K V) (a : TResp K V) (l' : List (K × V)) : Prop :=
  let l := s.items
  match op with
  | .contains k => l' = l ∧ a = .flag (tGet l k).isSome
  | .get k => l' = l ∧ a = .val (tGet l k)
  | .set k v => l' = tSet l k v ∧ a = .val (tGet l k)
  | .setPromoting k v => l' = tErase l k ++ [(k, v)] ∧ a = .val none
  | .getOrCreate k v => l' = (if (tGet l k).isSome then l else tSet l k v) ∧ a = .one ((tGet l k).getD v)
  | .replace k v none => l' = (if (tGet l k).isSome then tSet l k v else l) ∧ a = .val (tGet l k)
  | .replace k v (some e) => (l' = l ∧ a = .val none) ∨
      -- the library compares `e` with an internal 8-byte index instead of the value (C25)
      ((vc.enc e).length = 8 ∧ (tGet l k).isSome ∧ l' = tSet l k v ∧ a = .val (tGet l k))
  | .remove k => l' = tErase l k ∧ a = .val (tGet l k)
  | .iter fwd => l' = l ∧ a = .items (tDir l fwd)
  | .peek fwd => l' = l ∧ a = .item (tDir l fwd).head?
  | .pop fwd => a = .item (tDir l fwd).head? ∧ l' = match (tDir l fwd).head? with | none => l | some p => tErase l p.1
  | .compact _ => l' = l ∧ ∃ b, a = .flag b
  | .discard => l' = [] ∧ ∃ b, a = .flag b ∧ (l ≠ [] → b = true)
  | .len => l' = l ∧ ∃ n, a = .num n ∧ (s.clean = true → n = l.length)

/-- The item key and value an operation wants to store, and the items left if storing them fails. -/
def TLOp.stores? [DecidableEq K] (l : List (K × V)) : TLOp K V → Option (K × V × List (K × V))
  | .set k v => some (k, v, l)
  | .setPromoting k v => some (k, v, tErase l k)
  | .replace k v _ => some (k, v, l)
  | .getOrCreate k v => some (k, v, l)
  | _ => none

/-- How many indices of the 2^63 available an operation may use up. -/
def TLOp.cost (l : List (K × V)) : TLOp K V → Nat
  | .compact _ => l.length
  | .set .. => 1
  | .setPromoting .. => 1
  | .replace .. => 1
  | .getOrCreate .. => 1
  | _ => 0

/-- The answers to the calls on one typed list are those of an ideal insertion-ordered map. Calls fail only if something serialized is too large. After
a crash inside a call on the list see C29 and C30. -/
def LikeTypedList {L : Type} [DecidableEq K] (cfg : Cfg) (w : TList L K V) (lk : L) :
    TLState K V → List (TEvent (TLOp K V) (TRes (TResp K V))) → Prop
  | _, [] => True
  | s, .call op (.ok a) :: ts => ∃ l', tlAnswer w.vc s op a l' ∧ LikeTypedList cfg w lk ⟨l', s.clean, s.used + TLOp.cost s.items op⟩ ts
  | s, .call op (.err _) :: ts => ∃ k v l', TLOp.stores? s.items op = some (k, v, l') ∧
      ¬ listFits cfg (w.key lk) (w.kc.enc k) (w.vc.enc v) ∧ LikeTypedList cfg w lk ⟨l', false, s.used + TLOp.cost s.items op⟩ ts
  | s, .call op .exhausted :: _ => 9223372036854775808 ≤ s.used + TLOp.cost s.items op
  | _, .call _ .decodeErr :: _ => False
  | _, .call _ .panic :: _ => False
  | _, .crash _ :: _ => True
  | _, .clear :: ts => LikeTypedList cfg w lk ⟨[], true, 0⟩ ts

/-! ## Typed queues -/

/-- A typed deque: the reported range and the labelled elements from head to tail. -/
structure TDeque (V : Type) where
  range : Option (Nat × Nat)
  elems : List (Nat × V)

namespace TDeque
def empty : TDeque V := ⟨none, []⟩
def pushTail (q : TDeque V) (v : V) : TDeque V :=
  match q.range with
  | none => ⟨some (FIRST, FIRST + 1), q.elems ++ [(FIRST, v)]⟩
  | some (h, t) => ⟨some (h, t + 1), q.elems ++ [(t, v)]⟩
def pushHead (q : TDeque V) (v : V) : TDeque V :=
  match q.range with
  | none => ⟨some (FIRST, FIRST + 1), (FIRST, v) :: q.elems⟩
  | some (h, t) => ⟨some (h - 1, t), (h - 1, v) :: q.elems⟩
def popHead (q : TDeque V) : TDeque V :=
  match q.range, q.elems with
  | some (_, t), (i, _) :: es => ⟨Deque.mkRange (i + 1) t, es⟩
  | _, _ => empty
def popTail (q : TDeque V) : TDeque V :=
  match q.range, q.elems.getLast? with
  | some (h, _), some (i, _) => ⟨Deque.mkRange h i, q.elems.dropLast⟩
  | _, _ => empty
end TDeque

/-- Answer and new deque of a successful operation. -/
def tqAnswer (q : TDeque V) (op : TQOp V) (a : TResp K V) (q' : TDeque V) : Prop :=
  match op with
  | .push .head v => q' = q.pushHead v ∧ a = .unit
  | .push .tail v => q' = q.pushTail v ∧ a = .unit
  | .pop .head => q' = q.popHead ∧ a = .elem q.elems.head?
  | .pop .tail => q' = q.popTail ∧ a = .elem q.elems.getLast?
  | .peek fwd => q' = q ∧ a = .elem (tDir q.elems fwd).head?
  | .iter fwd => q' = q ∧ a = .elems (tDir q.elems fwd)
  | .len => q' = q ∧ a = .num q.elems.length
  | .range => q' = q ∧ a = .range (q.range.getD (FIRST, FIRST))

/-- The answers to the calls on one typed queue are those of an ideal deque, up to the first call that fails (because something serialized is too
large) or in which the process dies. -/
def LikeTypedQueue {L : Type} (cfg : Cfg) (w : TList L K V) (qk : L) :
    TDeque V → Nat → List (TEvent (TQOp V) (TRes (TResp K V))) → Prop
  | _, _, [] => True
  | q, n, .call op (.ok a) :: ts => ∃ q', tqAnswer q op a q' ∧ LikeTypedQueue cfg w qk q' (n + QOp.cost (op.raw w.vc)) ts
  | _, _, .call op (.err _) :: _ => ¬ QOp.fits cfg (w.key qk) (op.raw w.vc)
  | _, n, .call op .exhausted :: _ => 9223372036854775808 ≤ n + QOp.cost (op.raw w.vc)
  | _, _, .call _ .decodeErr :: _ => False
  | _, _, .call _ .panic :: _ => False
  | _, _, .crash _ :: _ => True
  | _, _, .clear :: ts => LikeTypedQueue cfg w qk TDeque.empty 0 ts

end Candy.Spec
