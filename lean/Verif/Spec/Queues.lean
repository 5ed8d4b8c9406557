import Verif.Model.Bytes
/-!
# Specification: double-ended queues

A deque of values labelled with strictly increasing indices, together with the range of indices the queue reports
(`queue_range`). Nothing here refers to how queues are stored.
-/
namespace Candy.Spec

/-- The first index given out: 2^63. -/
abbrev FIRST : Nat := 9223372036854775808

/-- A deque: the reported range (`none`: the queue does not exist) and the labelled elements from head to tail. -/
structure Deque where
  range : Option (Nat × Nat)
  elems : List (Nat × Bytes)

namespace Deque

/-- The queue that does not exist. -/
def empty : Deque := ⟨none, []⟩

/-- The index of the next element pushed at the tail / the head. -/
def tailIdx (q : Deque) : Nat := match q.range with | none => FIRST | some (_, t) => t
def headIdx (q : Deque) : Nat := match q.range with | none => FIRST | some (h, _) => h - 1

def pushTail (q : Deque) (v : Bytes) : Deque :=
  ⟨some ((q.range.getD (FIRST, FIRST)).1, q.tailIdx + 1), q.elems ++ [(q.tailIdx, v)]⟩
def pushHead (q : Deque) (v : Bytes) : Deque :=
  ⟨some (q.headIdx, (q.range.getD (FIRST, FIRST + 1)).2), (q.headIdx, v) :: q.elems⟩

/-- A range, if it is not empty. -/
def mkRange (h t : Nat) : Option (Nat × Nat) := if h = t then none else some (h, t)

/-- Remove the first element. -/
def popHead (q : Deque) : Deque :=
  match q.range, q.elems with
  | some (_, t), (i, _) :: es => ⟨mkRange (i + 1) t, es⟩
  | _, _ => empty
/-- Remove the last element. -/
def popTail (q : Deque) : Deque :=
  match q.range, q.elems.getLast? with
  | some (h, _), some (i, _) => ⟨mkRange h i, q.elems.dropLast⟩
  | _, _ => empty

/-- Append several elements. -/
def extend (q : Deque) : List Bytes → Deque
  | [] => ⟨some (q.range.getD (FIRST, FIRST)), q.elems⟩
  | v :: vs => (q.pushTail v).extend vs

/-- The value at an index. -/
def at? (q : Deque) (i : Nat) : Option Bytes := (q.elems.find? (fun e => decide (e.1 = i))).map Prod.snd

/-- Remove the element at an index (of a queue whose range has at least two indices). -/
def removeAt (q : Deque) (i : Nat) : Deque :=
  match q.range, q.at? i with
  | some (h, t), some _ =>
    ⟨mkRange (if h = i then h + 1 else h) (if t = i + 1 then t - 1 else t), q.elems.filter (fun e => decide (e.1 ≠ i))⟩
  | _, _ => q

/-- Well-formed: indices strictly increasing and inside the range. -/
structure WF (q : Deque) : Prop where
  sorted : q.elems.Pairwise (fun a b => a.1 < b.1)
  nil : q.range = none → q.elems = []
  bnd : ∀ h t, q.range = some (h, t) → h ≤ t ∧ ∀ e ∈ q.elems, h ≤ e.1 ∧ e.1 < t

end Deque

end Candy.Spec
