import Verif.Model.Bytes
/-!
# Specification: insertion-ordered maps and double-ended queues

Nothing here refers to how lists and queues are stored.
-/
namespace Candy.Spec

/-- An insertion-ordered map: the items in order, oldest first. -/
abbrev OList := List (Bytes × Bytes)

/-- The value of an item. -/
def OList.get (l : OList) (k : Bytes) : Option Bytes := (l.find? (fun p => decide (p.1 = k))).map Prod.snd

/-- Update an item in place, or append a new one. -/
def OList.set (l : OList) (k v : Bytes) : OList :=
  if (l.get k).isSome then l.map (fun p => if p.1 = k then (k, v) else p) else l ++ [(k, v)]

/-- Remove an item. -/
def OList.erase (l : OList) (k : Bytes) : OList := l.filter (fun p => decide (p.1 ≠ k))

/-- No item occurs twice. -/
def OList.Distinct (l : OList) : Prop := l.Pairwise (fun a b => a.1 ≠ b.1)

end Candy.Spec
