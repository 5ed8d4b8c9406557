import Verif.Model.Pool
/-!
# What may happen when compactions are begun, ended and collected
-/
namespace Candy.Spec

/-- `e` may happen after `l`: a compaction gets a new number, and begins only if every earlier one of the same shard has ended successfully and its result has been
received by somebody; only a compaction that has begun ends, and only once; only the result it has ended with is received, and only once. -/
def PoolMay (l : List PoolEv) : PoolEv → Prop
  | .begun s j => (∀ s', .begun s' j ∉ l) ∧ ∀ j', .begun s j' ∈ l → .ended j' true ∈ l ∧ ∃ i, .told i j' true ∈ l
  | .ended j _ => (∃ s, .begun s j ∈ l) ∧ ∀ b, .ended j b ∉ l
  | .told _ j ok => .ended j ok ∈ l ∧ ∀ i b, .told i j b ∉ l
  | .returned _ _ => True

/-- Everything in the history could happen at its time. -/
def PoolHistory (log : List PoolEv) : Prop := ∀ l e r, log = l ++ e :: r → PoolMay l e

end Candy.Spec
