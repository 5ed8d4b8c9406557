import Verif.Model.Shard
/-!
# Specification: an ideal map from byte strings to byte strings

Nothing here refers to shards, files or hashes. `Mode` and `InsStatus` are the request and response vocabulary of the
insertion primitive (src/shard.rs:124-138).
-/
namespace Candy.Spec

/-- An ideal map. -/
abbrev Map := Bytes → Option Bytes

/-- The empty map. -/
def Map.empty : Map := fun _ => none

/-- The map with `k` bound to `x` (`none` = absent) and every other key unchanged. -/
def Map.upd (m : Map) (k : Bytes) (x : Option Bytes) : Map := fun k' => if k' = k then x else m k'

/-- New value of the key and response, when the key currently has value `cur`. -/
def insertAt (cur : Option Bytes) (v : Bytes) (mode : Mode) : Option Bytes × InsStatus :=
  match cur, mode with
  | none, .set => (some v, .added)
  | none, .getOrCreate => (some v, .added)
  | none, .replace _ => (none, .keyDoesNotExist)
  | some old, .set => (some v, .replaced old)
  | some old, .getOrCreate => (some old, .alreadyExists old)
  | some old, .replace none => (some v, .replaced old)
  | some old, .replace (some e) => if e = old then (some v, .replaced old) else (some old, .alreadyExists old)

@[simp] theorem Map.upd_same (m : Map) (k x) : m.upd k x k = x := by simp [Map.upd]
theorem Map.upd_other (m : Map) {k k' : Bytes} (x) (h : k' ≠ k) : m.upd k x k' = m k' := by simp [Map.upd, h]

theorem Map.upd_self (m : Map) (k : Bytes) : m.upd k (m k) = m := by
  funext k'; by_cases h : k' = k
  · subst h; simp
  · exact m.upd_other _ h

end Candy.Spec
