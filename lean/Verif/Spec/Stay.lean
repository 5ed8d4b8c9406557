import Verif.Model.Conc
/-!
# Specification: what stays in a queue or a list while other threads change it
-/
namespace Candy.Spec

/-- The calls that take element `i` of queue `qk` out for certain if it is there: discarding the queue (or overwriting or removing it as a big value), and removing this element. -/
def _root_.Candy.Call.removesElem (qk : Bytes) (i : Nat) (c : Call) : Prop :=
  c = .queue qk .discard ∨ (∃ v, c = .queue qk (.setBig v)) ∨ c = .queue qk .removeBig ∨ ∃ j : UInt64, c = .queue qk (.remove j) ∧ j.toNat = i

/-- None of the elements `K` is taken out of queue `qk` in the history `tr`: no call removes one of them, and each pop has returned, without an error, something else than one of them. -/
structure StaysQ (qk : Bytes) (K : List (Nat × Bytes)) (tr : List CEvent) : Prop where
  remove : ∀ x ∈ K, ∀ i c, CEvent.inv i c ∈ tr → ¬ c.removesElem qk x.1
  pop : ∀ i pos r, CEvent.ret i (.queue qk (.pop pos)) r ∈ tr → ∃ o, r = .ok (.elem o) ∧ ∀ x, o = some x → x ∉ K
  done : ∀ pre i pos post, tr = pre ++ .inv i (.queue qk (.pop pos)) :: post → ∃ r, CEvent.ret i (.queue qk (.pop pos)) r ∈ post

/-- A call that (when it succeeds) gives item `ik` of list `lk` the value `v`. -/
def _root_.Candy.Call.putsItem (lk ik v : Bytes) (c : Call) : Prop :=
  c = .list lk (.set ik v) ∨ (∃ e, c = .list lk (.replace ik v e)) ∨ c = .list lk (.getOrCreate ik v)

/-- The calls that take item `ik` of list `lk` out for certain if it is there (if only to put it back at the end). -/
def _root_.Candy.Call.removesItem (lk ik : Bytes) (c : Call) : Prop :=
  c = .list lk .discard ∨ c = .list lk (.remove ik) ∨ ∃ v, c = .list lk (.setPromoting ik v)

/-- None of the items with keys `K` is taken out of list `lk` in the history `tr`: no call removes one of them, and each pop has returned, without an error, something else than one of them. -/
structure StaysL (lk : Bytes) (K : List Bytes) (tr : List CEvent) : Prop where
  remove : ∀ ik ∈ K, ∀ i c, CEvent.inv i c ∈ tr → ¬ c.removesItem lk ik
  pop : ∀ i fwd r, CEvent.ret i (.list lk (.pop fwd)) r ∈ tr → ∃ o, r = .ok (.item o) ∧ ∀ kv : KV, o = some kv → kv.1 ∉ K
  done : ∀ pre i fwd post, tr = pre ++ .inv i (.list lk (.pop fwd)) :: post → ∃ r, CEvent.ret i (.list lk (.pop fwd)) r ∈ post

end Candy.Spec
