import Verif.Proofs.CallKv
import Verif.Proofs.CallList
import Verif.Proofs.CallQueue
import Verif.Proofs.Footprint
/-!
# Every call refines the ideal store
-/
namespace Candy
open Spec

/-- A finished call is a step of the ideal store. -/
theorem call_refines {cfg m w m' p r} (c : Call) (h : MAbs cfg m w) (hx : AExec cfg m (c.prog cfg) m' p) (hr : p.result = some r)
    (hne : r ≠ .exhausted) : ∃ w', w.step cfg c r w' ∧ MAbs cfg m' w' := by
  have hfoot := ((within_call cfg c).exec hx).1
  cases c with
  | kv k op =>
    have := (wp_kvOp cfg k op m).sound hx hr
    cases he : kvError cfg k op with
    | some e =>
      rw [he] at this
      obtain ⟨rfl, rfl⟩ := this
      exact ⟨w, ⟨w.kv, by rw [he]; exact ⟨rfl, rfl⟩, rfl⟩, h⟩
    | none =>
      rw [he] at this
      obtain ⟨rfl, rfl⟩ := this
      rw [h.kv]
      exact ⟨_, ⟨_, by rw [he]; exact ⟨rfl, rfl⟩, rfl⟩, h.setKv _ _⟩
  | typed k op =>
    have := (wp_typedOp cfg k op m).sound hx hr
    cases he : typedError cfg k op with
    | some e =>
      rw [he] at this
      obtain ⟨rfl, rfl⟩ := this
      exact ⟨w, ⟨w.typed, by rw [he]; exact ⟨rfl, rfl⟩, rfl⟩, h⟩
    | none =>
      rw [he] at this
      obtain ⟨rfl, rfl⟩ := this
      rw [h.typed]
      exact ⟨_, ⟨_, by rw [he]; exact ⟨rfl, rfl⟩, rfl⟩, h.setTyped _ _⟩
  | list lk op =>
    cases hl : w.lists lk with
    | none => exact ⟨_, ⟨none, by rw [hl]; rfl, rfl⟩, h.setList hfoot (by simp)⟩
    | some s =>
      obtain ⟨s', h1, h2⟩ := (wp_listOp op (h.lists lk s hl)).sound hx hr
      exact ⟨_, ⟨some s', by rw [hl]; exact ⟨s', h1, rfl⟩, rfl⟩,
        h.setList hfoot (fun s e => by simp only [Option.some.injEq] at e; subst e; exact (h2 hne).2)⟩
  | queue qk op =>
    cases hl : w.queues qk with
    | none => exact ⟨_, ⟨none, by rw [hl]; rfl, rfl⟩, h.setQueue hfoot (by simp)⟩
    | some s =>
      by_cases hpre : qPre s op
      · obtain ⟨s', h1, h2⟩ := (wp_queueOp op hpre (h.queues qk s hl)).sound hx hr
        exact ⟨_, ⟨some s', by rw [hl]; exact ⟨fun _ => ⟨s', h1, rfl⟩, fun hn => absurd hpre hn⟩, rfl⟩,
          h.setQueue hfoot (fun s e => by simp only [Option.some.injEq] at e; subst e; exact (h2 hne).2)⟩
      · exact ⟨_, ⟨none, by rw [hl]; exact ⟨fun hn => absurd hn hpre, fun _ => rfl⟩, rfl⟩, h.setQueue hfoot (by simp)⟩

/-- A call runs out of indices only after 2^63 of them have been used. -/
theorem call_exhausted {cfg m w m' p} (c : Call) (h : MAbs cfg m w) (hx : AExec cfg m (c.prog cfg) m' p)
    (hr : p.result = some .exhausted) : match c with
      | .kv _ _ => False
      | .typed _ _ => False
      | .list lk op => ∀ s, w.lists lk = some s → 9223372036854775808 ≤ s.used + LOp.cost s.items op
      | .queue qk op => ∀ s, w.queues qk = some s → qPre s op → 9223372036854775808 ≤ s.used + QOp.cost op := by
  cases c with
  | kv k op =>
    have := (wp_kvOp cfg k op m).sound hx hr
    cases he : kvError cfg k op <;> rw [he] at this <;> simp at this
  | typed k op =>
    have := (wp_typedOp cfg k op m).sound hx hr
    cases he : typedError cfg k op <;> rw [he] at this <;> simp at this
  | list lk op =>
    intro s hl
    obtain ⟨s', h1, h2⟩ := (wp_listOp op (h.lists lk s hl)).sound hx hr
    exact h1
  | queue qk op =>
    intro s hl hpre
    obtain ⟨s', h1, h2⟩ := (wp_queueOp op hpre (h.queues qk s hl)).sound hx hr
    exact h1

end Candy
