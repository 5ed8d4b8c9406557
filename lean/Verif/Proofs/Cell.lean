import Verif.Spec.Cell
import Verif.Proofs.AConc
/-!
# Concurrent calls of any kind: each key is a register
-/
namespace Candy
open Spec

/-- The raw key. -/
def Spec.Cell.raw : Cell → Bytes
  | .user k => userKey k
  | .typed k => typedKey k

theorem Spec.Cell.call_cell (x : Cell) (op : KvOp) : (x.call op).cell = some x := by cases x <;> rfl

theorem Spec.Cell.of_cell {x : Cell} {c : Call} (h : c.cell = some x) : ∃ op, c = x.call op := by
  cases c with
  | kv k op => injection h with h; subst h; exact ⟨op, rfl⟩
  | typed k op => injection h with h; subst h; exact ⟨op, rfl⟩
  | list => cases h
  | queue => cases h

theorem Spec.Cell.notFoot {cfg : Cfg} {x : Cell} {c : Call} (h : c.cell ≠ some x) : ¬ c.Foot cfg x.raw := by
  intro hf
  cases x with
  | user k =>
    cases c with
    | kv k' op => exact h (by rw [show k' = k from (userKey_inj hf).symm]; rfl)
    | typed k' op => exact absurd (append_single_inj (show _ ++ [_] = _ ++ [_] from hf)).2 (by decide)
    | list lk op => exact user_notL hf
    | queue qk op => exact user_notQ hf
  | typed k =>
    cases c with
    | kv k' op => exact absurd (append_single_inj (show _ ++ [_] = _ ++ [_] from hf)).2 (by decide)
    | typed k' op => exact h (by rw [show k' = k from (typedKey_inj hf).symm]; rfl)
    | list lk op => exact typed_notL hf
    | queue qk op => exact typed_notQ hf

theorem Spec.Cell.oneOp (cfg : Cfg) (x : Cell) (op : KvOp) : ((x.call op).prog cfg).OneOp (fun k => k = x.raw) := by
  cases x with
  | user k => exact oneOp_kv k op
  | typed k => exact oneOp_typed k op

theorem Spec.Cell.refines {cfg : Cfg} {x : Cell} {op : KvOp} {m m' : Map} {p : Prog Resp} {r : Res Resp} (hx : AExec cfg m ((x.call op).prog cfg) m' p) (hr : p.result = some r) :
    match x.error cfg op with
    | some e => r = .err e ∧ m' x.raw = m x.raw
    | none => r = .ok (kvAnswer (m x.raw) op).1 ∧ m' x.raw = (kvAnswer (m x.raw) op).2 := by
  cases x with
  | user k =>
    have := (wp_kvOp cfg k op m).sound hx hr
    dsimp only [Cell.error]
    cases he : kvError cfg k op with
    | some e => rw [he] at this; exact ⟨this.1, by rw [this.2]⟩
    | none => rw [he] at this; exact ⟨this.1, by rw [this.2]; exact Map.upd_same _ _ _⟩
  | typed k =>
    have := (wp_typedOp cfg k op m).sound hx hr
    dsimp only [Cell.error]
    cases he : typedError cfg k op with
    | some e => rw [he] at this; exact ⟨this.1, by rw [this.2]⟩
    | none => rw [he] at this; exact ⟨this.1, by rw [this.2]; exact Map.upd_same _ _ _⟩

theorem Spec.Register.cons {err : KvOp → Option Err} {a a' b : Option Bytes} {op : KvOp} {r : Res Resp} {ops : List (KvOp × Res Resp)}
    (h : match err op with | some e => r = .err e ∧ a' = a | none => r = .ok (kvAnswer a op).1 ∧ a' = (kvAnswer a op).2) (hr : Register err a' ops b) :
    Register err a ((op, r) :: ops) b := by
  unfold Register
  cases he : err op with
  | some e => rw [he] at h; obtain ⟨h1, h2⟩ := h; subst h2; exact ⟨h1, hr⟩
  | none => rw [he] at h; obtain ⟨h1, h2⟩ := h; subst h2; exact ⟨h1, hr⟩

/-- A thread and its phase in a history of the calls on the key alone. -/
def CellRel (cfg : Cfg) (x : Cell) : Option (Call × Prog Resp) → Phase → Prop
  | none, ph => ph = .out
  | some (c, p), ph =>
    (∃ op, c = x.call op ∧ ((ph = .called c ∧ p = c.prog cfg) ∨ ∃ r, ph = .effect c r ∧ p.result = some r)) ∨
    (c.cell ≠ some x ∧ ph = .out ∧ p.Within (c.Foot cfg) anyRes)

theorem setN_rel {cfg : Cfg} {x : Cell} {thr : Nat → Option (Call × Prog Resp)} {ph : Nat → Phase} (h : ∀ j, CellRel cfg x (thr j) (ph j)) {i : Nat} {a : Option (Call × Prog Resp)} {b : Phase}
    (hi : CellRel cfg x a b) : ∀ j, CellRel cfg x (setN thr i a j) (setN ph i b j) := by
  intro j
  by_cases e : j = i
  · subst e; rw [setN_same, setN_same]; exact hi
  · rw [setN_other _ _ e, setN_other _ _ e]; exact h j

theorem setN_rel' {cfg : Cfg} {x : Cell} {thr : Nat → Option (Call × Prog Resp)} {ph : Nat → Phase} (h : ∀ j, CellRel cfg x (thr j) (ph j)) {i : Nat} {a : Option (Call × Prog Resp)}
    (hi : CellRel cfg x a (ph i)) : ∀ j, CellRel cfg x (setN thr i a j) (ph j) := by
  intro j
  by_cases e : j = i
  · subst e; rw [setN_same]; exact hi
  · rw [setN_other _ _ e]; exact h j

theorem about_inv {x : Cell} {i : Nat} {c : Call} : x.about (.inv i c) = decide (c.cell = some x) := rfl
theorem about_ret {x : Cell} {i : Nat} {c : Call} {r : Res Resp} : x.about (.ret i c r) = decide (c.cell = some x) := rfl

theorem AStep.noResult {cfg : Cfg} {m m' : Map} {p p' : Prog Resp} (h : AStep cfg m p m' p') : p.result = none := by
  cases h <;> rfl

theorem AConcRun.cell {cfg : Cfg} {s s' : AState} {tr : List CEvent} (h : AConcRun cfg s tr s') (x : Cell) : ∀ ph, (∀ i, CellRel cfg x (s.thr i) (ph i)) →
    ∃ ops ph', LinTo ph (tr.filter x.about) (ops.map (fun o => (x.call o.1, o.2))) ph' ∧ Register (x.error cfg) (s.map x.raw) ops (s'.map x.raw) ∧ ∀ i, CellRel cfg x (s'.thr i) (ph' i) := by
  induction h with
  | nil s => intro ph hph; exact ⟨[], ph, .nil _, rfl, hph⟩
  | @inv s s' tr i c h rest ih =>
    intro ph hph
    have hi := hph i
    rw [h] at hi
    by_cases hc : c.cell = some x
    · obtain ⟨op, rfl⟩ := Cell.of_cell hc
      obtain ⟨ops, ph', g1, g2, g3⟩ := ih (setN ph i (.called (x.call op))) (setN_rel hph (.inl ⟨op, rfl, .inl ⟨rfl, rfl⟩⟩))
      refine ⟨ops, ph', ?_, g2, g3⟩
      rw [List.filter_cons_of_pos (by rw [about_inv]; exact decide_eq_true hc)]
      exact .inv i _ hi g1
    · obtain ⟨ops, ph', g1, g2, g3⟩ := ih ph (setN_rel' hph (.inr ⟨hc, hi, within_call cfg c⟩))
      refine ⟨ops, ph', ?_, g2, g3⟩
      rw [List.filter_cons_of_neg (by rw [about_inv]; simpa using hc)]
      exact g1
  | @raw s s' tr i c p p' m' h hl hst rest ih =>
    intro ph hph
    have hi := hph i
    rw [h] at hi
    rcases hi with ⟨op, rfl, ⟨h1, rfl⟩ | ⟨r, h1, h2⟩⟩ | ⟨h1, h2, h3⟩
    · obtain ⟨⟨r, k1, k2⟩, _⟩ := (x.oneOp cfg op).frame (n := s.map) hst (fun _ _ => rfl)
      obtain ⟨ops, ph', g1, g2, g3⟩ := ih (setN ph i (.effect (x.call op) r)) (setN_rel hph (.inl ⟨op, rfl, .inr ⟨r, rfl, k1⟩⟩))
      exact ⟨(op, r) :: ops, ph', .effect i _ r h1 k2 g1, .cons (Cell.refines (.step hst (.refl _ _)) k1) g2, g3⟩
    · rw [hst.noResult] at h2; cases h2
    · obtain ⟨k1, k2⟩ := h3.step hst
      obtain ⟨ops, ph', g1, g2, g3⟩ := ih ph (setN_rel' hph (.inr ⟨h1, h2, k2⟩))
      refine ⟨ops, ph', g1, ?_, g3⟩
      rw [← k1 _ (Cell.notFoot h1)]
      exact g2
  | @lock s s' tr i l c p h hf rest ih =>
    intro ph hph
    have hi := hph i
    rw [h] at hi
    rcases hi with ⟨op, rfl, ⟨h1, h2⟩ | ⟨r, h1, h2⟩⟩ | ⟨h1, h2, h3⟩
    · have := x.oneOp cfg op; rw [← h2] at this; exact this.elim
    · cases h2
    · exact ih ph (setN_rel' hph (.inr ⟨h1, h2, h3⟩))
  | @unlock s s' tr i c p h rest ih =>
    intro ph hph
    have hi := hph i
    rw [h] at hi
    rcases hi with ⟨op, rfl, ⟨h1, h2⟩ | ⟨r, h1, h2⟩⟩ | ⟨h1, h2, h3⟩
    · have := x.oneOp cfg op; rw [← h2] at this; exact this.elim
    · cases h2
    · exact ih ph (setN_rel' hph (.inr ⟨h1, h2, h3⟩))
  | @ret s s' tr i c p r h hr hne rest ih =>
    intro ph hph
    have hi := hph i
    rw [h] at hi
    rcases hi with ⟨op, rfl, ⟨h1, rfl⟩ | ⟨r', h1, h2⟩⟩ | ⟨h1, h2, h3⟩
    · obtain ⟨ops, ph', g1, g2, g3⟩ := ih (setN (setN ph i (.effect (x.call op) r)) i .out) (fun j => by
        by_cases e : j = i
        · subst e; dsimp only; rw [setN_same, setN_same]; rfl
        · dsimp only; rw [setN_other _ _ e, setN_other _ _ e, setN_other _ _ e]; exact hph j)
      refine ⟨(op, r) :: ops, ph', ?_, .cons (Cell.refines (.refl _ _) hr) g2, g3⟩
      rw [List.filter_cons_of_pos (by rw [about_ret]; exact decide_eq_true (x.call_cell op))]
      exact .effect i _ r h1 hne (.ret i _ r (setN_same _ _ _) g1)
    · rw [hr] at h2
      injection h2 with h2
      subst h2
      obtain ⟨ops, ph', g1, g2, g3⟩ := ih (setN ph i .out) (setN_rel hph rfl)
      refine ⟨ops, ph', ?_, g2, g3⟩
      rw [List.filter_cons_of_pos (by rw [about_ret]; exact decide_eq_true (x.call_cell op))]
      exact .ret i _ r h1 g1
    · obtain ⟨ops, ph', g1, g2, g3⟩ := ih ph (setN_rel' hph h2)
      refine ⟨ops, ph', ?_, g2, g3⟩
      rw [List.filter_cons_of_neg (by rw [about_ret]; simpa using h1)]
      exact g1

end Candy
