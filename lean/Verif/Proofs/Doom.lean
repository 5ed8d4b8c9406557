import Verif.Proofs.Shape
/-!
# Invariants of single raw entries that hold until a certain answer is inevitable

As `Proofs/Typing`, but a program may also break the invariant if from then on it can only answer in a certain way (or fail): it is doomed. If no call answers in this way and none
is left over in the middle, the invariant has held all the time.
-/
namespace Candy
open Spec

/-- The program can only return values satisfying `P` (or fail). -/
def Prog.Fated {α : Type} (P : α → Prop) : Prog α → Prop
  | .ret a => P a
  | .err _ => True
  | .panic => True
  | .exhausted => True
  | .get _ c => ∀ x, (c x).Fated P
  | .ins _ _ _ c => ∀ s, (c s).Fated P
  | .rem _ c => ∀ x, (c x).Fated P
  | .byHash _ _ c => ∀ l, (c l).Fated P
  | .lock _ c => c.Fated P
  | .unlock c => c.Fated P

/-- The program keeps the contents permitted and returns only values satisfying `Q`, or (only if `D`) is doomed to return a value satisfying `P`. -/
def Prog.TD (cfg : Cfg) (T : Typing) (D : Prop) {α : Type} (Q P : α → Prop) : Prog α → Prop
  | .ret a => Q a
  | .err _ => True
  | .panic => True
  | .exhausted => True
  | .get k c => ∀ x, T k x → (c x).TD cfg T D Q P ∨ (D ∧ (c x).Fated P)
  | .ins k v mode c => ∀ x, T k x → (T k (insertAt x v mode).1 ∧ (c (insertAt x v mode).2).TD cfg T D Q P) ∨ (D ∧ (c (insertAt x v mode).2).Fated P)
  | .rem k c => ∀ x, T k x → (T k none ∧ (c x).TD cfg T D Q P) ∨ (D ∧ (c x).Fated P)
  | .byHash ph suf c => ∀ m l, T.Of m → ByHash cfg m ph suf l → (c l).TD cfg T D Q P ∨ (D ∧ (c l).Fated P)
  | .lock _ c => c.TD cfg T D Q P
  | .unlock c => c.TD cfg T D Q P

section
variable {cfg : Cfg} {T : Typing} {D : Prop} {α β : Type} {Q P : α → Prop}

theorem Prog.Fated.step {m m' : Map} {p p' : Prog α} (h : p.Fated P) (hs : AStep cfg m p m' p') : p'.Fated P := by
  cases hs with
  | get k c => exact h _
  | insErr => trivial
  | ins k v mode c hs => exact h _
  | rem k c => exact h _
  | byHash ph suf c l hl => exact h _
  | lock => exact h
  | unlock => exact h

theorem Prog.Fated.bind {R : β → Prop} {f : α → Prog β} {p : Prog α} (h : p.Fated P) (hf : ∀ a, P a → (f a).Fated R) : (p.bind f).Fated R := by
  induction p with
  | ret a => exact hf a h
  | err | exhausted | panic => trivial
  | get k c ih => exact fun x => ih x (h x)
  | ins k v mode c ih => exact fun x => ih x (h x)
  | rem k c ih => exact fun x => ih x (h x)
  | byHash ph suf c ih => exact fun x => ih x (h x)
  | lock i c ih => exact ih h
  | unlock c ih => exact ih h

theorem Prog.Fated.any {p : Prog α} : p.Fated anyRes := by
  induction p with
  | ret a => trivial
  | err | exhausted | panic => trivial
  | get k c ih => exact ih
  | ins k v mode c ih => exact ih
  | rem k c ih => exact ih
  | byHash ph suf c ih => exact ih
  | lock i c ih => exact ih
  | unlock c ih => exact ih

theorem Prog.Fated.const {R : β → Prop} {f : α → Prog β} {p : Prog α} (hf : ∀ a, (f a).Fated R) : (p.bind f).Fated R := Prog.Fated.any.bind (fun a _ => hf a)

theorem Prog.TD.step {m m' : Map} {p p' : Prog α} (h : p.TD cfg T D Q P) (hm : T.Of m) (hs : AStep cfg m p m' p') :
    (T.Of m' ∧ p'.TD cfg T D Q P) ∨ (D ∧ p'.Fated P) := by
  cases hs with
  | get k c => exact (h _ (hm k)).imp (fun h => ⟨hm, h⟩) id
  | insErr => exact .inl ⟨hm, trivial⟩
  | ins k v mode c hs => exact (h _ (hm k)).imp (fun h => ⟨hm.upd h.1, h.2⟩) id
  | rem k c => exact (h _ (hm k)).imp (fun h => ⟨hm.upd h.1, h.2⟩) id
  | byHash ph suf c l hl => exact (h _ l hm hl).imp (fun h => ⟨hm, h⟩) id
  | lock => exact .inl ⟨hm, h⟩
  | unlock => exact .inl ⟨hm, h⟩

theorem Prog.TD.bind {R P' : β → Prop} {f : α → Prog β} {p : Prog α} (h : p.TD cfg T D Q P) (hf : ∀ a, Q a → (f a).TD cfg T D R P') (hd : ∀ a, P a → (f a).Fated P') :
    (p.bind f).TD cfg T D R P' := by
  induction p with
  | ret a => exact hf a h
  | err | exhausted | panic => trivial
  | get k c ih => exact fun x hx => (h x hx).imp (ih x) (fun h => ⟨h.1, h.2.bind hd⟩)
  | ins k v mode c ih => exact fun x hx => (h x hx).imp (fun h => ⟨h.1, ih _ h.2⟩) (fun h => ⟨h.1, h.2.bind hd⟩)
  | rem k c ih => exact fun x hx => (h x hx).imp (fun h => ⟨h.1, ih _ h.2⟩) (fun h => ⟨h.1, h.2.bind hd⟩)
  | byHash ph suf c ih => exact fun m l hm hl => (h m l hm hl).imp (ih l) (fun h => ⟨h.1, h.2.bind hd⟩)
  | lock i c ih => exact ih h
  | unlock c ih => exact ih h

theorem Prog.TD.bind' {R P' : β → Prop} {f : α → Prog β} {p : Prog α} (h : p.TD cfg T D Q P) (hf : ∀ a, Q a → (f a).TD cfg T D R P') (hd : ∀ a, P a → (f a).Fated P') :
    (p >>= f).TD cfg T D R P' := h.bind hf hd

theorem Prog.TD.mono {Q' P' : α → Prop} {p : Prog α} (h : p.TD cfg T D Q P) (hq : ∀ a, Q a → Q' a) (hp : ∀ a, P a → P' a) : p.TD cfg T D Q' P' := by
  have hE : ∀ {p : Prog α}, p.Fated P → p.Fated P' := by
    intro p h
    induction p with
    | ret a => exact hp a h
    | err | exhausted | panic => trivial
    | get k c ih => exact fun x => ih x (h x)
    | ins k v mode c ih => exact fun x => ih x (h x)
    | rem k c ih => exact fun x => ih x (h x)
    | byHash ph suf c ih => exact fun x => ih x (h x)
    | lock i c ih => exact ih h
    | unlock c ih => exact ih h
  induction p with
  | ret a => exact hq a h
  | err | exhausted | panic => trivial
  | get k c ih => exact fun x hx => (h x hx).imp (ih x) (fun h => ⟨h.1, hE h.2⟩)
  | ins k v mode c ih => exact fun x hx => (h x hx).imp (fun h => ⟨h.1, ih _ h.2⟩) (fun h => ⟨h.1, hE h.2⟩)
  | rem k c ih => exact fun x hx => (h x hx).imp (fun h => ⟨h.1, ih _ h.2⟩) (fun h => ⟨h.1, hE h.2⟩)
  | byHash ph suf c ih => exact fun m l hm hl => (h m l hm hl).imp (ih l) (fun h => ⟨h.1, hE h.2⟩)
  | lock i c ih => exact ih h
  | unlock c ih => exact ih h

theorem Prog.Types.td {Pan : Prop} {p : Prog α} (h : p.Types cfg T Pan Q) : p.TD cfg T D Q P := by
  induction p with
  | ret a => exact h
  | err | exhausted | panic => trivial
  | get k c ih => exact fun x hx => .inl (ih x (h x hx))
  | ins k v mode c ih => exact fun x hx => .inl ⟨(h x hx).1, ih _ (h x hx).2⟩
  | rem k c ih => exact fun x hx => .inl ⟨h.1, ih x (h.2 x hx)⟩
  | byHash ph suf c ih => exact fun m l hm hl => .inl (ih l (h m l hm hl))
  | lock i c ih => exact ih h
  | unlock c ih => exact ih h

/-- Programs that write only where the invariant says nothing new. -/
theorem Prog.Types.within {T0 : Typing} {Pan : Prop} {F : Bytes → Prop} {Q' : α → Prop} {p : Prog α} (h : p.Types cfg T0 Pan Q) (hw : p.Within F Q')
    (hF : ∀ k, F k → ∀ o, T0 k o → T k o) (hT : ∀ k o, T k o → T0 k o) : p.Types cfg T Pan Q := by
  induction p with
  | ret a => exact h
  | err | exhausted => trivial
  | panic => exact h
  | get k c ih => exact fun x hx => ih x (h x (hT _ _ hx)) (hw x)
  | ins k v mode c ih => exact fun x hx => ⟨hF k hw.1 _ (h x (hT _ _ hx)).1, ih _ (h x (hT _ _ hx)).2 (hw.2 _)⟩
  | rem k c ih => exact ⟨hF k hw.1 _ h.1, fun x hx => ih x (h.2 x (hT _ _ hx)) (hw.2 x)⟩
  | byHash ph suf c ih => exact fun m l hm hl => ih l (h m l (fun k => hT _ _ (hm k)) hl) (hw l hl.suffix)
  | lock i c ih => exact ih h hw
  | unlock c ih => exact ih h hw

theorem Prog.TD.result {p : Prog α} (h : p.TD cfg T D Q P) {r : Res α} (hr : p.result = some r) : r.Meets True Q := by
  cases p <;> simp only [Prog.result, Option.some.injEq, reduceCtorEq] at hr <;> subst hr <;> exact h

theorem Prog.Fated.result {p : Prog α} (h : p.Fated P) {r : Res α} (hr : p.result = some r) : r.Meets True P := by
  cases p <;> simp only [Prog.result, Option.some.injEq, reduceCtorEq] at hr <;> subst hr <;> exact h

theorem td_withLock {i : Nat} {p : Prog α} (h : p.TD cfg T D Q P) : (Prog.withLock i p).TD cfg T D Q P :=
  show (p.bind _).TD cfg T D Q P from h.bind (fun _ h => h) (fun _ h => h)

end

/-! ## Executions -/

section
variable {cfg : Cfg} {T : Typing} {D : Call → Prop} {Q P : Call → Resp → Prop}

theorem AConcRun.doomed {s s' : AState} {tr : List CEvent} (h : AConcRun cfg s tr s') {i : Nat} {c : Call} : ∀ {p : Prog Resp}, s.thr i = some (c, p) → p.Fated (P c) →
    (∃ r, CEvent.ret i c r ∈ tr ∧ r.Meets True (P c)) ∨ ∃ p', s'.thr i = some (c, p') := by
  induction h with
  | nil s => exact fun h _ => .inr ⟨_, h⟩
  | @inv s s' tr j d h0 rest ih =>
    intro p h1 h2
    have hne : i ≠ j := fun e => by subst e; rw [h0] at h1; cases h1
    rcases ih (p := p) (by rw [← h1]; exact setN_other _ _ hne) h2 with ⟨r, g1, g2⟩ | g
    · exact .inl ⟨r, List.mem_cons_of_mem _ g1, g2⟩
    · exact .inr g
  | @raw s s' tr j d p0 m' p' h hl hst rest ih =>
    intro p h1 h2
    by_cases e : i = j
    · subst e
      rw [h] at h1
      cases h1
      exact ih (setN_same _ _ _) (h2.step hst)
    · exact ih (by rw [← h1]; exact setN_other _ _ e) h2
  | @lock s s' tr j d l c' h hf rest ih =>
    intro p h1 h2
    by_cases e : i = j
    · subst e
      rw [h] at h1
      cases h1
      exact ih (setN_same _ _ _) h2
    · exact ih (by rw [← h1]; exact setN_other _ _ e) h2
  | @unlock s s' tr j d c' h rest ih =>
    intro p h1 h2
    by_cases e : i = j
    · subst e
      rw [h] at h1
      cases h1
      exact ih (setN_same _ _ _) h2
    · exact ih (by rw [← h1]; exact setN_other _ _ e) h2
  | @ret s s' tr j d p0 r h hr hne rest ih =>
    intro p h1 h2
    by_cases e : i = j
    · subst e
      rw [h] at h1
      cases h1
      exact .inl ⟨r, List.mem_cons_self, h2.result hr⟩
    · rcases ih (p := p) (by rw [← h1]; exact setN_other _ _ e) h2 with ⟨r, g1, g2⟩ | g
      · exact .inl ⟨r, List.mem_cons_of_mem _ g1, g2⟩
      · exact .inr g

/-- The invariant holds all the time, or a call has answered in the way that was inevitable, or has not yet. -/
theorem AConcRun.typesD {s s' : AState} {tr : List CEvent} (h : AConcRun cfg s tr s') :
    T.Of s.map → (∀ i c p, s.thr i = some (c, p) → p.TD cfg T (D c) (Q c) (P c)) →
    (∀ i c, CEvent.inv i c ∈ tr → (c.prog cfg).TD cfg T (D c) (Q c) (P c)) →
    (T.Of s'.map ∧ ∀ i c r, CEvent.ret i c r ∈ tr → r.Meets True (Q c)) ∨
      ∃ i c, D c ∧ ((∃ r, CEvent.ret i c r ∈ tr ∧ r.Meets True (P c)) ∨ ∃ p, s'.thr i = some (c, p)) := by
  have upd : ∀ {thr : Nat → Option (Call × Prog Resp)} {i : Nat} {x : Option (Call × Prog Resp)}, (∀ i c p, thr i = some (c, p) → p.TD cfg T (D c) (Q c) (P c)) →
      (∀ c p, x = some (c, p) → p.TD cfg T (D c) (Q c) (P c)) → ∀ j c p, setN thr i x j = some (c, p) → p.TD cfg T (D c) (Q c) (P c) := by
    intro thr i x h1 h2 j c p e
    by_cases hj : j = i
    · subst hj; rw [setN_same] at e; exact h2 c p e
    · rw [setN_other _ _ hj] at e; exact h1 j c p e
  have later : ∀ {e : CEvent} {tr : List CEvent} {s' : AState}, (∃ i c, D c ∧ ((∃ r, CEvent.ret i c r ∈ tr ∧ r.Meets True (P c)) ∨ ∃ p, s'.thr i = some (c, p))) →
      ∃ i c, D c ∧ ((∃ r, CEvent.ret i c r ∈ e :: tr ∧ r.Meets True (P c)) ∨ ∃ p, s'.thr i = some (c, p)) := by
    rintro e tr s' ⟨i, c, h1, h2⟩
    exact ⟨i, c, h1, h2.imp (fun ⟨r, g1, g2⟩ => ⟨r, List.mem_cons_of_mem _ g1, g2⟩) id⟩
  induction h with
  | nil s => exact fun h _ _ => .inl ⟨h, fun i c r hm => by cases hm⟩
  | inv i c h _ ih =>
    intro h0 h1 h2
    rcases ih h0 (upd h1 (fun c' p e => by cases e; exact h2 i c List.mem_cons_self)) (fun j c' hm => h2 j c' (List.mem_cons_of_mem _ hm)) with ⟨g1, g2⟩ | g
    · refine .inl ⟨g1, fun j c' r hm => ?_⟩
      rcases List.mem_cons.1 hm with e | hm
      · cases e
      · exact g2 j c' r hm
    · exact .inr (later g)
  | @raw s s' tr i c p m' p' h hl hst rest ih =>
    intro h0 h1 h2
    rcases (h1 _ _ _ h).step h0 hst with ⟨k1, k2⟩ | ⟨hd, k⟩
    · exact ih k1 (upd h1 (fun c' p e => by cases e; exact k2)) h2
    · exact .inr ⟨i, c, hd, rest.doomed (setN_same _ _ _) k⟩
  | lock h hf _ ih =>
    intro h0 h1 h2
    have hk := h1 _ _ _ h
    exact ih h0 (upd h1 (fun c' p e => by cases e; exact hk)) h2
  | unlock h _ ih =>
    intro h0 h1 h2
    have hk := h1 _ _ _ h
    exact ih h0 (upd h1 (fun c' p e => by cases e; exact hk)) h2
  | @ret s s' tr i c p r h hr hne _ ih =>
    intro h0 h1 h2
    rcases ih h0 (upd h1 (fun c' p e => by cases e)) (fun j c' hm => h2 j c' (List.mem_cons_of_mem _ hm)) with ⟨g1, g2⟩ | g
    · refine .inl ⟨g1, fun j c' r' hm => ?_⟩
      rcases List.mem_cons.1 hm with e | hm
      · cases e; exact (h1 _ _ _ h).result hr
      · exact g2 j c' r' hm
    · exact .inr (later g)

end
end Candy
