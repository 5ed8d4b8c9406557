import Verif.Proofs.Life
/-!
# Invariants of single raw entries

Some facts hold of every raw key by itself, whatever the threads do in whatever order: every program writes only permitted values, provided it reads only permitted
values. No locks are needed for this.
-/
namespace Candy
open Spec

/-- The permitted contents of each raw key. -/
abbrev Typing := Bytes → Option Bytes → Prop

def Typing.Of (T : Typing) (m : Map) : Prop := ∀ k, T k (m k)

/-- The program keeps the contents permitted, returns only values satisfying `Q`, and panics only if `Pan`. -/
def Prog.Types (cfg : Cfg) (T : Typing) (Pan : Prop) {α : Type} (Q : α → Prop) : Prog α → Prop
  | .ret a => Q a
  | .err _ => True
  | .panic => Pan
  | .exhausted => True
  | .get k c => ∀ x, T k x → (c x).Types cfg T Pan Q
  | .ins k v mode c => ∀ x, T k x → T k (insertAt x v mode).1 ∧ (c (insertAt x v mode).2).Types cfg T Pan Q
  | .rem k c => T k none ∧ ∀ x, T k x → (c x).Types cfg T Pan Q
  | .byHash ph suf c => ∀ m l, T.Of m → ByHash cfg m ph suf l → (c l).Types cfg T Pan Q
  | .lock _ c => c.Types cfg T Pan Q
  | .unlock c => c.Types cfg T Pan Q

theorem Typing.Of.upd {T : Typing} {m : Map} (h : T.Of m) {k : Bytes} {x : Option Bytes} (hx : T k x) : T.Of (m.upd k x) := by
  intro k'
  by_cases e : k' = k
  · subst e; rw [Map.upd_same]; exact hx
  · rw [Map.upd_other _ _ e]; exact h k'

section
variable {cfg : Cfg} {T : Typing} {Pan : Prop} {α β : Type} {Q : α → Prop}

theorem Prog.Types.step {m m' : Map} {p p' : Prog α} (h : p.Types cfg T Pan Q) (hm : T.Of m) (hs : AStep cfg m p m' p') :
    T.Of m' ∧ p'.Types cfg T Pan Q := by
  cases hs with
  | get k c => exact ⟨hm, h _ (hm k)⟩
  | insErr => exact ⟨hm, trivial⟩
  | ins k v mode c hs => exact ⟨hm.upd (h _ (hm k)).1, (h _ (hm k)).2⟩
  | rem k c => exact ⟨hm.upd h.1, h.2 _ (hm k)⟩
  | byHash ph suf c l hl => exact ⟨hm, h _ l hm hl⟩
  | lock => exact ⟨hm, h⟩
  | unlock => exact ⟨hm, h⟩

theorem Prog.Types.exec {m m' : Map} {p p' : Prog α} (h : p.Types cfg T Pan Q) (hm : T.Of m) (hs : AExec cfg m p m' p') :
    T.Of m' ∧ p'.Types cfg T Pan Q := by
  induction hs with
  | refl => exact ⟨hm, h⟩
  | step h1 _ ih =>
    obtain ⟨a, b⟩ := h.step hm h1
    exact ih b a

theorem Prog.Types.bind {R : β → Prop} {f : α → Prog β} {p : Prog α} (h : p.Types cfg T Pan Q) (hf : ∀ a, Q a → (f a).Types cfg T Pan R) :
    (p.bind f).Types cfg T Pan R := by
  induction p with
  | ret a => exact hf a h
  | err | exhausted => trivial
  | panic => exact h
  | get k c ih => exact fun x hx => ih x (h x hx)
  | ins k v mode c ih => exact fun x hx => ⟨(h x hx).1, ih _ (h x hx).2⟩
  | rem k c ih => exact ⟨h.1, fun x hx => ih x (h.2 x hx)⟩
  | byHash ph suf c ih => exact fun m l hm hl => ih l (h m l hm hl)
  | lock i c ih => exact ih h
  | unlock c ih => exact ih h

theorem Prog.Types.bind' {R : β → Prop} {f : α → Prog β} {p : Prog α} (h : p.Types cfg T Pan Q) (hf : ∀ a, Q a → (f a).Types cfg T Pan R) :
    (p >>= f).Types cfg T Pan R := h.bind hf

theorem Prog.Types.mono {Q' : α → Prop} {Pan' : Prop} {p : Prog α} (h : p.Types cfg T Pan Q) (hq : ∀ a, Q a → Q' a) (hp : Pan → Pan') : p.Types cfg T Pan' Q' := by
  induction p with
  | ret a => exact hq a h
  | err | exhausted => trivial
  | panic => exact hp h
  | get k c ih => exact fun x hx => ih x (h x hx)
  | ins k v mode c ih => exact fun x hx => ⟨(h x hx).1, ih _ (h x hx).2⟩
  | rem k c ih => exact ⟨h.1, fun x hx => ih x (h.2 x hx)⟩
  | byHash ph suf c ih => exact fun m l hm hl => ih l (h m l hm hl)
  | lock i c ih => exact ih h
  | unlock c ih => exact ih h

theorem types_withLock {i : Nat} {p : Prog α} (h : p.Types cfg T Pan Q) : (Prog.withLock i p).Types cfg T Pan Q :=
  show (p.bind _).Types cfg T Pan Q from h.bind (fun _ h => h)

theorem types_getRaw {k : Bytes} : (Prog.getRaw k).Types cfg T Pan (T k) := fun _ h => h
theorem types_removeRaw {k : Bytes} (h : T k none) : (Prog.removeRaw k).Types cfg T Pan (T k) := ⟨h, fun _ h => h⟩

theorem insertAt_fst (x : Option Bytes) (v : Bytes) (mode : Mode) : (insertAt x v mode).1 = x ∨ (insertAt x v mode).1 = some v := by
  cases x with
  | none => cases mode <;> simp [insertAt]
  | some o =>
    cases mode with
    | set => simp [insertAt]
    | getOrCreate => simp [insertAt]
    | replace e =>
      cases e with
      | none => simp [insertAt]
      | some e => simp only [insertAt]; split <;> simp

theorem types_insertInternal {k v : Bytes} {mode : Mode} (h : T k (some v)) :
    (insertInternal k v mode).Types cfg T Pan (fun s => ∃ x, T k x ∧ s = (insertAt x v mode).2) := by
  intro x hx
  refine ⟨?_, x, hx, rfl⟩
  rcases insertAt_fst x v mode with e | e <;> rw [e] <;> assumption

theorem types_setRaw {k v : Bytes} (h : T k (some v)) : (setRaw k v).Types cfg T Pan anyRes := by
  refine (types_insertInternal h).bind' ?_
  rintro _ ⟨x, _, rfl⟩
  cases x <;> trivial

theorem types_replaceRaw {k v : Bytes} {e : Option Bytes} (h : T k (some v)) : (replaceRaw k v e).Types cfg T Pan anyRes := by
  refine (types_insertInternal h).bind' ?_
  rintro _ ⟨x, _, rfl⟩
  cases x with
  | none => trivial
  | some o =>
    cases e with
    | none => trivial
    | some e =>
      by_cases h : e = o
      · simp only [insertAt, if_pos h]; trivial
      · simp only [insertAt, if_neg h]; trivial

theorem types_gocRaw {k v : Bytes} (h : T k (some v)) : (gocRaw k v).Types cfg T Pan
    (fun st => (st = .createdNew v ∧ T k none) ∨ ∃ b, st = .existingValue b ∧ T k (some b)) := by
  refine (types_insertInternal h).bind' ?_
  rintro _ ⟨x, hx, rfl⟩
  cases x with
  | none => exact Or.inl ⟨rfl, hx⟩
  | some o => exact Or.inr ⟨o, rfl, hx⟩

theorem types_ensureSizes {k v : Bytes} : (ensureSizes k v).Types cfg T Pan anyRes := by
  unfold ensureSizes
  split
  · trivial
  · split <;> trivial

theorem types_idxSucc {n : Nat} : (idxSucc n).Types cfg T Pan (fun x => x = n + 1 ∧ n + 1 < U64) := by
  unfold idxSucc; split
  · exact ⟨rfl, by assumption⟩
  · trivial
theorem types_idxPred {n : Nat} : (idxPred n).Types cfg T Pan (fun x => x = n - 1 ∧ 0 < n) := by
  unfold idxPred; split
  · exact ⟨rfl, by assumption⟩
  · trivial
theorem types_numPred {n : Nat} (h : Pan) : (numPred n).Types cfg T Pan anyRes := by
  unfold numPred; split
  · trivial
  · exact h
theorem types_decMeta {b : Bytes} (h : b.length = 24) :
    (decMeta b).Types cfg T Pan (fun l => l = ⟨dec64 (b.take 8), dec64 ((b.drop 8).take 8), dec64 (b.drop 16)⟩) := by
  unfold decMeta; rw [if_pos h]; rfl
theorem types_splitVal {b : Bytes} (h : 8 ≤ b.length) : (splitVal b).Types cfg T Pan (fun x => b = x.1 ++ x.2 ∧ x.2.length = 8) := by
  unfold splitVal
  rw [if_neg (by omega)]
  exact ⟨(List.take_append_drop _ _).symm, by simp only [List.length_drop]; omega⟩

/-- What is known about the result of a program. -/
def Res.Meets (Pan : Prop) (Q : α → Prop) : Res α → Prop
  | .ok a => Q a
  | .err _ => True
  | .panic => Pan
  | .exhausted => True

theorem Prog.Types.result {p : Prog α} (h : p.Types cfg T Pan Q) {r : Res α} (hr : p.result = some r) : r.Meets Pan Q := by
  cases p <;> simp only [Prog.result, Option.some.injEq, reduceCtorEq] at hr <;> subst hr <;> exact h

end

/-! ## Executions -/

section
variable {cfg : Cfg} {T : Typing}

theorem Run.types {t t' : Tree} {es : List Event} (h : Run cfg t es t') (he : T.Of Map.empty) :
    (∀ c : Call, (∃ e ∈ es, e.begun = some c) → (c.prog cfg).Types cfg T True anyRes) →
    ∀ ex, Sane cfg ex t → T.Of (t.get cfg) → T.Of (t'.get cfg) := by
  have later : ∀ {e : Event} {es : List Event} {c : Call}, (∃ e ∈ es, e.begun = some c) → ∃ e' ∈ e :: es, e'.begun = some c := fun ⟨e', h1, h2⟩ => ⟨e', List.mem_cons_of_mem _ h1, h2⟩
  induction h with
  | nil t => exact fun _ ex hs h => h
  | @call t t1 _ c p r es h hr hne _ ih =>
    intro hp ex hs h0
    obtain ⟨h1, h2⟩ := h.sim hs.ok
    exact ih (fun c h => hp c (later h)) ex ⟨hs.bound, h1⟩ ((hp c ⟨_, List.mem_cons_self, rfl⟩).exec h0 h2).1
  | bg sel hsm h _ ih =>
    intro hp ex hs h0
    obtain ⟨h1, h2⟩ := bg_get hs.ok hsm h
    exact ih hp ex ⟨hs.bound, h1⟩ (h2 ▸ h0)
  | merge hok h _ ih =>
    intro hp ex hs h0
    obtain ⟨h1, h2⟩ := merge_get hs hok h
    exact ih (fun c h => hp c (later h)) ex h1 (h2 ▸ h0)
  | clear h _ ih =>
    intro hp ex hs h0
    obtain ⟨h1, h2⟩ := create_sane h
    exact ih (fun c h => hp c (later h)) true h1 (h2 ▸ he)
  | reopen hsm hn hu hd h _ ih =>
    intro hp ex hs h0
    obtain ⟨h1, _, _, _, h2, _⟩ := reopen_get hs hsm hn hu hd h
    exact ih (fun c h => hp c (later h)) ex h1 (h2 ▸ h0)
  | @crash t t1 _ c es d cb h hr _ ih =>
    intro hp ex hs h0
    suffices hg : ∃ m', T.Of m' ∧ Recov cfg d m' by
      obtain ⟨m', h1, h2⟩ := hg
      obtain ⟨k1, _, _, _, k5⟩ := hr.spec h2
      exact ih (fun c h => hp c (later h)) false ⟨hs.bound, k1⟩ (k5 ▸ h1)
    cases h with
    | @call t1 c p d h hsm hn hd =>
      obtain ⟨h1, h2⟩ := h.sim hs.ok
      obtain ⟨m', p', h3, h4⟩ := hd.recov h1 hsm hn
      exact ⟨m', ((hp c ⟨_, List.mem_cons_self, rfl⟩).exec h0 (h2.trans h3)).1, h4⟩
    | idle hsm hn hd =>
      obtain ⟨m', p', h3, h4⟩ := hd.recov hs.ok hsm hn
      have e := h3.ret_eq
      subst e
      exact ⟨_, h0, h4⟩
    | merge hok hd =>
      obtain ⟨ex', ho, hf⟩ := hok.cases hs
      exact ⟨_, h0, hd.recov ho hok.small hok.spans hf⟩

/-- The programs of all threads are well-typed. -/
theorem AConcRun.types {s s' : AState} {tr : List CEvent} (h : AConcRun cfg s tr s') {Pan : Call → Prop} {Q : Call → Resp → Prop} :
    T.Of s.map → (∀ i c p, s.thr i = some (c, p) → p.Types cfg T (Pan c) (Q c)) →
    (∀ i c, CEvent.inv i c ∈ tr → (c.prog cfg).Types cfg T (Pan c) (Q c)) →
    T.Of s'.map ∧ ∀ i c r, CEvent.ret i c r ∈ tr → r.Meets (Pan c) (Q c) := by
  have upd : ∀ {thr : Nat → Option (Call × Prog Resp)} {i : Nat} {x : Option (Call × Prog Resp)}, (∀ i c p, thr i = some (c, p) → p.Types cfg T (Pan c) (Q c)) →
      (∀ c p, x = some (c, p) → p.Types cfg T (Pan c) (Q c)) → ∀ j c p, setN thr i x j = some (c, p) → p.Types cfg T (Pan c) (Q c) := by
    intro thr i x h1 h2 j c p e
    by_cases hj : j = i
    · subst hj; rw [setN_same] at e; exact h2 c p e
    · rw [setN_other _ _ hj] at e; exact h1 j c p e
  induction h with
  | nil s => exact fun h _ _ => ⟨h, fun i c r hm => by cases hm⟩
  | inv i c h _ ih =>
    intro h0 h1 h2
    obtain ⟨g1, g2⟩ := ih h0 (upd h1 (fun c' p e => by cases e; exact h2 i c List.mem_cons_self)) (fun j c' hm => h2 j c' (List.mem_cons_of_mem _ hm))
    refine ⟨g1, fun j c' r hm => ?_⟩
    rcases List.mem_cons.1 hm with e | hm
    · cases e
    · exact g2 j c' r hm
  | raw h hl hst _ ih =>
    intro h0 h1 h2
    obtain ⟨k1, k2⟩ := (h1 _ _ _ h).step h0 hst
    exact ih k1 (upd h1 (fun c' p e => by cases e; exact k2)) h2
  | lock h hf _ ih =>
    intro h0 h1 h2
    have hk := h1 _ _ _ h
    exact ih h0 (upd h1 (fun c' p e => by cases e; exact hk)) h2
  | unlock h _ ih =>
    intro h0 h1 h2
    have hk := h1 _ _ _ h
    exact ih h0 (upd h1 (fun c' p e => by cases e; exact hk)) h2
  | @ret s s' tr i c p r h hr hne _ ih =>
    intro h0 h1 h2
    obtain ⟨g1, g2⟩ := ih h0 (upd h1 (fun c' p e => by cases e)) (fun j c' hm => h2 j c' (List.mem_cons_of_mem _ hm))
    refine ⟨g1, fun j c' r' hm => ?_⟩
    rcases List.mem_cons.1 hm with e | hm
    · cases e; exact (h1 _ _ _ h).result hr
    · exact g2 j c' r' hm

theorem AConcRun.split {s s' : AState} {tr : List CEvent} (h : AConcRun cfg s tr s') : ∀ pre post, tr = pre ++ post → ∃ s1, AConcRun cfg s pre s1 ∧ AConcRun cfg s1 post s' := by
  induction h with
  | nil s =>
    intro pre post e
    obtain ⟨rfl, rfl⟩ := List.append_eq_nil_iff.1 e.symm
    exact ⟨s, .nil s, .nil s⟩
  | @inv s s' tr i c h rest ih =>
    intro pre post e
    cases pre with
    | nil => cases e; exact ⟨_, .nil _, .inv i c h rest⟩
    | cons x pre =>
      injection e with e1 e2
      subst e1
      obtain ⟨s1, h1, h2⟩ := ih pre post e2
      exact ⟨s1, .inv i c h h1, h2⟩
  | raw h hl hst _ ih =>
    intro pre post e
    obtain ⟨s1, h1, h2⟩ := ih pre post e
    exact ⟨s1, .raw h hl hst h1, h2⟩
  | lock h hf _ ih =>
    intro pre post e
    obtain ⟨s1, h1, h2⟩ := ih pre post e
    exact ⟨s1, .lock h hf h1, h2⟩
  | unlock h _ ih =>
    intro pre post e
    obtain ⟨s1, h1, h2⟩ := ih pre post e
    exact ⟨s1, .unlock h h1, h2⟩
  | @ret s s' tr i c p r h hr hne rest ih =>
    intro pre post e
    cases pre with
    | nil => cases e; exact ⟨_, .nil _, .ret h hr hne rest⟩
    | cons x pre =>
      injection e with e1 e2
      subst e1
      obtain ⟨s1, h1, h2⟩ := ih pre post e2
      exact ⟨s1, .ret h hr hne h1, h2⟩

theorem Lives.types {t t' : Tree} {bs : List Block} (h : Lives cfg t bs t') (he : T.Of Map.empty) :
    (∀ c : Call, (∃ b ∈ bs, b.begins c) → (c.prog cfg).Types cfg T True anyRes) →
    ∀ ex, Sane cfg ex t → T.Of (t.get cfg) → T.Of (t'.get cfg) := by
  have later : ∀ {b : Block} {bs : List Block} {c : Call}, (∃ b ∈ bs, b.begins c) → ∃ b' ∈ b :: bs, b'.begins c := fun ⟨b', h1, h2⟩ => ⟨b', List.mem_cons_of_mem _ h1, h2⟩
  induction h with
  | nil t => exact fun _ ex _ h => h
  | seq h rest ih => exact fun hp ex h1 h2 => ih (fun c h => hp c (later h)) _ (h.sane ex h1) (h.types he (fun c h => hp c ⟨_, List.mem_cons_self, h⟩) ex h1 h2)
  | conc h hq rest ih =>
    intro hp ex h1 h2
    obtain ⟨g1, g2⟩ := h.abstract h1.ok
    refine ih (fun c h => hp c (later h)) ex ⟨h1.bound, g1⟩ (g2.types (Pan := fun _ => True) (Q := fun _ _ => True) h2 (fun i c p e => ?_) (fun i c h => hp c ⟨_, List.mem_cons_self, i, h⟩)).1
    cases e
  | fine h hq hb rest ih =>
    intro hp ex h1 h2
    obtain ⟨A, pen, led, ha, hs⟩ := h.sim (Sim.idle h1.ok)
    refine ih (fun c h => hp c (later h)) ex ⟨h1.bound, h.ok h1.ok hq hb⟩ ?_
    rw [← hs.map]
    refine (ha.types (Pan := fun _ => True) (Q := fun _ _ => True) h2 (fun i c p e => ?_) (fun i c h => hp c ⟨_, List.mem_cons_self, i, h⟩)).1
    cases e
  | died h hn hd hr rest ih =>
    intro hp ex h1 h2
    obtain ⟨A, pen, led, ha, hs⟩ := h.sim (Sim.idle h1.ok)
    obtain ⟨k1, _, _, _, k5⟩ := hr.spec (hs.crash hn hd)
    refine ih (fun c h => hp c (later h)) false ⟨h1.bound, k1⟩ ?_
    rw [k5]
    refine (ha.types (Pan := fun _ => True) (Q := fun _ _ => True) h2 (fun i c p e => ?_) (fun i c h => hp c ⟨_, List.mem_cons_self, i, h⟩)).1
    cases e

end
end Candy
