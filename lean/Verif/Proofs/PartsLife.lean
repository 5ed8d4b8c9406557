import Verif.Proofs.PartsSim
import Verif.Proofs.Life
/-!
# The life of a store in parts
-/
namespace Candy
open Spec

/-- What a part of the call `c` can be. -/
def PartOf (q : Bytes → Bool) (c c' : Call) : Prop :=
  (c'.atomic = true ∧ ∀ lk op, c' = .list lk op → (op = .discard ∨ ∃ par, op = .compact par) → c = c') ∨ ∃ lk ik, c' = .list lk (.get ik) ∧ q lk = true

theorem partOf_looked {q : Bytes → Bool} {c c' : Call} {r : Res Resp} {lk : Bytes} {kv : KV} (h : (c', r) ∈ looked q lk kv) : PartOf q c c' := by
  unfold looked at h
  by_cases hq : q lk = true
  · rw [if_pos hq] at h
    simp only [List.mem_singleton, Prod.mk.injEq] at h
    exact .inr ⟨lk, kv.1, h.1, hq⟩
  · rw [if_neg hq] at h; cases h

theorem partOf_remove {q : Bytes → Bool} {c : Call} {lk ik : Bytes} : PartOf q c (.list lk (.remove ik)) :=
  .inl ⟨rfl, fun lk op e h => by injection e with e1 e2; subst e2; rcases h with h | ⟨_, h⟩ <;> cases h⟩

theorem partOf_pops {q : Bytes → Bool} {c : Call} {lk : Bytes} {ps : List (Call × Res Resp)} {r : Res Resp} (h : Pops q lk ps r) : ∀ c' r', (c', r') ∈ ps → PartOf q c c' := by
  induction h with
  | nothing => intro c' r' hm; cases hm
  | got kv u =>
    intro c' r' hm
    rcases List.mem_append.1 hm with hm | hm
    · exact partOf_looked hm
    · simp only [List.mem_singleton, Prod.mk.injEq] at hm; rw [hm.1]; exact partOf_remove
  | lost kv h ih =>
    intro c' r' hm
    rcases List.mem_append.1 hm with hm | hm
    · exact partOf_looked hm
    · rcases List.mem_cons.1 hm with hm | hm
      · injection hm with h1 h2; rw [h1]; exact partOf_remove
      · exact ih c' r' hm
  | failed kv h =>
    intro c' r' hm
    rcases List.mem_append.1 hm with hm | hm
    · exact partOf_looked hm
    · simp only [List.mem_singleton, Prod.mk.injEq] at hm; rw [hm.1]; exact partOf_remove

theorem partOf_self {q : Bytes → Bool} {c : Call} (h : c.atomic = true) : PartOf q c c := .inl ⟨h, fun _ _ _ _ => rfl⟩

theorem partOf_queue {q : Bytes → Bool} {c : Call} {qk : Bytes} {op : QOp} (h : (Call.queue qk op).atomic = true) : PartOf q c (.queue qk op) := .inl ⟨h, fun _ _ e _ => by cases e⟩

theorem does_parts {q : Bytes → Bool} {c : Call} {ps : List (Call × Res Resp)} {r : Res Resp} (h : Does q c ps r) : ∀ c' r', (c', r') ∈ ps → PartOf q c c' := by
  intro c' r' hm
  have single : c.atomic = true → ps = [(c, r)] → PartOf q c c' := by
    intro ha e
    rw [e] at hm
    simp only [List.mem_singleton, Prod.mk.injEq] at hm
    rw [hm.1]; exact partOf_self ha
  cases c with
  | kv k op => exact single rfl h
  | typed k op => exact single rfl h
  | list lk op =>
    cases op with
    | set ik v => exact single rfl h
    | setPromoting ik v =>
      rcases h with ⟨x, rfl⟩ | ⟨_, rfl⟩
      · simp only [List.mem_cons, Prod.mk.injEq, List.not_mem_nil, or_false] at hm
        rcases hm with ⟨e, _⟩ | ⟨e, _⟩ <;> rw [e]
        · exact partOf_remove
        · exact .inl ⟨rfl, fun lk op e h => by injection e with e1 e2; subst e2; rcases h with h | ⟨_, h⟩ <;> cases h⟩
      · simp only [List.mem_singleton, Prod.mk.injEq] at hm; rw [hm.1]; exact partOf_remove
    | pop _ => exact partOf_pops h c' r' hm
    | get ik =>
      by_cases hq : q lk = true
      · simp only [Does, if_pos hq] at h
        rw [h] at hm
        simp only [List.mem_singleton, Prod.mk.injEq] at hm
        exact .inr ⟨lk, ik, hm.1, hq⟩
      · simp only [Does, if_neg hq] at h
        rw [h.1] at hm; cases hm
    | iter _ =>
      obtain ⟨l, _, rfl⟩ := h
      obtain ⟨kv, _, hm⟩ := List.mem_flatMap.1 hm
      exact partOf_looked hm
    | peek _ =>
      obtain ⟨l, _, rfl⟩ := h
      obtain ⟨kv, _, hm⟩ := List.mem_flatMap.1 hm
      exact partOf_looked hm
    | len => rw [h.1] at hm; cases hm
    | _ => exact single rfl h
  | queue qk op =>
    cases op with
    | iter _ => obtain ⟨_, _, l, rfl, _⟩ := h; simp only [List.mem_singleton, Prod.mk.injEq] at hm; rw [hm.1]; exact partOf_queue rfl
    | peek _ => obtain ⟨_, _, l, rfl, _⟩ := h; simp only [List.mem_singleton, Prod.mk.injEq] at hm; rw [hm.1]; exact partOf_queue rfl
    | getBig => obtain ⟨_, _, l, rfl, _⟩ := h; simp only [List.mem_singleton, Prod.mk.injEq] at hm; rw [hm.1]; exact partOf_queue rfl
    | setBig v =>
      rcases h with ⟨b, x, rfl, _⟩ | ⟨_, b, rfl⟩ | ⟨_, rfl⟩
      · simp only [List.mem_cons, Prod.mk.injEq, List.not_mem_nil, or_false] at hm
        rcases hm with ⟨e, _⟩ | ⟨e, _⟩ <;> rw [e] <;> exact partOf_queue rfl
      · simp only [List.mem_cons, Prod.mk.injEq, List.not_mem_nil, or_false] at hm
        rcases hm with ⟨e, _⟩ | ⟨e, _⟩ <;> rw [e] <;> exact partOf_queue rfl
      · simp only [List.mem_singleton, Prod.mk.injEq] at hm; rw [hm.1]; exact partOf_queue rfl
    | _ => exact single rfl h

def PPhase.In (c : Call) : PPhase → Prop
  | .out => False
  | .between c' _ => c = c'
  | .inside c' _ _ => c = c'

/-- Every part in the history of parts is a part of a call of the history. -/
theorem Spec.Splits.parts {q : Bytes → Bool} {ph : Nat → PPhase} {tr tr' : List CEvent} (h : Splits q ph tr tr') :
    ∀ i c', CEvent.inv i c' ∈ tr' → ∃ c, (CEvent.inv i c ∈ tr ∨ PPhase.In c (ph i)) ∧ PartOf q c c' := by
  have other : ∀ {ph : Nat → PPhase} {i j : Nat} {x : PPhase} {c : Call}, PPhase.In c (setN ph i x j) → (j = i ∧ PPhase.In c x) ∨ PPhase.In c (ph j) := by
    intro ph i j x c hh
    by_cases hj : j = i
    · subst hj; rw [setN_same] at hh; exact .inl ⟨rfl, hh⟩
    · rw [setN_other _ _ hj] at hh; exact .inr hh
  induction h with
  | nil ph => intro i c' hm; cases hm
  | inv i c h rest ih =>
    intro j c' hm
    obtain ⟨c0, h1 | h1, h2⟩ := ih j c' hm
    · exact ⟨c0, .inl (List.mem_cons_of_mem _ h1), h2⟩
    · rcases other h1 with ⟨rfl, rfl⟩ | h1
      · exact ⟨_, .inl List.mem_cons_self, h2⟩
      · exact ⟨c0, .inr h1, h2⟩
  | @start ph tr tr' i c done c' h hd rest ih =>
    intro j c1 hm
    rcases List.mem_cons.1 hm with e | hm
    · injection e with e1 e2
      subst e1 e2
      obtain ⟨r', rs, r, hd⟩ := hd
      exact ⟨c, .inr (by rw [h]; rfl), does_parts hd _ r' (by simp)⟩
    · obtain ⟨c0, h1 | h1, h2⟩ := ih j c1 hm
      · exact ⟨c0, .inl h1, h2⟩
      · rcases other h1 with ⟨rfl, rfl⟩ | h1
        · exact ⟨_, .inr (by rw [h]; rfl), h2⟩
        · exact ⟨c0, .inr h1, h2⟩
  | finish r h rest ih =>
    intro j c1 hm
    rcases List.mem_cons.1 hm with e | hm
    · cases e
    · obtain ⟨c0, h1 | h1, h2⟩ := ih j c1 hm
      · exact ⟨c0, .inl h1, h2⟩
      · rcases other h1 with ⟨rfl, rfl⟩ | h1
        · exact ⟨_, .inr (by rw [h]; rfl), h2⟩
        · exact ⟨c0, .inr h1, h2⟩
  | ret r h hd rest ih =>
    intro j c1 hm
    obtain ⟨c0, h1 | h1, h2⟩ := ih j c1 hm
    · exact ⟨c0, .inl (List.mem_cons_of_mem _ h1), h2⟩
    · rcases other h1 with ⟨rfl, hh⟩ | h1
      · exact hh.elim
      · exact ⟨c0, .inr h1, h2⟩

/-- The parts are calls that are known to be linearizable. -/
theorem Spec.InParts.serial {cfg : Cfg} {tr tr' : List CEvent} (h : InParts cfg tr tr') : Serial cfg tr' := by
  have hp : ∀ i c', CEvent.inv i c' ∈ tr' → ∃ c, CEvent.inv i c ∈ tr ∧ PartOf (quietIn cfg tr) c c' := by
    intro i c' hm
    obtain ⟨c, h1 | h1, h2⟩ := Splits.parts h i c' hm
    · exact ⟨c, h1, h2⟩
    · exact h1.elim
  intro i c' hm
  obtain ⟨c, h1, ⟨h2, _⟩ | ⟨lk, ik, h2, h3⟩⟩ := hp i c' hm
  · exact .inl h2
  · refine .inr ⟨lk, ik, h2, fun j lk' op hj hph => ?_⟩
    obtain ⟨c0, g1, g2⟩ := hp j _ hj
    have hq := List.all_eq_true.1 h3 _ g1
    constructor
    · rintro rfl
      rcases g2 with ⟨_, g2⟩ | ⟨_, _, g2, _⟩
      · have := g2 lk' _ rfl (.inl rfl)
        subst this
        simp only [decide_eq_true_eq] at hq
        exact hq hph
      · cases g2
    · rintro par rfl
      rcases g2 with ⟨_, g2⟩ | ⟨_, _, g2, _⟩
      · have := g2 lk' _ rfl (.inr ⟨_, rfl⟩)
        subst this
        simp only [decide_eq_true_eq] at hq
        exact hq hph
      · cases g2

theorem PSim.idle {cfg : Cfg} {q : Bytes → Bool} {m : Map} (hm : (Shape cfg).Of m) : PSim cfg q ⟨m, fun _ => none, fun _ => none⟩ ⟨m, fun _ => none, fun _ => none⟩ (fun _ => .out) :=
  ⟨rfl, fun _ _ e => e, hm, fun _ _ _ e => (by cases e), fun _ => ⟨rfl, rfl, fun _ e => by cases e⟩⟩

/-- A concurrent execution from a quiet state, in parts. -/
theorem AConcRun.parts {cfg : Cfg} {m : Map} {s : AState} {tr : List CEvent} (h : AConcRun cfg ⟨m, fun _ => none, fun _ => none⟩ tr s) (hm : (Shape cfg).Of m) :
    ∃ tr' s', AConcRun cfg ⟨m, fun _ => none, fun _ => none⟩ tr' s' ∧ InParts cfg tr tr' ∧ (Shape cfg).Of s.map ∧ s'.map = s.map ∧ ∀ i, s.thr i = none → s'.thr i = none :=
  h.inParts _ _ (PSim.idle hm)

/-- The life of a store is explained, with calls of any kind in the concurrent periods. -/
theorem Lives.parts {cfg : Cfg} {t t' : Tree} {bs : List Block} (h : Lives cfg t bs t') :
    ∀ ex w, Sane cfg ex t → MAbs cfg (t.get cfg) w → (Shape cfg).Of (t.get cfg) →
    ∃ bs' es w', LifeInParts cfg bs bs' ∧ Explains bs' es ∧ SpecRun cfg w es w' ∧ Sane cfg false t' ∧ MAbs cfg (t'.get cfg) w' := by
  have hty : ∀ c : Call, (c.prog cfg).Types cfg (Shape cfg) True anyRes := fun c => types_call c (fun _ => trivial)
  induction h with
  | nil t => exact fun ex w h1 h2 _ => ⟨[], [], w, .nil, .nil, .nil _, h1.weaken, h2⟩
  | seq h rest ih =>
    intro ex w h1 h2 h3
    obtain ⟨w1, g1, g2, g3⟩ := h.refines ex w h1 h2
    obtain ⟨bs', es, w', q0, q1, q2, q3⟩ := ih _ w1 g2 g3 (h.types shape_empty (fun c _ => hty c) ex h1 h3)
    exact ⟨_, _, w', .seq _ q0, .seq _ q1, SpecRun.append g1 q2, q3⟩
  | conc h hq rest ih =>
    intro ex w h1 h2 h3
    obtain ⟨k1, ha⟩ := h.abstract h1.ok
    obtain ⟨tr', s', p1, p2, p3, p4, p5⟩ := ha.parts h3
    obtain ⟨ops, w1, g0, g1, g2⟩ := p1.idle h2 p2.serial
    obtain ⟨bs', es, w', q0, q1, q2, q3⟩ := ih _ w1 ⟨h1.bound, k1⟩ (by
      have := g2 (fun i => p5 i (hq i))
      rw [p4] at this; exact this) p3
    exact ⟨_, _, w', .conc p2 q0, .conc ops g0 q1, SpecRun.append g1 q2, q3⟩
  | fine h hq hb rest ih =>
    intro ex w h1 h2 h3
    obtain ⟨A, pen, led, ha, hs⟩ := h.sim (Sim.idle h1.ok)
    obtain ⟨tr', s', p1, p2, p3, p4, p5⟩ := ha.parts h3
    obtain ⟨ops, w1, g0, g1, g2⟩ := p1.idle h2 p2.serial
    rw [hs.map] at p3 p4
    obtain ⟨bs', es, w', q0, q1, q2, q3⟩ := ih _ w1 ⟨h1.bound, h.ok h1.ok hq hb⟩ (by
      have := g2 (fun i => p5 i (by
        have := hs.thr i
        rw [hq i] at this
        exact this))
      rw [p4] at this; exact this) p3
    exact ⟨_, _, w', .conc p2 q0, .conc ops g0 q1, SpecRun.append g1 q2, q3⟩
  | died h hn hd hr rest ih =>
    intro ex w h1 h2 h3
    obtain ⟨A, pen, led, ha, hs⟩ := h.sim (Sim.idle h1.ok)
    obtain ⟨tr', s', p1, p2, p3, p4, p5⟩ := ha.parts h3
    obtain ⟨ops, pend, w1, g0, g1, g2⟩ := p1.died h2 p2.serial
    obtain ⟨k1, _, _, _, k5⟩ := hr.spec (hs.crash hn hd)
    obtain ⟨bs', es, w', q0, q1, q2, q3⟩ := ih false w1 ⟨h1.bound, k1⟩ (by rw [k5, ← p4]; exact g2) (by rw [k5]; exact p3)
    refine ⟨_, _, w', .died p2 q0, .died ops pend g0 q1, ?_, q3⟩
    rw [← List.append_assoc]
    exact SpecRun.append g1 q2

end Candy
