import Verif.Model.History
import Verif.Proofs.Calls
import Verif.Proofs.CrashCall
import Verif.Proofs.CrashRun
/-!
# Every history of the store is a history of the ideal store
-/
namespace Candy
open Spec

/-- A history of the ideal store. -/
inductive Spec.SpecRun (cfg : Cfg) : World → List Event → World → Prop
  | nil (w : World) : SpecRun cfg w [] w
  | call {w w' w'' : World} {c : Call} {r : Res Resp} {es : List Event} (h : w.step cfg c r w') (rest : SpecRun cfg w' es w'') :
      SpecRun cfg w (.call c r :: es) w''
  | merge {w w'' : World} {b : Bool} {es : List Event} (rest : SpecRun cfg w es w'') : SpecRun cfg w (.merge b :: es) w''
  | clear {w w'' : World} {es : List Event} (rest : SpecRun cfg World.new es w'') : SpecRun cfg w (.clear :: es) w''
  | reopen {w w'' : World} {es : List Event} (rest : SpecRun cfg w es w'') : SpecRun cfg w (.reopen :: es) w''
  | crash {w w' w'' : World} {c : Option Call} {es : List Event} (h : w.crash cfg c w') (rest : SpecRun cfg w' es w'') :
      SpecRun cfg w (.crash c :: es) w''

/-- Whether the counters of the shards are exact after a history: they need not be after a crash (`clear` starts anew). -/
def exactAfter : Bool → List Event → Bool
  | b, [] => b
  | _, .crash _ :: es => exactAfter false es
  | _, .clear :: es => exactAfter true es
  | b, .call .. :: es => exactAfter b es
  | b, .merge _ :: es => exactAfter b es
  | b, .reopen :: es => exactAfter b es

theorem AExec.trans {cfg : Cfg} {α : Type} {m m' m'' : Map} {p p' p'' : Prog α} (h : AExec cfg m p m' p') (h' : AExec cfg m' p' m'' p'') :
    AExec cfg m p m'' p'' := by
  induction h with
  | refl => exact h'
  | step a _ ih => exact .step a (ih h')

theorem AExec.ret_eq {cfg : Cfg} {α : Type} {m m' : Map} {a : α} {p : Prog α} (h : AExec cfg m (.ret a) m' p) : m' = m := by
  cases h with
  | refl => rfl
  | step a _ => cases a

theorem create_bound {cfg : Cfg} {t : Tree} (h : Tree.create cfg = some t) : cfg.expectedKeys ≤ 65536 * 29491 := by
  refine Nat.le_of_not_lt (fun hlt => ?_)
  have e : Tree.create cfg = none := by
    unfold Tree.create createInitialShards
    rw [calcStep_none hlt]; rfl
  rw [e] at h; simp at h

/-- Facts about the state of a store that do not depend on its contents. -/
structure Sane (cfg : Cfg) (ex : Bool) (t : Tree) : Prop where
  bound : cfg.expectedKeys ≤ 65536 * 29491
  ok : Tree.OK cfg ex 0 END_OF_SHARDS t

theorem create_sane {cfg : Cfg} {t : Tree} (h : Tree.create cfg = some t) : Sane cfg true t ∧ t.get cfg = Map.empty := by
  have hb := create_bound h
  obtain ⟨t', h1, h2, _, _, _, _, _, h3⟩ := Tree.create_spec hb true
  rw [h1] at h; simp only [Option.some.injEq] at h; subst h
  exact ⟨⟨hb, h2⟩, funext h3⟩

theorem Tree.OK.exact {cfg ex lo hi t} (h : Tree.OK cfg ex lo hi t) (he : ∀ s ∈ t.leaves, s.AcctInv true) : Tree.OK cfg true lo hi t := by
  induction h with
  | leaf a b c d e => exact .leaf a b c d (he _ (by simp [Tree.leaves]))
  | vertex a _ _ ih1 ih2 =>
    exact .vertex a (ih1 (fun s hs => he s (List.mem_append_left _ hs))) (ih2 (fun s hs => he s (List.mem_append_right _ hs)))

theorem merge_get {cfg ex t t' maxFill b} (hs : Sane cfg ex t) (hok : MergeOK cfg maxFill t) (h : t.mergeSmall cfg maxFill = .ok (t', b)) :
    Sane cfg ex t' ∧ t'.get cfg = t.get cfg := by
  have key : ∀ ex, Tree.OK cfg ex 0 65536 t → ((ex = true ∧ maxFill ≤ 14745) ∨ t.pot < 4294967296) →
      Tree.OK cfg ex 0 65536 t' ∧ t'.get cfg = t.get cfg := by
    intro ex ho hf
    rcases Tree.mergeSmall_spec ho hok.spans hok.small hf hok.cap hs.bound (Tree.mergeSmall_counted h) with hd | ⟨u, b', h1, h2, _, _, _, _, _, h3, _⟩
    · rw [hd] at h; simp at h
    · rw [h1] at h
      injection h with h; injection h with h _; subst h
      exact ⟨h2, funext h3⟩
  rcases hok.fits with ⟨he, hm⟩ | hp
  · have h2 := key true (hs.ok.exact he) (Or.inl ⟨rfl, hm⟩)
    refine ⟨⟨hs.bound, ?_⟩, h2.2⟩
    cases ex with
    | true => exact h2.1
    | false => exact h2.1.weaken
  · have h2 := key ex hs.ok (Or.inr hp)
    exact ⟨⟨hs.bound, h2.1⟩, h2.2⟩

theorem Tree.OK.anyEx {cfg ex lo hi t} (h : Tree.OK cfg true lo hi t) : Tree.OK cfg ex lo hi t := by
  cases ex with
  | true => exact h
  | false => exact h.weaken

/-- Closing and reopening. -/
theorem reopen_get {cfg ex t u t'} {d : Dir} {ops : List FOp} {clearBad : Bool} (hsane : Sane cfg ex t) (hs : t.Small) (hn : ∀ s ∈ t.leaves, s.lo < s.hi)
    (hu : t.finishAll cfg = some u) (hd : DirOf d u.leaves) (h : openStore cfg clearBad d = (ops, .ok t')) :
    Sane cfg ex t' ∧ t'.NonDegenerate ∧ t'.Small ∧ t'.Quiet ∧ t'.get cfg = t.get cfg ∧ t'.leaves = u.leaves := by
  obtain ⟨u', e', uok, usm, uq, uspan, uval⟩ := Tree.finishAll_spec hsane.ok hs
  rw [hu] at e'; simp only [Option.some.injEq] at e'; subst e'
  have un : u.NonDegenerate := by
    intro s hs
    have : (s.lo, s.hi) ∈ u.leaves.map (fun s => (s.lo, s.hi)) := List.mem_map.2 ⟨s, hs, rfl⟩
    rw [uspan, List.mem_map] at this
    obtain ⟨x, hx, hxe⟩ := this
    have := hn x hx
    simp only [Prod.mk.injEq] at hxe
    omega
  obtain ⟨ops', d', t2, h1, h2, h3, h3', h4, h5, h6, h7, h8⟩ := hd.reopen (clearBad := clearBad) uok un uq usm
  rw [h] at h1
  simp only [Prod.mk.injEq, LRes.ok.injEq] at h1
  obtain ⟨rfl, rfl⟩ := h1
  exact ⟨⟨hsane.bound, h4⟩, h5, h6, h7, h8.trans (funext fun k => uval k ⟨Nat.zero_le _, (cfg.ph k).shardSel_lt⟩), h3'⟩

/-- The condition for `merge_small_shards` in terms of the counters known to be exact. -/
theorem MergeOK.cases {cfg ex maxFill t} (hok : MergeOK cfg maxFill t) (hs : Sane cfg ex t) :
    ∃ ex', Tree.OK cfg ex' 0 END_OF_SHARDS t ∧ ((ex' = true ∧ maxFill ≤ 14745) ∨ t.pot < 4294967296) := by
  rcases hok.fits with ⟨he, hm⟩ | hp
  · exact ⟨true, hs.ok.exact he, Or.inl ⟨rfl, hm⟩⟩
  · exact ⟨ex, hs.ok, Or.inr hp⟩

/-- The directory left behind by a dying process: opening it will give one of the promised states. -/
theorem Dies.recov {cfg ex t c} {d : Dir} {w : World} (h : Dies cfg t c d) (hs : Sane cfg ex t) (hm : MAbs cfg (t.get cfg) w) :
    ∃ w' m', w.crash cfg c w' ∧ MAbs cfg m' w' ∧ Recov cfg d m' := by
  cases h with
  | call h hsm hn hd =>
    obtain ⟨h1, h2⟩ := h.sim hs.ok
    obtain ⟨m', p', h3, h4⟩ := hd.recov h1 hsm hn
    obtain ⟨w1, h5, h6⟩ := call_crash _ hm (h2.trans h3)
    exact ⟨w1, m', h5, h6, h4⟩
  | idle hsm hn hd =>
    obtain ⟨m', p', h3, h4⟩ := hd.recov hs.ok hsm hn
    have e := h3.ret_eq
    subst e
    exact ⟨w, _, rfl, hm, h4⟩
  | merge hok hd =>
    obtain ⟨ex', ho, hf⟩ := hok.cases hs
    exact ⟨w, _, rfl, hm, hd.recov ho hok.small hok.spans hf⟩

/-- **Refinement**: every history of the store is a history of the ideal store, with the same observations. -/
theorem Run.refines {cfg : Cfg} {t t' : Tree} {es : List Event} (h : Run cfg t es t') :
    ∀ ex w, Sane cfg ex t → MAbs cfg (t.get cfg) w → ∃ w', SpecRun cfg w es w' ∧ Sane cfg (exactAfter ex es) t' ∧ MAbs cfg (t'.get cfg) w' := by
  induction h with
  | nil t => exact fun ex w hs hm => ⟨w, .nil _, hs, hm⟩
  | call h hr hne _ ih =>
    intro ex w hs hm
    obtain ⟨h1, h2⟩ := h.sim hs.ok
    obtain ⟨w1, h3, h4⟩ := call_refines _ hm h2 hr hne
    obtain ⟨w2, h5, h6⟩ := ih ex w1 ⟨hs.bound, h1⟩ h4
    exact ⟨w2, .call h3 h5, h6⟩
  | bg sel hsm h _ ih =>
    intro ex w hs hm
    obtain ⟨h1, h2⟩ := bg_get hs.ok hsm h
    exact ih ex w ⟨hs.bound, h1⟩ (h2 ▸ hm)
  | merge hok h _ ih =>
    intro ex w hs hm
    obtain ⟨h1, h2⟩ := merge_get hs hok h
    obtain ⟨w2, h5, h6⟩ := ih ex w h1 (h2 ▸ hm)
    exact ⟨w2, .merge h5, h6⟩
  | clear h _ ih =>
    intro ex w hs hm
    obtain ⟨h1, h2⟩ := create_sane h
    obtain ⟨w2, h5, h6⟩ := ih true World.new h1 (h2 ▸ MAbs.new cfg)
    exact ⟨w2, .clear h5, h6⟩
  | reopen hsm hn hu hd h _ ih =>
    intro ex w hs hm
    obtain ⟨h1, _, _, _, h2, _⟩ := reopen_get hs hsm hn hu hd h
    obtain ⟨w2, h5, h6⟩ := ih ex w h1 (h2 ▸ hm)
    exact ⟨w2, .reopen h5, h6⟩
  | crash h hr _ ih =>
    intro ex w hs hm
    obtain ⟨w1, m', h5, h6, h4⟩ := h.recov hs hm
    obtain ⟨g1, _, _, _, g2⟩ := hr.spec h4
    obtain ⟨w2, h7, h8⟩ := ih false w1 ⟨hs.bound, g1⟩ (g2 ▸ h6)
    exact ⟨w2, .crash h5 h7, h8⟩

/-- A reachable state represents an ideal store with the same history. -/
theorem Reachable.worldEx {cfg : Cfg} {es : List Event} {t : Tree} (h : Reachable cfg es t) :
    ∃ w, SpecRun cfg World.new es w ∧ Sane cfg (exactAfter true es) t ∧ MAbs cfg (t.get cfg) w := by
  obtain ⟨t0, h1, h2⟩ := h
  obtain ⟨h3, h4⟩ := create_sane h1
  exact h2.refines true World.new h3 (h4 ▸ MAbs.new cfg)

theorem Sane.weaken {cfg ex t} (h : Sane cfg ex t) : Sane cfg false t := ⟨h.bound, by cases ex with | true => exact h.ok.weaken | false => exact h.ok⟩

theorem Reachable.world {cfg : Cfg} {es : List Event} {t : Tree} (h : Reachable cfg es t) :
    ∃ w, SpecRun cfg World.new es w ∧ Sane cfg false t ∧ MAbs cfg (t.get cfg) w := by
  obtain ⟨w, h1, h2, h3⟩ := h.worldEx
  exact ⟨w, h1, h2.weaken, h3⟩

theorem Run.append {cfg : Cfg} {t t' t'' : Tree} {es es' : List Event} (h : Run cfg t es t') (h' : Run cfg t' es' t'') :
    Run cfg t (es ++ es') t'' := by
  induction h with
  | nil => exact h'
  | call a b c _ ih => exact .call a b c (ih h')
  | bg s a b _ ih => exact .bg s a b (ih h')
  | merge a b _ ih => exact .merge a b (ih h')
  | clear a _ ih => exact .clear a (ih h')
  | reopen a b c d e _ ih => exact .reopen a b c d e (ih h')
  | crash a b _ ih => exact .crash a b (ih h')

theorem Run.split {cfg : Cfg} {t t'' : Tree} {es es' : List Event} (h : Run cfg t (es ++ es') t'') :
    ∃ t', Run cfg t es t' ∧ Run cfg t' es' t'' := by
  generalize e' : es ++ es' = l at h
  induction h generalizing es with
  | nil t =>
    obtain ⟨rfl, rfl⟩ := List.append_eq_nil_iff.1 e'
    exact ⟨t, .nil _, .nil _⟩
  | @call t1 t2 t3 c p r es1 a b c' h ih =>
    cases es with
    | nil => exact ⟨t1, .nil _, by rw [show es' = _ from e']; exact .call a b c' h⟩
    | cons x es =>
      simp only [List.cons_append, List.cons.injEq] at e'
      obtain ⟨rfl, e'⟩ := e'
      obtain ⟨u, h1, h2⟩ := ih e'
      exact ⟨u, .call a b c' h1, h2⟩
  | bg s a b _ ih =>
    obtain ⟨u, h1, h2⟩ := ih e'
    exact ⟨u, .bg s a b h1, h2⟩
  | @merge t1 t2 t3 es1 mf bb a b h ih =>
    cases es with
    | nil => exact ⟨t1, .nil _, by rw [show es' = _ from e']; exact .merge a b h⟩
    | cons x es =>
      simp only [List.cons_append, List.cons.injEq] at e'
      obtain ⟨rfl, e'⟩ := e'
      obtain ⟨u, h1, h2⟩ := ih e'
      exact ⟨u, .merge a b h1, h2⟩
  | @clear t1 t2 t3 es1 a h ih =>
    cases es with
    | nil => exact ⟨t1, .nil _, by rw [show es' = _ from e']; exact .clear a h⟩
    | cons x es =>
      simp only [List.cons_append, List.cons.injEq] at e'
      obtain ⟨rfl, e'⟩ := e'
      obtain ⟨u, h1, h2⟩ := ih e'
      exact ⟨u, .clear a h1, h2⟩
  | reopen a b c d e h ih =>
    cases es with
    | nil => exact ⟨_, .nil _, by rw [show es' = _ from e']; exact .reopen a b c d e h⟩
    | cons x es =>
      simp only [List.cons_append, List.cons.injEq] at e'
      obtain ⟨rfl, e'⟩ := e'
      obtain ⟨u, h1, h2⟩ := ih e'
      exact ⟨u, .reopen a b c d e h1, h2⟩
  | crash a b h ih =>
    cases es with
    | nil => exact ⟨_, .nil _, by rw [show es' = _ from e']; exact .crash a b h⟩
    | cons x es =>
      simp only [List.cons_append, List.cons.injEq] at e'
      obtain ⟨rfl, e'⟩ := e'
      obtain ⟨u, h1, h2⟩ := ih e'
      exact ⟨u, .crash a b h1, h2⟩

/-- The first call of a history. -/
theorem Run.cons_call {cfg : Cfg} {t t'' : Tree} {c r} {es : List Event} (h : Run cfg t (.call c r :: es) t'') :
    ∃ t', Calls cfg t c r t' ∧ r ≠ .exhausted ∧ Run cfg t' es t'' := by
  generalize e : Event.call c r :: es = l at h
  induction h with
  | nil => simp at e
  | call a b c' h ih =>
    simp only [List.cons.injEq, Event.call.injEq] at e
    obtain ⟨⟨rfl, rfl⟩, rfl⟩ := e
    exact ⟨_, ⟨_, a, b⟩, c', h⟩
  | bg s a b _ ih =>
    obtain ⟨u, ⟨p, h1, h2⟩, h3, h4⟩ := ih e
    exact ⟨u, ⟨p, .bg s a b h1, h2⟩, h3, h4⟩
  | merge => simp at e
  | clear => simp at e
  | reopen => simp at e
  | crash => simp at e

theorem Reachable.call {cfg : Cfg} {es : List Event} {t t' : Tree} {c r} (h : Reachable cfg es t) (hc : Calls cfg t c r t')
    (hne : r ≠ .exhausted) : Reachable cfg (es ++ [.call c r]) t' := by
  obtain ⟨t0, h1, h2⟩ := h
  obtain ⟨p, h3, h4⟩ := hc
  exact ⟨t0, h1, h2.append (.call h3 h4 hne (.nil _))⟩

/-- A call in a reachable state is a step of the ideal store. -/
theorem Reachable.step {cfg : Cfg} {es : List Event} {t t' : Tree} {c r} (h : Reachable cfg es t) (hc : Calls cfg t c r t')
    (hne : r ≠ .exhausted) : ∃ w w', SpecRun cfg World.new es w ∧ MAbs cfg (t.get cfg) w ∧ w.step cfg c r w' ∧ MAbs cfg (t'.get cfg) w' := by
  obtain ⟨w, h1, h2, h3⟩ := h.world
  obtain ⟨p, h4, h5⟩ := hc
  obtain ⟨h6, h7⟩ := h4.sim h2.ok
  obtain ⟨w', h8, h9⟩ := call_refines _ h3 h7 h5 hne
  exact ⟨w, w', h1, h3, h8, h9⟩

end Candy
