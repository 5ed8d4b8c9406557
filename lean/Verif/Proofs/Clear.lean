import Verif.Spec.Clear
import Verif.Proofs.Life
/-!
# `clear` concurrent with other calls
-/
namespace Candy
open Spec

theorem isKv_eq (c : Call) : c.isKv = c.onKv := by cases c <;> rfl

/-- Before a clear: some calls. -/
theorem Spec.LinTo.thenC {ph ph' : Nat → Phase} {tr : List CEvent} {ops : List (Call × Res Resp)} (h : LinTo ph tr ops ph') {cl : Nat → Option Bool} {tr' : List XEvent} {es : List Event}
    (h' : LinC ph' cl tr' es) : LinC ph cl (tr.map .ev ++ tr') (ops.map (fun o => .call o.1 o.2) ++ es) := by
  induction h with
  | nil ph => exact h'
  | inv i c h _ ih => exact .inv i c h (ih h')
  | effect i c r h hne _ ih => exact .effect i c r h hne (ih h')
  | ret i c r h _ ih => exact .ret i c r h (ih h')

/-- Between two raw operations, with no critical section in progress, the whole map may be emptied. -/
theorem CInv.clear {cfg : Cfg} {K : Bytes → Prop} {s : CState} {m : Map} {ph : Nat → Phase} {M : Map} {w : World} (h : CInv cfg K ⟨m, s.locks, s.thr⟩ ph M w) (hp : s.NoSection) :
    CInv cfg K ⟨Map.empty, s.locks, s.thr⟩ ph Map.empty World.new := by
  have hno : ∀ i c, ph i = .called c → c.onKv = false → s.locks (c.lockOf cfg) = some i → False := by
    intro i c h1 h2 h3
    obtain ⟨p, g1, g2, _⟩ := (h.thr i).sec h1 h3
    rcases hp i c p g1 with hk | hk
    · rw [isKv_eq, h2] at hk; cases hk
    · exact hk _ h3
  exact ⟨MAbs.new cfg, fun i => (h.thr i).congr (fun _ => Iff.rfl) (fun c h1 h2 h3 => (hno i c h1 h2 h3).elim), fun k _ => rfl, fun k _ _ => rfl⟩

/-- Calls and clears that fit are linearizable. -/
theorem ClearRun.linearizes {cfg : Cfg} {K : Bytes → Prop} {P : CState → Prop} {x x' : XState} {tr : List XEvent} (h : ClearRun cfg P x tr x')
    (hP : ∀ s, P s → s.NoSection) :
    ∀ ph M w, Sane cfg false x.st.tree → CInv cfg K ⟨x.st.tree.get cfg, x.st.locks, x.st.thr⟩ ph M w → (∀ i c, XEvent.ev (.inv i c) ∈ tr → SFits cfg K c) →
      ∃ es ph' M' w', LinC ph x.clr tr es ∧ SpecRun cfg w es w' ∧ Sane cfg false x'.st.tree ∧ CInv cfg K ⟨x'.st.tree.get cfg, x'.st.locks, x'.st.thr⟩ ph' M' w' := by
  induction h with
  | nil s => exact fun ph M w h1 h2 _ => ⟨[], ph, M, w, .nil _ _, .nil _, h1, h2⟩
  | run h rest ih =>
    intro ph M w h1 h2 h3
    obtain ⟨hok, ha⟩ := h.abstract h1.ok
    obtain ⟨ops, ph1, M1, w1, g1, g2, g3⟩ := ha.linearizes ph M w h2 (fun i c hm => h3 i c (List.mem_append_left _ (List.mem_map.2 ⟨_, hm, rfl⟩)))
    obtain ⟨es, ph', M', w', q1, q2, q3⟩ := ih ph1 M1 w1 ⟨h1.bound, hok⟩ g3 (fun i c hm => h3 i c (List.mem_append_right _ hm))
    exact ⟨_, ph', M', w', g1.thenC q1, SpecRun.append g2 q2, q3⟩
  | inv j h rest ih =>
    intro ph M w h1 h2 h3
    obtain ⟨es, ph', M', w', q1, q2⟩ := ih ph M w h1 h2 (fun i c hm => h3 i c (List.mem_cons_of_mem _ hm))
    exact ⟨es, ph', M', w', .clearInv j h q1, q2⟩
  | @clear s clr s' tr t' j h hp ht rest ih =>
    intro ph M w h1 h2 h3
    obtain ⟨g1, g2⟩ := create_sane ht
    have h2' : CInv cfg K ⟨t'.get cfg, s.locks, s.thr⟩ ph Map.empty World.new := by rw [g2]; exact CInv.clear h2 (hP _ hp)
    obtain ⟨es, ph', M', w', q1, q2, q3⟩ := ih ph Map.empty World.new g1.weaken h2' h3
    exact ⟨.clear :: es, ph', M', w', .clear j h q1, .clear q2, q3⟩
  | ret j h rest ih =>
    intro ph M w h1 h2 h3
    obtain ⟨es, ph', M', w', q1, q2⟩ := ih ph M w h1 h2 (fun i c hm => h3 i c (List.mem_cons_of_mem _ hm))
    exact ⟨es, ph', M', w', .clearRet j h q1, q2⟩

/-- The calls of the other threads. -/
def callsOf (tr : List XEvent) : List CEvent := tr.filterMap (fun e => match e with | .ev e => some e | _ => none)

theorem mem_callsOf {tr : List XEvent} {e : CEvent} : e ∈ callsOf tr ↔ XEvent.ev e ∈ tr := by
  unfold callsOf
  rw [List.mem_filterMap]
  constructor
  · rintro ⟨x, hm, h⟩
    cases x with
    | ev e' => cases h; exact hm
    | clearInv j => cases h
    | clearRet j => cases h
  · exact fun h => ⟨_, h, rfl⟩

/-- From a quiet state to a quiet state. -/
theorem ClearRun.idle {cfg : Cfg} {P : CState → Prop} {t : Tree} {x : XState} {tr : List XEvent} (h : ClearRun cfg P (XState.idle t) tr x) (hP : ∀ s, P s → s.NoSection)
    (hq : ∀ i, x.st.thr i = none) {w : World} (hs : Sane cfg false t) (hw : MAbs cfg (t.get cfg) w) (hat : Serial cfg (callsOf tr)) :
    ∃ es w', LinearizesC tr es ∧ SpecRun cfg w es w' ∧ Sane cfg false x.st.tree ∧ MAbs cfg (x.st.tree.get cfg) w' := by
  have hi : CInv cfg (readBy (callsOf tr)) ⟨t.get cfg, fun _ => none, fun _ => none⟩ (fun _ => .out) (t.get cfg) w :=
    ⟨hw, fun i => ⟨rfl, fun l => by simp⟩, fun k _ => rfl, fun k _ _ => rfl⟩
  obtain ⟨es, ph', M', w', h1, h2, h3, h4⟩ := h.linearizes hP _ _ w hs hi (fun i c hm => hat.fits i c (mem_callsOf.2 hm))
  refine ⟨es, w', h1, h2, h3, ?_⟩
  have : x.st.tree.get cfg = M' := funext fun k => h4.agree k (fun i c hh => by
    obtain ⟨p, hp, _⟩ := (h4.thr i).sec hh.1 hh.2
    have hp : x.st.thr i = some (c, p) := hp
    rw [hq] at hp; cases hp)
  rw [this]; exact h4.abs

/-- The calls in progress have begun. -/
theorem ConcRun.calls {cfg : Cfg} {Q : Call → Prop} {s s' : CState} {tr : List CEvent} (h : ConcRun cfg s tr s') (hs : ∀ i c p, s.thr i = some (c, p) → Q c)
    (hQ : ∀ i c, CEvent.inv i c ∈ tr → Q c) : ∀ i c p, s'.thr i = some (c, p) → Q c := by
  have upd : ∀ {thr : Nat → Option (Call × Prog Resp)} {i : Nat} {c : Call} {p' : Prog Resp}, (∀ j d q, thr j = some (d, q) → Q d) → Q c →
      ∀ j d q, setN thr i (some (c, p')) j = some (d, q) → Q d := by
    intro thr i c p' h1 h2 j d q e
    by_cases hj : j = i
    · subst hj; rw [setN_same] at e; cases e; exact h2
    · rw [setN_other _ _ hj] at e; exact h1 j d q e
  induction h with
  | nil s => exact hs
  | inv i c h _ ih => exact ih (upd hs (hQ i c List.mem_cons_self)) (fun j d hm => hQ j d (List.mem_cons_of_mem _ hm))
  | raw h hl _ hc _ ih => exact ih (upd hs (hs _ _ _ h)) hQ
  | lock h hf _ ih => exact ih (upd hs (hs _ _ _ h)) hQ
  | unlock h _ ih => exact ih (upd hs (hs _ _ _ h)) hQ
  | @ret s s' tr i c p r h hr hne _ ih =>
    refine ih (fun j d q e => ?_) (fun j d hm => hQ j d (List.mem_cons_of_mem _ hm))
    have e : setN s.thr i none j = some (d, q) := e
    by_cases hj : j = i
    · subst hj; rw [setN_same] at e; cases e
    · rw [setN_other _ _ hj] at e; exact hs j d q e
  | bg sel _ h _ ih => exact ih hs hQ

/-- If only key-value calls are made, there are no critical sections. -/
theorem ClearRun.onlyKv {cfg : Cfg} {P : CState → Prop} {x x' : XState} {tr : List XEvent} (h : ClearRun cfg P x tr x') :
    (∀ i c p, x.st.thr i = some (c, p) → c.isKv = true) → (∀ i c, XEvent.ev (.inv i c) ∈ tr → c.isKv = true) → ClearRun cfg CState.NoSection x tr x' := by
  induction h with
  | nil s => exact fun _ _ => .nil _
  | run h rest ih =>
    intro h1 h2
    exact .run h (ih (h.calls (Q := fun c => c.isKv = true) h1 (fun i c hm => h2 i c (List.mem_append_left _ (List.mem_map.2 ⟨_, hm, rfl⟩))))
      (fun i c hm => h2 i c (List.mem_append_right _ hm)))
  | inv j h rest ih => exact fun h1 h2 => .inv j h (ih h1 (fun i c hm => h2 i c (List.mem_cons_of_mem _ hm)))
  | clear j h hp ht rest ih => exact fun h1 h2 => .clear j h (fun i c p e => .inl (h1 i c p e)) ht (ih h1 h2)
  | ret j h rest ih => exact fun h1 h2 => .ret j h (ih h1 (fun i c hm => h2 i c (List.mem_cons_of_mem _ hm)))

end Candy
