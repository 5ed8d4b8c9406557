import Verif.Model.Life
import Verif.Proofs.Conc
import Verif.Proofs.FineCrash
/-!
# Lives with concurrent periods
-/
namespace Candy
open Spec

/-- The directory left behind by a dying process can be opened. -/
theorem Dies.recovers {cfg ex t c} {d : Dir} (h : Dies cfg t c d) (hs : Sane cfg ex t) : ∃ m', Recov cfg d m' := by
  cases h with
  | call h hsm hn hd =>
    obtain ⟨h1, h2⟩ := h.sim hs.ok
    obtain ⟨m', p', h3, h4⟩ := hd.recov h1 hsm hn
    exact ⟨m', h4⟩
  | idle hsm hn hd =>
    obtain ⟨m', p', h3, h4⟩ := hd.recov hs.ok hsm hn
    exact ⟨m', h4⟩
  | merge hok hd =>
    obtain ⟨ex', ho, hf⟩ := hok.cases hs
    exact ⟨_, hd.recov ho hok.small hok.spans hf⟩

/-- The files stay well-formed (whatever the lists and queues are). -/
theorem Run.sane {cfg : Cfg} {t t' : Tree} {es : List Event} (h : Run cfg t es t') : ∀ ex, Sane cfg ex t → Sane cfg (exactAfter ex es) t' := by
  induction h with
  | nil t => exact fun ex hs => hs
  | call h hr hne _ ih => exact fun ex hs => ih ex ⟨hs.bound, (h.sim hs.ok).1⟩
  | bg sel hsm h _ ih => exact fun ex hs => ih ex ⟨hs.bound, (bg_get hs.ok hsm h).1⟩
  | merge hok h _ ih => exact fun ex hs => ih ex (merge_get hs hok h).1
  | clear h _ ih => exact fun ex hs => ih true (create_sane h).1
  | reopen hsm hn hu hd h _ ih => exact fun ex hs => ih ex (reopen_get hs hsm hn hu hd h).1
  | crash h hr _ ih =>
    intro ex hs
    obtain ⟨m', h4⟩ := h.recovers hs
    exact ih false ⟨hs.bound, (hr.spec h4).1⟩

/-- Whether the counters are exact after a life: they need not be after a crash. -/
def exactLife : Bool → List Block → Bool
  | b, [] => b
  | b, .seq es :: bs => exactLife (exactAfter b es) bs
  | b, .conc _ :: bs => exactLife b bs
  | _, .died _ :: bs => exactLife false bs

/-- At the end of a fine-grained period. -/
theorem FineRun.ok {cfg : Cfg} {ex : Bool} {t : Tree} {S : FState} {tr : List CEvent} (h : FineRun cfg (FState.idle t) tr S) (hok : Tree.OK cfg ex 0 END_OF_SHARDS t)
    (hq : ∀ i, S.thr i = none) (hb : ∀ l, S.bg l = none) : Tree.OK cfg ex 0 END_OF_SHARDS S.tree := by
  obtain ⟨A, pen, led, _, h1⟩ := h.sim (Sim.idle hok)
  exact h1.ok hq hb

theorem Lives.sane {cfg : Cfg} {t t' : Tree} {bs : List Block} (h : Lives cfg t bs t') : ∀ ex, Sane cfg ex t → Sane cfg (exactLife ex bs) t' := by
  induction h with
  | nil t => exact fun ex h => h
  | seq h rest ih => exact fun ex h1 => ih _ (h.sane ex h1)
  | conc h hq rest ih => exact fun ex h1 => ih _ ⟨h1.bound, (h.abstract h1.ok).1⟩
  | fine h hq hb rest ih => exact fun ex h1 => ih _ ⟨h1.bound, h.ok h1.ok hq hb⟩
  | died h hn hd hr rest ih =>
    intro ex h1
    obtain ⟨A, pen, led, _, hs⟩ := h.sim (Sim.idle h1.ok)
    exact ih false ⟨h1.bound, (hr.spec (hs.crash hn hd)).1⟩

theorem Lives.append {cfg : Cfg} {t t' t'' : Tree} {bs bs' : List Block} (h : Lives cfg t bs t') (h' : Lives cfg t' bs' t'') : Lives cfg t (bs ++ bs') t'' := by
  induction h with
  | nil => exact h'
  | seq h _ ih => exact .seq h (ih h')
  | conc h hq _ ih => exact .conc h hq (ih h')
  | fine h hq hb _ ih => exact .fine h hq hb (ih h')
  | died h hn hd hr _ ih => exact .died h hn hd hr (ih h')

/-- From a quiet state to a quiet state. -/
theorem FineRun.quiet {cfg : Cfg} {t : Tree} {S : FState} {tr : List CEvent} (h : FineRun cfg (FState.idle t) tr S) (hq : ∀ i, S.thr i = none) {ex : Bool} {w : World}
    (hok : Tree.OK cfg ex 0 END_OF_SHARDS t) (hw : MAbs cfg (t.get cfg) w) (hat : Serial cfg tr) :
    ∃ ops w', Linearizes tr ops ∧ SpecRun cfg w (ops.map (fun o => .call o.1 o.2)) w' ∧ MAbs cfg (S.tree.get cfg) w' := by
  obtain ⟨A, pen, led, ha, hs⟩ := h.sim (Sim.idle hok)
  obtain ⟨ops, w', h1, h2, h3⟩ := ha.idle hw hat
  refine ⟨ops, w', h1, h2, ?_⟩
  rw [← hs.map]
  refine h3 (fun i => ?_)
  have := hs.thr i
  rw [hq i] at this
  exact this

theorem Lives.refines {cfg : Cfg} {t t' : Tree} {bs : List Block} (h : Lives cfg t bs t') :
    ∀ ex w, Sane cfg ex t → MAbs cfg (t.get cfg) w → (∀ tr, Block.conc tr ∈ bs ∨ Block.died tr ∈ bs → Serial cfg tr) →
    ∃ es w', Explains bs es ∧ SpecRun cfg w es w' ∧ Sane cfg false t' ∧ MAbs cfg (t'.get cfg) w' := by
  induction h with
  | nil t => exact fun ex w h1 h2 _ => ⟨[], w, .nil, .nil _, h1.weaken, h2⟩
  | seq h rest ih =>
    intro ex w h1 h2 h3
    obtain ⟨w1, g1, g2, g3⟩ := h.refines ex w h1 h2
    obtain ⟨es, w', q1, q2, q3⟩ := ih _ w1 g2 g3 (fun tr hm => h3 tr (hm.imp (List.mem_cons_of_mem _) (List.mem_cons_of_mem _)))
    exact ⟨_, w', .seq _ q1, SpecRun.append g1 q2, q3⟩
  | conc h hq rest ih =>
    intro ex w h1 h2 h3
    obtain ⟨ops, w1, g0, g1, g2, g3⟩ := h.idle hq h1.ok h2 (h3 _ (.inl List.mem_cons_self))
    obtain ⟨es, w', q1, q2, q3⟩ := ih _ w1 ⟨h1.bound, g2⟩ g3 (fun tr hm => h3 tr (hm.imp (List.mem_cons_of_mem _) (List.mem_cons_of_mem _)))
    exact ⟨_, w', .conc ops g0 q1, SpecRun.append g1 q2, q3⟩
  | fine h hq hb rest ih =>
    intro ex w h1 h2 h3
    obtain ⟨ops, w1, g0, g1, g3⟩ := h.quiet hq h1.ok h2 (h3 _ (.inl List.mem_cons_self))
    obtain ⟨es, w', q1, q2, q3⟩ := ih _ w1 ⟨h1.bound, h.ok h1.ok hq hb⟩ g3 (fun tr hm => h3 tr (hm.imp (List.mem_cons_of_mem _) (List.mem_cons_of_mem _)))
    exact ⟨_, w', .conc ops g0 q1, SpecRun.append g1 q2, q3⟩
  | died h hn hd hr rest ih =>
    intro ex w h1 h2 h3
    obtain ⟨A, pen, led, ha, hs⟩ := h.sim (Sim.idle h1.ok)
    obtain ⟨ops, pend, w1, g0, g1, g2⟩ := ha.died h2 (h3 _ (.inr List.mem_cons_self))
    obtain ⟨k1, _, _, _, k5⟩ := hr.spec (hs.crash hn hd)
    obtain ⟨es, w', q1, q2, q3⟩ := ih false w1 ⟨h1.bound, k1⟩ (by rw [k5]; exact g2) (fun tr hm => h3 tr (hm.imp (List.mem_cons_of_mem _) (List.mem_cons_of_mem _)))
    refine ⟨_, w', .died ops pend g0 q1, ?_, q3⟩
    rw [← List.append_assoc]
    exact SpecRun.append g1 q2

end Candy
