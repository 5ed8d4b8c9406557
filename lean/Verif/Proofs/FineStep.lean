import Verif.Proofs.FineSim
import Verif.Proofs.Pairs
/-!
# Each step of a fine-grained execution
-/
namespace Candy
open Spec

theorem Tree.Shape.leaf_le {lo hi : Nat} {t : Tree} (h : Tree.Shape lo hi t) {s : Shard} (hs : s ∈ t.leaves) : s.lo ≤ s.hi := by
  induction h with
  | leaf hlo hhi hle => cases List.mem_singleton.1 hs; rw [hlo, hhi]; exact hle
  | vertex _ _ _ ih1 ih2 =>
    rw [Tree.leaves_vertex] at hs
    rcases List.mem_append.1 hs with hs | hs
    · exact ih1 hs
    · exact ih2 hs

theorem Tree.Shape.ok {cfg : Cfg} {ex : Bool} {lo hi : Nat} {t : Tree} (h : Tree.Shape lo hi t) (hs : ∀ s ∈ t.leaves, s.Inv cfg ∧ s.AcctInv ex) : Tree.OK cfg ex lo hi t := by
  induction h with
  | leaf hlo hhi hle =>
    have := hs _ (List.mem_singleton.2 rfl)
    exact .leaf hlo hhi hle this.1 this.2
  | vertex hle _ _ ih1 ih2 =>
    rw [Tree.leaves_vertex] at hs
    exact .vertex hle (ih1 (fun s h => hs s (List.mem_append.2 (.inl h)))) (ih2 (fun s h => hs s (List.mem_append.2 (.inr h))))

/-- A thread without row lock is not at work. -/
theorem idle_zero {cfg : Cfg} {S : FState} {led : Ledger} {i : Nat} (h : onRun (S.thr i) = false) :
    ∀ X sel, Actors cfg S.tree S.bg S.thr (.inl i) X sel → ∀ k, led (.inl i) X.lo X.sd k = 0 := by
  intro X sel hw
  cases hw with
  | thr h1 _ => rw [h1] at h; cases h

theorem Sim.mem {cfg : Cfg} {S : FState} {A : AState} {ex : Bool} {pen : Who → Option Reg} {led : Ledger} (h : Sim cfg ex S A pen led) {i : Nat} {c : Call} {p : Prog Resp} {op : ROp}
    {sd : Side} {m m' : MProg (Ans × Option Nat)} {sh' : Shard} (hi : S.thr i = some (c, p, .run sd m)) (ho : p.rop = some op)
    (hf : (S.shard cfg op).Fits) (hm : m.step (S.shard cfg op) = some (sh', m')) :
    ∃ A' pen' led', AConcRun cfg A [] A' ∧ Sim cfg ex { S.fly i c p (.run sd m') with tree := S.tree.modify (op.ph cfg).shardSel (fun _ => sh') } A' pen' led' := by
  have hti := h.thr i
  rw [hi] at hti
  obtain ⟨op', cm, ho', hop, hcm, hA, hled, hsafe⟩ := hti
  rw [ho] at ho'; cases ho'
  have hw := Actors.thr (cfg := cfg) (t := S.tree) (bg := S.bg) hi ho
  obtain ⟨hsel, hcfg, hok⟩ := h.core.act _ _ _ hw
  obtain ⟨cm', pen', hcase, hsafe'⟩ := hsafe.step hok hf hm
  rcases hcase with ⟨rfl, rfl, rfl⟩ | ⟨hwr, g, heff⟩
  · -- a load
    refine ⟨A, pen, led, .nil _, ?_⟩
    have ht : S.tree.modify (op.ph cfg).shardSel (fun _ => S.shard cfg op) = S.tree := S.tree.modify_self _
    show Sim cfg ex { S.fly i c p (.run sd m') with tree := S.tree.modify (op.ph cfg).shardSel (fun _ => S.shard cfg op) } A pen led
    rw [ht]
    have hiff : ∀ b Y sel', Actors cfg S.tree S.bg (setN S.thr i (some (c, p, .run sd m'))) b Y sel' ↔ Actors cfg S.tree S.bg S.thr b Y sel' :=
      fun b Y sel' => ⟨fun h' => h'.same (SameThr.set hi).symm (.refl _ _) (fun _ _ => ⟨rfl, rfl⟩),
        fun h' => h'.same (SameThr.set hi) (.refl _ _) (fun _ _ => ⟨rfl, rfl⟩)⟩
    refine ⟨h.core.congr hiff, h.map, h.locks, fun j => ?_, h.bgt, h.bgl, h.bal.congr hiff, h.empt⟩
    show TSim cfg S.tree _ _ (setN S.thr i _ j) _
    by_cases e : j = i
    · subst e; rw [setN_same]; exact ⟨op, cm', ho, hop, hcm, hA, hled, hsafe'⟩
    · rw [setN_other _ _ e]; exact h.thr j
  · -- a store
    have hx : ∀ k, surplus (sh'.file sd) k - cm'.led k = surplus ((S.tree.find (op.ph cfg).shardSel).file sd) k - led (.inl i) (S.tree.find (op.ph cfg).shardSel).lo sd k := fun k => by
      have := heff.2.1 k; rw [hled] at this; exact this
    obtain ⟨w1, w2, w3, w4, w5, w6, w7, w8⟩ := h.write (S' := { S.fly i c p (.run sd m') with tree := S.tree.modify (op.ph cfg).shardSel (fun _ => sh') })
      hw hwr g hx heff.2.2 rfl (SameThr.set hi) (.refl _ _)
    have hspan := w4 _ hsel
    have mk : ∀ A' : AState, A'.map = (S.tree.modify (op.ph cfg).shardSel (fun _ => sh')).get cfg → A'.locks = A.locks → (∀ j, j ≠ i → A'.thr j = A.thr j) →
        cm'.cm ≠ some (.st .splitNeeded) → A'.thr i = some (c, p.after cm'.cm) →
        Sim cfg ex { S.fly i c p (.run sd m') with tree := S.tree.modify (op.ph cfg).shardSel (fun _ => sh') } A' (setP pen (.inl i) pen')
          (setL led (.inl i) (S.tree.find (op.ph cfg).shardSel).lo sd cm'.led) := by
      intro A' hmap hlocks hthr hcm' hAi
      refine ⟨w1, hmap, hlocks.trans h.locks, fun j => ?_, fun sel' r m hs hbg => w6 sel' r m hs (fun e => by cases e) hbg, w7, w8, h.empt.modify ?_⟩
      rotate_left
      · have := h.core.shape.find (spanAll hsel)
        rw [g.span.1, g.span.2.1]; exact Nat.lt_of_le_of_lt this.1.1 this.1.2
      by_cases e : j = i
      · subst e
        show TSim cfg _ _ _ (setN S.thr j _ j) _
        rw [setN_same, setP_same]
        refine ⟨op, cm', ho, hop, hcm', hAi, ?_, ?_⟩
        · have e1 : ((S.tree.modify (op.ph cfg).shardSel (fun _ => sh')).find (op.ph cfg).shardSel).lo = (S.tree.find (op.ph cfg).shardSel).lo := hspan.1
          exact (setL_same _ _ _ _ _).symm.trans (by rw [← e1])
        show Safe (op.actor cfg ((S.tree.modify (op.ph cfg).shardSel (fun _ => sh')).find (op.ph cfg).shardSel).lo ((S.tree.modify (op.ph cfg).shardSel (fun _ => sh')).find (op.ph cfg).shardSel).hi sd) _ _ _ _
          ((S.tree.modify (op.ph cfg).shardSel (fun _ => sh')).find (op.ph cfg).shardSel)
        have e1 : ((S.tree.modify (op.ph cfg).shardSel (fun _ => sh')).find (op.ph cfg).shardSel).lo = (S.tree.find (op.ph cfg).shardSel).lo := hspan.1
        have e2 : ((S.tree.modify (op.ph cfg).shardSel (fun _ => sh')).find (op.ph cfg).shardSel).hi = (S.tree.find (op.ph cfg).shardSel).hi := hspan.2
        have e3 : (S.tree.modify (op.ph cfg).shardSel (fun _ => sh')).find (op.ph cfg).shardSel = sh' := w2
        rw [e1, e2, e3]; exact hsafe'
      · rw [hthr j e]; exact w5 j (fun e' => e (by cases e'; rfl))
    rcases heff.1 with ⟨ecm, hv⟩ | ⟨ecm, a, ea, hcommit⟩
    · exact ⟨A, _, _, .nil _, mk A (h.map.trans (get_same (sh' := sh') (sel := (op.ph cfg).shardSel) w3 hv).symm) rfl (fun _ _ => rfl) (by rw [ecm]; exact hcm) (by rw [ecm]; exact hA)⟩
    · -- the operation takes effect
      rw [ecm] at hA
      rw [ea] at mk
      obtain ⟨c1, c2, c3, c4, c5⟩ := commit_step ho hop (M := A.map)
      have key : ∀ k x, (cfg.ph k).shardSel = (op.ph cfg).shardSel → (∀ k', sh'.val cfg k' = Map.upd ((S.tree.find (op.ph cfg).shardSel).val cfg) k x k') →
          AStep cfg A.map p (A.map.upd k x) (p.resume a) → a ≠ .st .splitNeeded →
          ∃ A' pen' led', AConcRun cfg A [] A' ∧ Sim cfg ex { S.fly i c p (.run sd m') with tree := S.tree.modify (op.ph cfg).shardSel (fun _ => sh') } A' pen' led' := by
        intro k x hk hv hstep hne
        refine ⟨{ A with map := A.map.upd k x, thr := setN A.thr i (some (c, p.resume a)) }, setP pen (.inl i) pen', _, .raw hA c5 hstep (.nil _), mk _ ?_ rfl (fun j e => setN_other _ _ e) (fun e => hne (by injection e)) (setN_same _ _ _)⟩
        show A.map.upd k x = _
        rw [h.map]
        exact (get_upd (sh' := sh') w3 w2 hk hv).symm
      cases hcommit with
      | ins k v mode hX hv =>
        have hX' : op = .ins k v mode := by injection hX
        subst hX'
        have := c2 k v mode rfl
        rw [h.map] at this key
        exact key k _ rfl hv this (fun e => insertAt_ne_split _ _ _ (by injection e))
      | rem k hX hv =>
        have hX' : op = .rem k := by injection hX
        subst hX'
        have := c3 k rfl
        rw [h.map] at this key
        exact key k _ rfl hv this (fun e => by cases e)

theorem Sim.row {cfg : Cfg} {S : FState} {A : AState} {ex : Bool} {pen : Who → Option Reg} {led : Ledger} (h : Sim cfg ex S A pen led) {i : Nat} {c : Call} {p : Prog Resp} {op : ROp}
    (hi : S.thr i = some (c, p, .files)) (ho : p.rop = some op)
    (hx : ¬ S.Busy cfg (some i) (S.shard cfg op).lo (fun op' fl => fl.onRow = true ∧ (op'.ph cfg).rowSel = (op.ph cfg).rowSel ∧
        (op.writes = true ∨ op'.writes = true)))
    (hb : ∀ r m, S.bg (S.shard cfg op).lo = some (r, m) → r ≠ (op.ph cfg).rowSel) :
    Sim cfg ex (S.fly i c p (.run ((S.shard cfg op).sideOf (op.ph cfg).rowSel)
        (op.code cfg ((S.shard cfg op).sideOf (op.ph cfg).rowSel) (S.shard cfg op).tgt.isSome))) A (setP pen (.inl i) none) led := by
  have hti := h.thr i
  rw [hi] at hti
  obtain ⟨hA, op', ho', hop⟩ := hti
  rw [ho] at ho'; cases ho'
  have hsel := (op.ph cfg).shardSel_lt
  have hsok := h.core.shard _ hsel
  have hok : OKs (op.actor cfg (S.shard cfg op).lo (S.shard cfg op).hi ((S.shard cfg op).sideOf (op.ph cfg).rowSel)) none (S.shard cfg op) := by
    refine ⟨rfl, rfl, (op.ph cfg).rowSel_lt, hsok.files, fun e => ?_, fun _ => rfl, fun e => (by cases e), .none _, fun e => (by cases e)⟩
    have e : (S.shard cfg op).sideOf (op.ph cfg).rowSel = .tgt := e
    rw [Shard.sideOf_eq] at e
    by_cases e' : (S.shard cfg op).tgt.isSome = true ∧ (op.ph cfg).rowSel < ((S.shard cfg op).file .tgt).compactedUpTo
    · exact e'.1
    · rw [if_neg e'] at e; cases e
  have hnew : ∀ X sel, ¬ Actors cfg S.tree S.bg S.thr (.inl i) X sel := fun X sel hw => by
    cases hw with
    | thr h1 h2 => rw [hi] at h1; cases h1
  have hold : ∀ a X sel, Actors cfg S.tree S.bg S.thr a X sel → Actors cfg S.tree S.bg (setN S.thr i (some (c, p, .run ((S.shard cfg op).sideOf (op.ph cfg).rowSel)
        (op.code cfg ((S.shard cfg op).sideOf (op.ph cfg).rowSel) (S.shard cfg op).tgt.isSome)))) a X sel := fun a X sel hw => by
    cases hw with
    | @thr j c' p' sd m op' h1 h2 =>
      have hne : j ≠ i := fun e => by rw [e, hi] at h1; cases h1
      exact .thr (by show setN S.thr i _ j = _; rw [setN_other _ _ hne]; exact h1) h2
    | bg hs h1 => exact .bg hs h1
  refine ⟨?_, h.map, h.locks, fun j => ?_, fun sel r m hs hbg => ?_, h.bgl, h.bal.drop (fun a X sel hw => .inl (hold a X sel hw)), h.empt⟩
  · refine h.core.add (a0 := .inl i) (X0 := op.actor cfg (S.shard cfg op).lo (S.shard cfg op).hi ((S.shard cfg op).sideOf (op.ph cfg).rowSel)) (sel0 := (op.ph cfg).shardSel)
      hsel rfl hold (fun a X sel hw => ?_) hnew hok (fun a X sel hw hlo hor e => ?_) (fun a X sel hw hlo e => ?_)
    · cases hw with
      | @thr j c' p' sd m op' h1 h2 =>
        by_cases e : j = i
        · subst e
          have h1 : setN S.thr j _ j = _ := h1
          rw [setN_same] at h1
          cases h1
          rw [ho] at h2; cases h2
          exact .inr ⟨rfl, rfl, hsel, rfl⟩
        · have h1 : setN S.thr i _ j = _ := h1
          rw [setN_other _ _ e] at h1
          exact .inl (.thr h1 h2)
      | bg hs h1 => exact .inl (.bg hs h1)
    · cases hw with
      | @thr j c' p' sd m op' h1 h2 =>
        have hne : j ≠ i := fun e => by rw [e, hi] at h1; cases h1
        exact hx ⟨j, c', p', _, op', fun e => hne (by injection e), h1, h2, hlo, rfl, e.symm, hor⟩
      | bg hs h1 =>
        have hlo : (S.tree.find sel).lo = (S.shard cfg op).lo := hlo
        rw [hlo] at h1
        exact hb _ _ h1 e.symm
    · cases e.1
  · show TSim cfg S.tree _ _ (setN S.thr i _ j) _
    by_cases e : j = i
    · subst e
      rw [setN_same, setP_same]
      refine ⟨op, Gh.zero, ho, hop, (fun e => by cases e), hA, (h.bal.zero hnew _ _).symm, ?_⟩
      exact ROp.safe hok ((h.core.shape.find (spanAll hsel)).1) (fun k v mode e => sizeErr_lt (hop k v mode e)) _
    · rw [setN_other _ _ e, setP_other _ _ (fun e' => e (by cases e'; rfl))]; exact h.thr j
  · rw [setP_other _ _ (fun e' => by cases e')]; exact h.bgt sel r m hs hbg

/-- The end of a raw operation. -/
theorem Sim.rel {cfg : Cfg} {S : FState} {A : AState} {ex : Bool} {pen : Who → Option Reg} {led : Ledger} (h : Sim cfg ex S A pen led) {i : Nat} {c : Call} {p : Prog Resp}
    {sd : Side} {a : Ans} {sc : Option Nat} (hi : S.thr i = some (c, p, .run sd (.ret (a, sc)))) :
    ∃ A', AConcRun cfg A [] A' ∧ Sim cfg ex (S.fly i c p (.rel a sc)) A' pen led := by
  have hti := h.thr i
  rw [hi] at hti
  obtain ⟨op, cm, ho, hop, hcm, hA, hled, hsafe⟩ := hti
  obtain ⟨hsel, hcfg, hok⟩ := h.core.act _ _ _ (Actors.thr (cfg := cfg) (t := S.tree) (bg := S.bg) hi ho)
  have hfin : TFin cfg op (a, sc) cm (S.tree.find (op.ph cfg).shardSel) := hsafe _ (.refl _ _ _) hok
  have mk : ∀ A' : AState, A'.map = A.map → A'.locks = A.locks → (∀ j, j ≠ i → A'.thr j = A.thr j) →
      ((a ≠ .st .splitNeeded ∧ A'.thr i = some (c, p.resume a)) ∨ (a = .st .splitNeeded ∧ A'.thr i = some (c, p))) → Sim cfg ex (S.fly i c p (.rel a sc)) A' pen led := by
    intro A' h1 h2 h3 h4
    refine h.quietStep i rfl rfl (fun j e => setN_other _ _ e) h1 (h2.trans h.locks) h3 ?_ ?_ (fun X sel hw k => ?_)
    rotate_left 2
    · cases hw with
      | thr h1 h2 =>
        rw [hi] at h1
        cases h1
        rw [ho] at h2
        cases h2
        exact (congrFun hled k).symm.trans (hfin.2 k)
    · show onRun (setN S.thr i _ i) = false; rw [setN_same]; rfl
    · show TSim cfg S.tree _ _ (setN S.thr i _ i) _; rw [setN_same]; exact ⟨op, ho, hop, h4⟩
  rcases hfin.1 with ecm | ⟨ecm, e | hn⟩ <;> rw [ecm] at hA
  · exact ⟨A, .nil _, mk A rfl rfl (fun _ _ => rfl) (.inl ⟨fun e => hcm (ecm.trans (congrArg some e)), hA⟩)⟩
  · exact ⟨A, .nil _, mk A rfl rfl (fun _ _ => rfl) (.inr ⟨e, hA⟩)⟩
  · obtain ⟨h1, h2⟩ := noEff_step h.core.shape ho hop hn
    rw [← h.map] at h1
    have hl := (commit_step ho hop (M := A.map)).2.2.2.2
    exact ⟨{ A with map := A.map, thr := setN A.thr i (some (c, p.resume a)) }, .raw hA hl h1 (.nil _),
      mk _ rfl rfl (fun j e => setN_other _ _ e) (.inl ⟨h2, setN_same _ _ _⟩)⟩

/-! ## The background compaction -/

theorem Sim.bgRow {cfg : Cfg} {S : FState} {A : AState} {ex : Bool} {pen : Who → Option Reg} {led : Ledger} (h : Sim cfg ex S A pen led) {t : MFile} (sel : Nat) (hsel : sel < END_OF_SHARDS)
    (ht : (S.tree.find sel).tgt = some t) (hc : t.compactedUpTo < NUM_ROWS) (hb : S.bg (S.tree.find sel).lo = none)
    (hx : ¬ S.Busy cfg none (S.tree.find sel).lo (fun op fl => fl.onRow = true ∧ (op.ph cfg).rowSel = t.compactedUpTo)) (first : Bool) :
    Sim cfg ex { S with bg := setN S.bg (S.tree.find sel).lo (some (t.compactedUpTo, copyCode cfg first t.compactedUpTo ROW_WIDTH 0 0)) } A
      (setP pen (.inr (S.tree.find sel).lo) none) led := by
  have hsok := h.core.shard _ hsel
  have hfile : (S.tree.find sel).file .tgt = t := by unfold Shard.file; rw [ht]; rfl
  have hsome : (S.tree.find sel).tgt.isSome = true := by rw [ht]; rfl
  have hno : ∀ a X sel', Actors cfg S.tree S.bg S.thr a X sel' → X.bg = true → (S.tree.find sel').lo ≠ (S.tree.find sel).lo := by
    intro a X sel' hw hbg e
    cases hw with
    | thr h1 h2 => cases hbg
    | bg hs h1 => rw [e, hb] at h1; cases h1
  have hfresh : ∀ c', c' < ROW_WIDTH → (((S.tree.find sel).file .tgt).slot t.compactedUpTo c').sig = INVALID_SIG := by
    intro c' hc'
    refine hsok.fresh hsome _ (by rw [hfile]; exact Nat.le_refl _) hc (fun hbg => ?_) c' hc'
    obtain ⟨a, X, sel', hw, hb', hlo, _⟩ := hbg
    exact hno a X sel' hw hb' hlo
  have hok : OKs (bgActor cfg (S.tree.find sel).lo (S.tree.find sel).hi t.compactedUpTo) none (S.tree.find sel) :=
    ⟨rfl, rfl, hc, hsok.files, fun _ => hsome, fun e => (by cases e), fun _ => rfl, .none _, fun _ => .inr ⟨congrArg MFile.compactedUpTo hfile, fun c' hc' kv hl => by
      have hl : ((S.tree.find sel).file .tgt).live t.compactedUpTo c' = some kv := hl
      rw [live_eq_none.2 (hfresh c' hc')] at hl; cases hl⟩⟩
  have hcopy : CopyInv cfg (S.tree.find sel).lo (S.tree.find sel).hi t.compactedUpTo 0 0 (S.tree.find sel) := by
    refine ⟨hok, by rw [hfile], Nat.le_refl _, rfl, fun kv => ⟨fun h => ?_, fun h => ?_⟩, fun c' _ hc' => hfresh c' hc'⟩
    · obtain ⟨c', h1, _⟩ := h; exact absurd h1 (Nat.not_lt_zero _)
    · obtain ⟨c', h1, _⟩ := h; exact absurd h1 (Nat.not_lt_zero _)
  have hnew : ∀ X sel', ¬ Actors cfg S.tree S.bg S.thr (.inr (S.tree.find sel).lo) X sel' := fun X sel' hw => by
    generalize ha : (Sum.inr (S.tree.find sel).lo : Who) = a at hw
    cases hw with
    | thr h1 h2 => cases ha
    | bg hs h1 =>
      have : (S.tree.find sel).lo = (S.tree.find sel').lo := by injection ha
      rw [← this, hb] at h1; cases h1
  have hold : ∀ a X sel', Actors cfg S.tree S.bg S.thr a X sel' →
      Actors cfg S.tree (setN S.bg (S.tree.find sel).lo (some (t.compactedUpTo, copyCode cfg first t.compactedUpTo ROW_WIDTH 0 0))) S.thr a X sel' := fun a X sel' hw => by
    cases hw with
    | thr h1 h2 => exact .thr h1 h2
    | bg hs h1 =>
      refine .bg hs (m := ?_) ?_
      rotate_left
      · rw [setN_other]
        · exact h1
        · intro e; rw [e, hb] at h1; cases h1
  refine ⟨?_, h.map, h.locks, fun j => ?_, fun sel' r m hs hbg => ?_, fun l hne => ?_, h.bal.drop (fun a X sel hw => .inl (hold a X sel hw)), h.empt⟩
  · refine h.core.add (a0 := .inr (S.tree.find sel).lo) (X0 := bgActor cfg (S.tree.find sel).lo (S.tree.find sel).hi t.compactedUpTo) (sel0 := sel)
      hsel rfl hold (fun a X sel' hw => ?_) hnew hok (fun a X sel' hw hlo hor e => ?_) (fun a X sel' hw hlo e => hno a X sel' hw e.2 hlo)
    · cases hw with
      | thr h1 h2 => exact .inl (.thr h1 h2)
      | bg hs h1 =>
        have h1 : setN S.bg _ _ _ = _ := h1
        by_cases e : (S.tree.find sel').lo = (S.tree.find sel).lo
        · have ef := h.core.shape.find_lo (spanAll hs) (spanAll hsel) e
          rw [e, setN_same] at h1
          cases h1
          rw [ef]
          exact .inr ⟨rfl, rfl, hs, rfl⟩
        · rw [setN_other _ _ e] at h1
          exact .inl (.bg hs h1)
    · cases hw with
      | @thr j c' p' sd m op' h1 h2 => exact hx ⟨j, c', p', _, op', (fun e => by cases e), h1, h2, hlo, rfl, e.symm⟩
      | bg hs h1 => rw [hlo, hb] at h1; cases h1
  · rw [setP_other _ _ (fun e => by cases e)]; exact h.thr j
  · have hbg : setN S.bg _ _ _ = _ := hbg
    show BgSafe cfg (S.tree.find sel') r m (setP pen _ none (.inr (S.tree.find sel').lo)) (led (.inr (S.tree.find sel').lo))
    by_cases e : (S.tree.find sel').lo = (S.tree.find sel).lo
    · have ef := h.core.shape.find_lo (spanAll hs) (spanAll hsel) e
      rw [e, setN_same] at hbg
      cases hbg
      rw [ef, setP_same]
      unfold BgSafe
      rw [h.bal.zero hnew]
      exact copy_safe ROW_WIDTH 0 0 _ (Nat.zero_add _) hcopy
    · rw [setN_other _ _ e] at hbg
      rw [setP_other _ _ (fun e' => e (by injection e'))]
      exact h.bgt sel' r m hs hbg
  · have hne : setN S.bg _ _ _ ≠ _ := hne
    by_cases e : l = (S.tree.find sel).lo
    · exact ⟨sel, hsel, e.symm⟩
    · rw [setN_other _ _ e] at hne; exact h.bgl l hne

theorem Sim.bgMem {cfg : Cfg} {S : FState} {A : AState} {ex : Bool} {pen : Who → Option Reg} {led : Ledger} (h : Sim cfg ex S A pen led) {r : Nat} {m m' : MProg Unit} {sh' : Shard} (sel : Nat)
    (hsel : sel < END_OF_SHARDS) (hi : S.bg (S.tree.find sel).lo = some (r, m)) (hf : (S.tree.find sel).Fits) (hm : m.step (S.tree.find sel) = some (sh', m')) :
    ∃ pen' led', Sim cfg ex { S with tree := S.tree.modify sel (fun _ => sh'), bg := setN S.bg (S.tree.find sel).lo (some (r, m')) } A pen' led' := by
  have hw := Actors.bg (cfg := cfg) (thr := S.thr) hsel hi
  obtain ⟨_, hcfg, hok⟩ := h.core.act _ _ _ hw
  have hsafe := h.bgt sel r m hsel hi
  obtain ⟨cm', pen', hcase, hsafe'⟩ := hsafe.step hok hf hm
  rcases hcase with ⟨rfl, rfl, rfl⟩ | ⟨hwr, g, heff⟩
  · refine ⟨pen, led, ?_⟩
    rw [S.tree.modify_self]
    have hiff : ∀ b Y sel', Actors cfg S.tree (setN S.bg (S.tree.find sel).lo (some (r, m'))) S.thr b Y sel' ↔ Actors cfg S.tree S.bg S.thr b Y sel' :=
      fun b Y sel' => ⟨fun h' => h'.same (.refl _ _) (SameBg.set hi).symm (fun _ _ => ⟨rfl, rfl⟩),
        fun h' => h'.same (.refl _ _) (SameBg.set hi) (fun _ _ => ⟨rfl, rfl⟩)⟩
    refine ⟨h.core.congr hiff, h.map, h.locks, h.thr, fun sel' r1 m1 hs hbg => ?_, fun l hne => ?_, h.bal.congr hiff, h.empt⟩
    · have hbg : setN S.bg _ _ _ = _ := hbg
      show BgSafe cfg (S.tree.find sel') r1 m1 (pen (.inr (S.tree.find sel').lo)) (led (.inr (S.tree.find sel').lo))
      by_cases e : (S.tree.find sel').lo = (S.tree.find sel).lo
      · rw [e, setN_same] at hbg
        cases hbg
        rw [h.core.shape.find_lo (spanAll hs) (spanAll hsel) e]
        exact hsafe'
      · rw [setN_other _ _ e] at hbg; exact h.bgt sel' r1 m1 hs hbg
    · have hne : setN S.bg _ _ _ ≠ _ := hne
      by_cases e : l = (S.tree.find sel).lo
      · exact ⟨sel, hsel, e.symm⟩
      · rw [setN_other _ _ e] at hne; exact h.bgl l hne
  · obtain ⟨w1, w2, w3, w4, w5, w6, w7, w8⟩ := h.write (S' := { S with tree := S.tree.modify sel (fun _ => sh'), bg := setN S.bg (S.tree.find sel).lo (some (r, m')) })
      hw hwr g heff.2.1 heff.2.2 rfl (.refl _ _) (SameBg.set hi)
    rcases heff.1 with ⟨ecm, hv⟩ | ⟨_, a, _, hcommit⟩
    · refine ⟨setP pen (.inr (S.tree.find sel).lo) pen', setL led (.inr (S.tree.find sel).lo) (S.tree.find sel).lo .tgt cm'.led, w1, h.map.trans (get_same (sh' := sh') (sel := sel) w3 hv).symm, h.locks, fun j => w5 j (fun e => by cases e), fun sel' r1 m1 hs hbg => ?_, w7, w8, h.empt.modify ?_⟩
      rotate_left
      · have := h.core.shape.find (spanAll hsel)
        rw [g.span.1, g.span.2.1]; exact Nat.lt_of_le_of_lt this.1.1 this.1.2
      by_cases e : (S.tree.find sel').lo = (S.tree.find sel).lo
      · have ef := h.core.shape.find_lo (spanAll hs) (spanAll hsel) e
        have e1 : ((S.tree.modify sel (fun _ => sh')).find sel').lo = (S.tree.find sel).lo := (w4 sel' hs).1.trans e
        have hbg : setN S.bg _ _ _ = _ := hbg
        show BgSafe cfg ((S.tree.modify sel (fun _ => sh')).find sel') r1 m1 (setP pen _ pen' (.inr ((S.tree.modify sel (fun _ => sh')).find sel').lo))
          (setL led _ _ _ cm'.led (.inr ((S.tree.modify sel (fun _ => sh')).find sel').lo))
        rw [e1, setN_same] at hbg
        cases hbg
        rw [e1, setP_same]
        have e2 : (S.tree.modify sel (fun _ => sh')).find sel' = sh' := by
          rcases w3 sel' hs with e2 | ⟨_, e2⟩
          · have e2 : (S.tree.modify sel (fun _ => sh')).find sel' = S.tree.find sel' := e2
            have hself : (S.tree.modify sel (fun _ => sh')).find sel = sh' := w2
            have hsh : Tree.Shape 0 END_OF_SHARDS (S.tree.modify sel (fun _ => sh')) := w1.shape
            have e3 := hsh.find_lo (spanAll hs) (spanAll hsel) (e1.trans (w4 sel hsel).1.symm)
            rw [e3]; exact hself
          · exact e2
        rw [e2]
        unfold BgSafe
        have g1 := g.span
        rw [g1.1, g1.2.1, setL_same]
        obtain ⟨q1, q2⟩ := cm'
        cases ecm
        exact hsafe'
      · refine w6 sel' r1 m1 hs (fun e' => e ?_) hbg
        have e' : (S.tree.find sel).lo = ((S.tree.modify sel (fun _ => sh')).find sel').lo := by injection e'
        rw [e']; exact (w4 sel' hs).1.symm
    · cases hcommit with
      | ins k v mode hX _ => cases hX
      | rem k hX _ => cases hX

theorem Sim.bgRel {cfg : Cfg} {S : FState} {A : AState} {ex : Bool} {pen : Who → Option Reg} {led : Ledger} (h : Sim cfg ex S A pen led) {r : Nat} (sel : Nat) (hsel : sel < END_OF_SHARDS)
    (hi : S.bg (S.tree.find sel).lo = some (r, .ret ())) : Sim cfg ex { S with bg := setN S.bg (S.tree.find sel).lo none } A pen led := by
  obtain ⟨_, _, hok⟩ := h.core.act _ _ _ (Actors.bg (cfg := cfg) (thr := S.thr) hsel hi)
  have hfin : (⟨none, led (.inr (S.tree.find sel).lo) (S.tree.find sel).lo .tgt⟩ : Gh) = Gh.zero ∧ ((S.tree.find sel).file .tgt).compactedUpTo = r + 1 := h.bgt sel r _ hsel hi _ (.refl _ _ _) hok
  have hset : ∀ l x, setN S.bg (S.tree.find sel).lo none l = some x → S.bg l = some x := by
    intro l x hx
    by_cases e : l = (S.tree.find sel).lo
    · rw [e, setN_same] at hx; cases hx
    · rw [setN_other _ _ e] at hx; exact hx
  refine ⟨?_, h.map, h.locks, h.thr, fun sel' r' m hs hbg => h.bgt sel' r' m hs (hset _ _ hbg), fun l hne => ?_, h.bal.drop (fun a X sel' hw => ?_), h.empt⟩
  · refine h.core.drop (fun a X sel' hw => ?_) (fun a X sel' hw hb => ?_)
    · cases hw with
      | thr h1 h2 => exact .thr h1 h2
      | bg hs h1 => exact .bg hs (hset _ _ h1)
    · cases hw with
      | thr h1 h2 => cases hb
      | bg hs h1 =>
        by_cases e : (S.tree.find sel').lo = (S.tree.find sel).lo
        · have ef := h.core.shape.find_lo (spanAll hs) (spanAll hsel) e
          rw [e, hi] at h1
          cases h1
          right
          rw [ef]; exact hfin.2
        · refine .inl (.bg hs (m := ?_) ?_)
          rotate_left
          · show setN S.bg _ _ _ = _
            rw [setN_other _ _ e]; exact h1
  · have hne : setN S.bg _ _ _ ≠ _ := hne
    refine h.bgl l (fun e => hne ?_)
    by_cases e' : l = (S.tree.find sel).lo
    · rw [e', setN_same]
    · rw [setN_other _ _ e']; exact e
  · cases hw with
    | thr h1 h2 => exact .inl (.thr h1 h2)
    | bg hs h1 =>
      by_cases e : (S.tree.find sel').lo = (S.tree.find sel).lo
      · refine .inr (fun k => ?_)
        have hz : led (.inr (S.tree.find sel).lo) (S.tree.find sel).lo .tgt = fun _ => 0 := by
          have := hfin.1; unfold Gh.zero at this; injection this
        show led (.inr (S.tree.find sel').lo) (S.tree.find sel').lo .tgt k = 0
        rw [e, hz]
      · refine .inl (.bg hs (m := ?_) ?_)
        rotate_left
        · show setN S.bg _ _ _ = _
          rw [setN_other _ _ e]; exact h1

/-! ## Replacing the files of a shard -/

theorem Tree.modify_fix {t : Tree} {sel : Nat} {f : Shard → Shard} (h : f (t.find sel) = t.find sel) : t.modify sel f = t := by
  induction t with
  | leaf s => exact congrArg Tree.leaf h
  | vertex b t ih1 ih2 =>
    rw [Tree.find_vertex] at h
    rw [Tree.modify_vertex]
    by_cases e : sel < b.hi
    · rw [if_pos e] at h ⊢; rw [ih1 h]
    · rw [if_neg e] at h ⊢; rw [ih2 h]

/-- Nobody is at work on a shard whose files nobody holds and that has no compaction between two rows. -/
theorem Sim.nobody {cfg : Cfg} {S : FState} {A : AState} {ex : Bool} {pen : Who → Option Reg} {led : Ledger} (h : Sim cfg ex S A pen led) {sel0 : Nat} (hsel0 : sel0 < END_OF_SHARDS)
    (hx : ¬ S.Busy cfg none (S.tree.find sel0).lo (fun _ fl => fl.onFiles = true))
    (hb : S.bg (S.tree.find sel0).lo = none ∨ (S.tree.find sel0).tgt = none) :
    ∀ a X sel, Actors cfg S.tree S.bg S.thr a X sel → (S.tree.find sel).lo ≠ (S.tree.find sel0).lo := by
  intro a X sel hw e
  have hok := (h.core.act a X sel hw).2.2
  cases hw with
  | @thr j c p sd m op h1 h2 => exact hx ⟨j, c, p, _, op, (fun e => by cases e), h1, h2, e, rfl⟩
  | bg hs h1 =>
    rcases hb with hb | hb
    · rw [e, hb] at h1; cases h1
    · rw [h.core.shape.find_lo (spanAll hs) (spanAll hsel0) e] at hok
      have := hok.has rfl
      rw [hb] at this; cases this

/-- Then its headers say what is there. -/
theorem Sim.quietFiles {cfg : Cfg} {S : FState} {A : AState} {ex : Bool} {pen : Who → Option Reg} {led : Ledger} (h : Sim cfg ex S A pen led) {sel0 : Nat} (hsel0 : sel0 < END_OF_SHARDS)
    (hno : ∀ a X sel, Actors cfg S.tree S.bg S.thr a X sel → (S.tree.find sel).lo ≠ (S.tree.find sel0).lo) (sd : Side) : FileAcct ex ((S.tree.find sel0).file sd) :=
  h.bal.quiet hsel0 (fun a X sel hw e => hno a X sel hw ((h.core.act a X sel hw).2.2.lo.trans e)) sd

theorem Sim.swapFiles {cfg : Cfg} {S S' : FState} {A : AState} {ex : Bool} {pen : Who → Option Reg} {led : Ledger} (h : Sim cfg ex S A pen led) {sel0 : Nat} (hsel0 : sel0 < END_OF_SHARDS)
    {f : Shard → Shard} (ht : S'.tree = S.tree.modify sel0 f) (hb : S'.bg = S.bg) (hl : S'.locks = S.locks)
    (hth : ∀ j, S'.thr j = S.thr j ∨ (onRun (S.thr j) = false ∧ onRun (S'.thr j) = false ∧ TSim cfg S.tree (pen (.inl j)) (led (.inl j)) (S'.thr j) (A.thr j)))
    (hno : ∀ a X sel, Actors cfg S.tree S.bg S.thr a X sel → (S.tree.find sel).lo ≠ (S.tree.find sel0).lo)
    (hlo : (f (S.tree.find sel0)).lo = (S.tree.find sel0).lo) (hhi : (f (S.tree.find sel0)).hi = (S.tree.find sel0).hi)
    (hok : ShardOK cfg (fun _ => False) (f (S.tree.find sel0))) (hac : ∀ sd, FileAcct ex ((f (S.tree.find sel0)).file sd))
    (hlive : ∀ r, r < NUM_ROWS → (f (S.tree.find sel0)).active r = (S.tree.find sel0).active r) : Sim cfg ex S' A pen led := by
  obtain ⟨hshape, hfind⟩ := h.core.shape.modify (spanAll hsel0) (f := f) hlo hhi
  have hval : ∀ k, (f (S.tree.find sel0)).val cfg k = (S.tree.find sel0).val cfg k := by
    intro k
    refine vals_same (h.core.shard _ hsel0).files (fun sd => ?_) (fun r hr c hc => by rw [hlive r hr]) k
    have := hok.files sd
    rw [hlo, hhi] at this
    exact this
  refine h.replace hsel0 hb hl hth hno (by rw [ht]; exact hshape) (fun sel hs hn => by rw [ht, hfind sel (spanAll hs), if_neg hn]) (fun sel h1 h2 => ?_) ?_ ?_
  · have hs : sel < END_OF_SHARDS := Nat.lt_of_lt_of_le h2 (h.core.shape.find (spanAll hsel0)).2.2
    rw [ht, hfind sel (spanAll hs), if_pos ⟨h1, h2⟩]
    exact ⟨hok, Nat.le_of_eq hlo.symm, hac⟩
  · rw [ht]
    refine h.empt.modify ?_
    have := (h.core.shape.find (spanAll hsel0)).1
    rw [hlo, hhi]; exact Nat.lt_of_le_of_lt this.1 this.2
  · funext k
    rw [Tree.get_find, Tree.get_find, ht, hfind _ (spanAll (cfg.ph k).shardSel_lt)]
    split
    · rename_i e
      rw [hval, h.core.shape.find_same (spanAll hsel0) e]
    · rfl

theorem Sim.begin {cfg : Cfg} {S : FState} {A : AState} {ex : Bool} {pen : Who → Option Reg} {led : Ledger} (h : Sim cfg ex S A pen led) {i : Nat} {c : Call} {p : Prog Resp} {op : ROp}
    {a : Ans} {off : Nat} (hi : S.thr i = some (c, p, .out a (some off))) (ho : p.rop = some op)
    (hx : ¬ S.Busy cfg none (S.shard cfg op).lo (fun _ fl => fl.onFiles = true)) :
    Sim cfg ex { S.fly i c p (.out a none) with tree := S.tree.modify (op.ph cfg).shardSel (fun sh => sh.beginCompaction off) } A pen led := by
  have hti := h.thr i
  rw [hi] at hti
  have hsel := (op.ph cfg).shardSel_lt
  have hthr : onRun (setN S.thr i (some (c, p, .out a none)) i) = false ∧ TSim cfg S.tree (pen (.inl i)) (led (.inl i)) (setN S.thr i (some (c, p, .out a none)) i) (A.thr i) := by
    rw [setN_same]; exact ⟨rfl, hti⟩
  by_cases e : (S.shard cfg op).beginCompaction off = S.shard cfg op
  · have ht : S.tree.modify (op.ph cfg).shardSel (fun sh => sh.beginCompaction off) = S.tree := Tree.modify_fix e
    rw [ht]
    exact h.quietStep i rfl rfl (fun j e => setN_other _ _ e) rfl h.locks (fun _ _ => rfl) hthr.1 hthr.2 (idle_zero (by rw [hi]; rfl))
  · have hq : (S.tree.find (op.ph cfg).shardSel).tgt = none := by
      cases ht : (S.tree.find (op.ph cfg).shardSel).tgt with
      | none => rfl
      | some t =>
        refine absurd ?_ e
        have ht : (S.shard cfg op).tgt = some t := ht
        unfold Shard.beginCompaction
        rw [ht]
        split <;> rfl
    have hbc : (S.tree.find (op.ph cfg).shardSel).beginCompaction off = { S.tree.find (op.ph cfg).shardSel with tgt := some MFile.empty } := by
      by_cases e2 : (S.tree.find (op.ph cfg).shardSel).src.writeOff < off
      · exact absurd (by unfold Shard.beginCompaction; exact if_pos e2) e
      · unfold Shard.beginCompaction; rw [if_neg e2, hq]
    have hno := h.nobody hsel hx (.inr hq)
    refine h.swapFiles hsel (f := fun sh => sh.beginCompaction off) rfl rfl rfl (fun j => ?_) hno (by rw [hbc]) (by rw [hbc]) ?_ (fun sd => ?_) (fun r hr => ?_)
    · by_cases ej : j = i
      · subst ej; exact .inr ⟨by rw [hi]; rfl, hthr.1, hthr.2⟩
      · exact .inl (setN_other _ _ ej)
    · rw [hbc]
      refine ⟨fun sd => ?_, (fun _ r _ _ _ c _ => rfl), Nat.zero_le _⟩
      cases sd with
      | src => exact (h.core.shard _ hsel).files .src
      | tgt => exact FileOK.empty _ _ _
    · rw [hbc]
      cases sd with
      | src => exact h.quietFiles hsel hno .src
      | tgt => exact FileAcct.empty _
    · rw [hbc]
      unfold Shard.active
      rw [hq]
      exact if_neg (Nat.not_lt_zero r)

theorem Sim.bgSwap {cfg : Cfg} {S : FState} {A : AState} {ex : Bool} {pen : Who → Option Reg} {led : Ledger} (h : Sim cfg ex S A pen led) {t : MFile} (sel : Nat) (hsel : sel < END_OF_SHARDS)
    (ht : (S.tree.find sel).tgt = some t) (hc : NUM_ROWS ≤ t.compactedUpTo) (hb : S.bg (S.tree.find sel).lo = none)
    (hx : ¬ S.Busy cfg none (S.tree.find sel).lo (fun _ fl => fl.onFiles = true)) :
    Sim cfg ex { S with tree := S.tree.modify sel (fun sh => { sh with src := t, tgt := none }) } A pen led := by
  have hfile : (S.tree.find sel).file .tgt = t := by unfold Shard.file; rw [ht]; rfl
  have hno := h.nobody hsel hx (.inl hb)
  refine h.swapFiles hsel (f := fun sh => { sh with src := t, tgt := none }) rfl rfl rfl (fun j => .inl rfl) hno rfl rfl ⟨fun sd => ?_, (fun e => by cases e), Nat.zero_le _⟩ (fun sd => ?_) (fun r hr => ?_)
  · cases sd with
    | src => have := (h.core.shard _ hsel).files .tgt; rw [hfile] at this; exact this
    | tgt => exact FileOK.empty _ _ _
  · cases sd with
    | src => have := h.quietFiles hsel hno .tgt; rw [hfile] at this; exact this
    | tgt => exact FileAcct.empty _
  · unfold Shard.active
    rw [ht]
    exact (if_pos (Nat.lt_of_lt_of_le hr hc)).symm

theorem Sim.split {cfg : Cfg} {S : FState} {A : AState} {ex : Bool} {pen : Who → Option Reg} {led : Ledger} (h : Sim cfg ex S A pen led) {i : Nat} {c : Call} {p : Prog Resp} {op : ROp}
    {t' : Tree} {d : Nat} (hi : S.thr i = some (c, p, .split d)) (ho : p.rop = some op)
    (hx : ¬ S.Busy cfg none (S.shard cfg op).lo (fun _ fl => fl.onNode = true)) (hq : (S.shard cfg op).tgt = none) (hf : (S.shard cfg op).Fits)
    (ht : S.tree.splitAt cfg (op.ph cfg).shardSel = some t') : Sim cfg ex { S.fly i c p .node with tree := t' } A pen led := by
  have hti := h.thr i
  rw [hi] at hti
  have hsel := (op.ph cfg).shardSel_lt
  have hsok := h.core.shard _ hsel
  have hno := h.nobody hsel (fun hbusy => hx (by
    obtain ⟨j, c', p', fl, op', h1, h2, h3, h4, h5⟩ := hbusy
    refine ⟨j, c', p', fl, op', h1, h2, h3, h4, ?_⟩
    cases fl <;> first | rfl | cases h5)) (.inr hq)
  have hl : liveBytes (S.shard cfg op).src < 4294967296 := Nat.lt_of_le_of_lt (h.quietFiles hsel hno .src).bytes hf.1
  obtain ⟨bf, tf, hs, hbf, htf, vb, vt, ab, at'⟩ := Shard.split_fine hq (hsok.files .src) hf hl
  have hsp := (h.core.shape.find (spanAll hsel)).1
  have hmid := midOf_bounds (Nat.le_of_lt (Nat.lt_of_le_of_lt hsp.1 hsp.2))
  obtain ⟨b, u, hs', hshape, hfind⟩ := h.core.shape.splitAt (spanAll hsel) ht (fun b u e => by
    have e := e.symm.trans hs
    injection e with e
    injection e with e1 e2
    subst e1 e2
    exact ⟨rfl, rfl, rfl, rfl⟩)
  have e := hs'.symm.trans hs
  injection e with e
  injection e with e1 e2
  subst e1 e2
  have hsk : ∀ lo hi f, FileOK cfg lo hi f → ShardOK cfg (fun _ => False) (Candy.quiet lo hi f) := by
    intro lo hi f hok
    refine ⟨fun sd => ?_, (fun e => by cases e), Nat.zero_le _⟩
    cases sd with
    | src => exact hok
    | tgt => exact FileOK.empty _ _ _
  have hac : ∀ lo hi f, Acct 0 0 f → ∀ sd, FileAcct ex ((Candy.quiet lo hi f).file sd) := by
    intro lo hi f ha sd
    cases sd with
    | src => exact ⟨0, 0, ha, fun _ => ⟨rfl, rfl⟩⟩
    | tgt => exact FileAcct.empty _
  refine h.replace hsel rfl rfl (fun j => ?_) hno hshape (fun sel hs hn => ?_) (fun sel h1 h2 => ?_) ?_ ?_
  · by_cases ej : j = i
    · subst ej
      refine .inr ⟨by rw [hi]; rfl, ?_, ?_⟩
      · show onRun (setN S.thr j _ j) = false; rw [setN_same]; rfl
      · show TSim cfg S.tree _ _ (setN S.thr j _ j) _; rw [setN_same]; exact hti
    · exact .inl (setN_other _ _ ej)
  · exact (hfind sel (spanAll hs)).trans (if_neg hn)
  · have hs : sel < END_OF_SHARDS := Nat.lt_of_lt_of_le h2 (h.core.shape.find (spanAll hsel)).2.2
    have e := (hfind sel (spanAll hs)).trans (if_pos ⟨h1, h2⟩)
    show ShardOK cfg _ (t'.find sel) ∧ _ ≤ (t'.find sel).lo ∧ ∀ sd, FileAcct ex ((t'.find sel).file sd)
    rw [e]
    split
    · exact ⟨hsk _ _ _ hbf, Nat.le_refl _, hac _ _ _ ab⟩
    · exact ⟨hsk _ _ _ htf, hmid.1, hac _ _ _ at'⟩
  · intro s hm hlh
    rcases Tree.mem_splitAt ht hm with h1 | ⟨b, u, h1, h2⟩
    · exact h.empt s h1 hlh
    · have e := h1.symm.trans hs
      injection e with e
      injection e with e1 e2
      subst e1 e2
      rcases h2 with rfl | rfl
      · exact ⟨quiet_inv hbf, ⟨0, 0, ab, fun _ => ⟨rfl, rfl⟩⟩, fun t e => by cases e⟩
      · exact ⟨quiet_inv htf, ⟨0, 0, at', fun _ => ⟨rfl, rfl⟩⟩, fun t e => by cases e⟩
  · funext k
    show t'.get cfg k = _
    rw [Tree.get_find, Tree.get_find, hfind _ (spanAll (cfg.ph k).shardSel_lt)]
    split
    · rename_i e
      rw [h.core.shape.find_same (spanAll hsel) e]
      split
      · rename_i e1; exact (vb k).trans (if_pos e1)
      · rename_i e1; exact (vt k).trans (if_neg e1)
    · rfl

/-! ## Every step -/


theorem FStep.sim {cfg : Cfg} {S S' : FState} {e : Option CEvent} (hst : FStep cfg S e S') {A : AState} {ex : Bool} {pen : Who → Option Reg} {led : Ledger} (h : Sim cfg ex S A pen led) :
    ∃ A' pen' led', AConcRun cfg A e.toList A' ∧ Sim cfg ex S' A' pen' led' := by
  cases hst with
  | inv i c hi =>
    have hti := h.thr i
    rw [hi] at hti
    refine ⟨{ A with thr := setN A.thr i (some (c, c.prog cfg)) }, pen, led, .inv i c hti (.nil _), h.quietStep i rfl rfl (fun j e => setN_other _ _ e) rfl h.locks
      (fun j e => setN_other _ _ e) ?_ ?_ (idle_zero (by rw [hi]; rfl))⟩
    · show onRun (setN S.thr i _ i) = false; rw [setN_same]; rfl
    · show TSim cfg S.tree _ _ (setN S.thr i _ i) (setN A.thr i _ i); rw [setN_same, setN_same]; rfl
  | @lock i l c p hi hf =>
    have hti := h.thr i
    rw [hi] at hti
    refine ⟨{ A with locks := setN A.locks l (some i), thr := setN A.thr i (some (c, p)) }, pen, led, .lock hti (by rw [h.locks]; exact hf) (.nil _),
      h.quietStep i rfl rfl (fun j e => setN_other _ _ e) rfl (by show setN A.locks l (some i) = setN S.locks l (some i); rw [h.locks]) (fun j e => setN_other _ _ e) ?_ ?_ (idle_zero (by rw [hi]; rfl))⟩
    · show onRun (setN S.thr i _ i) = false; rw [setN_same]; rfl
    · show TSim cfg S.tree _ _ (setN S.thr i _ i) (setN A.thr i _ i); rw [setN_same, setN_same]; rfl
  | @unlock i c p hi =>
    have hti := h.thr i
    rw [hi] at hti
    refine ⟨{ A with locks := dropLocks A.locks i, thr := setN A.thr i (some (c, p)) }, pen, led, .unlock hti (.nil _),
      h.quietStep i rfl rfl (fun j e => setN_other _ _ e) rfl (by show dropLocks A.locks i = dropLocks S.locks i; rw [h.locks]) (fun j e => setN_other _ _ e) ?_ ?_ (idle_zero (by rw [hi]; rfl))⟩
    · show onRun (setN S.thr i _ i) = false; rw [setN_same]; rfl
    · show TSim cfg S.tree _ _ (setN S.thr i _ i) (setN A.thr i _ i); rw [setN_same, setN_same]; rfl
  | @ret i c p r hi hr hne =>
    have hti := h.thr i
    rw [hi] at hti
    refine ⟨{ A with locks := dropLocks A.locks i, thr := setN A.thr i none }, pen, led, .ret hti hr hne (.nil _),
      h.quietStep i rfl rfl (fun j e => setN_other _ _ e) rfl (by show dropLocks A.locks i = dropLocks S.locks i; rw [h.locks]) (fun j e => setN_other _ _ e) ?_ ?_ (idle_zero (by rw [hi]; rfl))⟩
    · show onRun (setN S.thr i _ i) = false; rw [setN_same]; rfl
    · show TSim cfg S.tree _ _ (setN S.thr i _ i) (setN A.thr i _ i); rw [setN_same, setN_same]; rfl
  | @sizeErr i c k v mode q er hi hs =>
    have hti := h.thr i
    rw [hi] at hti
    refine ⟨{ A with map := A.map, thr := setN A.thr i (some (c, .err er)) }, pen, led, .raw hti rfl (.insErr _ _ _ _ _ _ hs) (.nil _),
      h.quietStep i rfl rfl (fun j e => setN_other _ _ e) rfl h.locks (fun j e => setN_other _ _ e) ?_ ?_ (idle_zero (by rw [hi]; rfl))⟩
    · show onRun (setN S.thr i _ i) = false; rw [setN_same]; rfl
    · show TSim cfg S.tree _ _ (setN S.thr i _ i) (setN A.thr i _ i); rw [setN_same, setN_same]; rfl
  | @node i c p op hi ho hs =>
    have hti := h.thr i
    rw [hi] at hti
    refine ⟨A, pen, led, .nil _, h.quietStep i rfl rfl (fun j e => setN_other _ _ e) rfl h.locks (fun _ _ => rfl) ?_ ?_ (idle_zero (by rw [hi]; rfl))⟩
    · show onRun (setN S.thr i _ i) = false; rw [setN_same]; rfl
    · show TSim cfg S.tree _ _ (setN S.thr i _ i) _; rw [setN_same]; exact ⟨hti, op, ho, hs⟩
  | @files i c p hi =>
    have hti := h.thr i
    rw [hi] at hti
    refine ⟨A, pen, led, .nil _, h.quietStep i rfl rfl (fun j e => setN_other _ _ e) rfl h.locks (fun _ _ => rfl) ?_ ?_ (idle_zero (by rw [hi]; rfl))⟩
    · show onRun (setN S.thr i _ i) = false; rw [setN_same]; rfl
    · show TSim cfg S.tree _ _ (setN S.thr i _ i) _; rw [setN_same]; exact hti
  | row hi ho hx hb => exact ⟨A, _, _, .nil _, h.row hi ho hx hb⟩
  | mem hi ho hf hm => exact h.mem hi ho hf hm
  | rel hi =>
    obtain ⟨A', h1, h2⟩ := h.rel hi
    exact ⟨A', pen, led, h1, h2⟩
  | @out i c p a sc hi =>
    have hti := h.thr i
    rw [hi] at hti
    refine ⟨A, pen, led, .nil _, h.quietStep i rfl rfl (fun j e => setN_other _ _ e) rfl h.locks (fun _ _ => rfl) ?_ ?_ (idle_zero (by rw [hi]; rfl))⟩
    · show onRun (setN S.thr i _ i) = false; rw [setN_same]; rfl
    · show TSim cfg S.tree _ _ (setN S.thr i _ i) _; rw [setN_same]; exact hti
  | begin hi ho hx => exact ⟨A, pen, led, .nil _, h.begin hi ho hx⟩
  | @done i c p a hi ha =>
    have hti := h.thr i
    rw [hi] at hti
    obtain ⟨op, _, _, hor⟩ := hti
    refine ⟨A, pen, led, .nil _, h.quietStep i rfl rfl (fun j e => setN_other _ _ e) rfl h.locks (fun _ _ => rfl) ?_ ?_ (idle_zero (by rw [hi]; rfl))⟩
    · show onRun (setN S.thr i _ i) = false; rw [setN_same]; rfl
    · show TSim cfg S.tree _ _ (setN S.thr i _ i) _; rw [setN_same]
      rcases hor with ⟨_, h1⟩ | ⟨h1, _⟩
      · exact h1
      · exact absurd h1 ha
  | @full i c p op hi ho =>
    have hti := h.thr i
    rw [hi] at hti
    obtain ⟨op', ho', hop, hor⟩ := hti
    refine ⟨A, pen, led, .nil _, h.quietStep i rfl rfl (fun j e => setN_other _ _ e) rfl h.locks (fun _ _ => rfl) ?_ ?_ (idle_zero (by rw [hi]; rfl))⟩
    · show onRun (setN S.thr i _ i) = false; rw [setN_same]; rfl
    · show TSim cfg S.tree _ _ (setN S.thr i _ i) _; rw [setN_same]
      rcases hor with ⟨h1, _⟩ | ⟨_, h1⟩
      · exact absurd rfl h1
      · exact ⟨h1, op', ho', hop⟩
  | split hi ho hx hq hf ht => exact ⟨A, pen, led, .nil _, h.split hi ho hx hq hf ht⟩
  | @already i c p op d hi ho hd =>
    have hti := h.thr i
    rw [hi] at hti
    refine ⟨A, pen, led, .nil _, h.quietStep i rfl rfl (fun j e => setN_other _ _ e) rfl h.locks (fun _ _ => rfl) ?_ ?_ (idle_zero (by rw [hi]; rfl))⟩
    · show onRun (setN S.thr i _ i) = false; rw [setN_same]; rfl
    · show TSim cfg S.tree _ _ (setN S.thr i _ i) _; rw [setN_same]; exact hti
  | bgRow sel hsel ht hc hb hx => exact ⟨A, _, _, .nil _, h.bgRow sel hsel ht hc hb hx _⟩
  | bgMem sel hsel hi hf hm =>
    obtain ⟨pen', led', h'⟩ := h.bgMem sel hsel hi hf hm
    exact ⟨A, pen', led', .nil _, h'⟩
  | bgRel sel hsel hi => exact ⟨A, pen, led, .nil _, h.bgRel sel hsel hi⟩
  | bgSwap sel hsel ht hc hb hx => exact ⟨A, pen, led, .nil _, h.bgSwap sel hsel ht hc hb hx⟩

theorem FineRun.sim {cfg : Cfg} {ex : Bool} {S S' : FState} {tr : List CEvent} (hr : FineRun cfg S tr S') :
    ∀ {A : AState} {pen : Who → Option Reg} {led : Ledger}, Sim cfg ex S A pen led → ∃ A' pen' led', AConcRun cfg A tr A' ∧ Sim cfg ex S' A' pen' led' := by
  induction hr with
  | nil s => intro A pen led h; exact ⟨A, pen, led, .nil _, h⟩
  | obs hst _ ih =>
    intro A pen led h
    obtain ⟨A1, pen1, led1, h1, h2⟩ := hst.sim h
    obtain ⟨A2, pen2, led2, h3, h4⟩ := ih h2
    exact ⟨A2, pen2, led2, h1.append h3, h4⟩
  | tau hst _ ih =>
    intro A pen led h
    obtain ⟨A1, pen1, led1, h1, h2⟩ := hst.sim h
    obtain ⟨A2, pen2, led2, h3, h4⟩ := ih h2
    exact ⟨A2, pen2, led2, h1.append h3, h4⟩

/-- The beginning. -/
theorem Sim.idle {cfg : Cfg} {ex : Bool} {t : Tree} (h : Tree.OK cfg ex 0 END_OF_SHARDS t) :
    Sim cfg ex (FState.idle t) ⟨t.get cfg, fun _ => none, fun _ => none⟩ (fun _ => none) (fun _ _ _ _ => 0) := by
  have hno : ∀ a X sel, ¬ Actors cfg t (fun _ => none) (fun _ => none) a X sel := by
    intro a X sel hw
    cases hw with
    | thr h1 _ => cases h1
    | bg _ h1 => cases h1
  refine ⟨⟨h.shape, fun a X sel hw => absurd hw (hno _ _ _), fun a X Y sel sel' hw => absurd hw (hno _ _ _), fun a b X Y sel sel' _ hw => absurd hw (hno _ _ _), fun sel hsel => ?_⟩,
    rfl, rfl, fun i => rfl, fun sel r m _ hb => (by cases hb), fun l hne => absurd rfl hne,
    ⟨⟨[], List.nodup_nil, fun _ _ _ _ _ => rfl, fun sel hsel sd => ?_⟩, fun a lo sd k hne => absurd rfl hne, fun _ _ _ => Int.le_refl 0⟩, fun s hs _ => h.leaf_inv s hs⟩
  · obtain ⟨_, hinv, _⟩ := h.find (spanAll hsel)
    refine ⟨fun sd => ?_, fun ht r hr hr' _ c hc => ?_, ?_⟩
    · cases sd with
      | src => exact hinv.src
      | tgt =>
        show FileOK cfg (t.find sel).lo (t.find sel).hi ((t.find sel).tgt.getD MFile.empty)
        cases ht : (t.find sel).tgt with
        | none => exact FileOK.empty _ _ _
        | some f => exact hinv.tgt f ht
    · have ht : (t.find sel).tgt.isSome = true := ht
      cases ht' : (t.find sel).tgt with
      | none => rw [ht'] at ht; cases ht
      | some f =>
        have e : (t.find sel).file .tgt = f := by unfold Shard.file; rw [ht']; rfl
        show (((t.find sel).file .tgt).slot r c).sig = _
        have hr : ((t.find sel).file .tgt).compactedUpTo ≤ r := hr
        rw [e] at hr ⊢
        exact hinv.fresh f ht' r c hr hr' hc
    · show ((t.find sel).tgt.getD MFile.empty).compactedUpTo ≤ _
      cases ht : (t.find sel).tgt with
      | none => exact Nat.zero_le _
      | some f => exact hinv.cu f ht
  · obtain ⟨_, _, ha, _⟩ := h.find (spanAll hsel)
    refine FileBal.congr (FileAcct.bal ?_) (fun k => total_zero (fun a _ => rfl))
    cases sd with
    | src => exact ha.1
    | tgt =>
      show FileAcct ex ((t.find sel).tgt.getD MFile.empty)
      cases ht : (t.find sel).tgt with
      | none => exact FileAcct.empty _
      | some f => exact ha.2 f ht

/-- The end: nobody is at work. -/
theorem Sim.ok {cfg : Cfg} {ex : Bool} {S : FState} {A : AState} {pen : Who → Option Reg} {led : Ledger} (h : Sim cfg ex S A pen led)
    (hthr : ∀ i, S.thr i = none) (hbg : ∀ l, S.bg l = none) : Tree.OK cfg ex 0 END_OF_SHARDS S.tree := by
  have hno : ∀ a X sel, ¬ Actors cfg S.tree S.bg S.thr a X sel := by
    intro a X sel hw
    cases hw with
    | thr h1 _ => rw [hthr] at h1; cases h1
    | bg _ h1 => rw [hbg] at h1; cases h1
  refine h.core.shape.ok (fun s hs => ?_)
  have hle : s.lo ≤ s.hi := h.core.shape.leaf_le hs
  rcases Nat.lt_or_eq_of_le hle with hlt | e
  · obtain ⟨_, h2, h3⟩ := h.core.shape.find_leaf hs hlt
    have hsel : s.lo < END_OF_SHARDS := Nat.lt_of_lt_of_le hlt h2
    have hok := h.core.shard _ hsel
    have hac := h.quietFiles hsel (fun a X sel hw => absurd hw (hno _ _ _))
    rw [h3] at hok hac
    have hf : ∀ f, s.tgt = some f → s.file .tgt = f := by intro f e; unfold Shard.file; rw [e]; rfl
    refine ⟨⟨hok.files .src, fun f e => hf f e ▸ hok.files .tgt, fun f e => hf f e ▸ hok.cu, fun f e r c h1 h2 h3 => ?_⟩, hac .src, fun f e => hf f e ▸ hac .tgt⟩
    have := hok.fresh (by rw [e]; rfl) r (by rw [hf f e]; exact h1) h2 (fun hb => ?_) c h3
    · rw [hf f e] at this; exact this
    · obtain ⟨a, X, sel, hw, _⟩ := hb
      exact hno _ _ _ hw
  · exact h.empt s hs e

end Candy
