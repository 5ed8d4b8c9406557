import Verif.Model.IterConc
import Verif.Proofs.Iter
import Verif.Proofs.Conc
/-!
# Iterating over the store while other threads work
-/
namespace Candy
open Spec

theorem CMove.run {cfg : Cfg} {s s1 s' : CState} {tr1 tr : List CEvent} (h : CMove cfg s tr1 s1) (hr : ConcRun cfg s1 tr s') : ConcRun cfg s (tr1 ++ tr) s' := by
  cases h with
  | inv i c h => exact .inv i c h hr
  | raw h hl hs hc => exact .raw h hl hs hc hr
  | lock h hf => exact .lock h hf hr
  | unlock h => exact .unlock h hr
  | ret h hr' hne => exact .ret h hr' hne hr
  | bg sel hs h => exact .bg sel hs h hr

/-- Without its reads, the iteration is an execution of the other threads. -/
theorem IterRun.run {cfg : Cfg} {P : Tree → Prop} {s s' : CState} {it : It} {kvs : List KV} {tr : List CEvent} (h : IterRun cfg P s it kvs tr s') : ConcRun cfg s tr s' := by
  induction h with
  | done => exact .nil _
  | tick _ _ _ _ ih => exact ih
  | move _ h _ ih => exact h.run ih

/-- The tree of the next state. -/
theorem CMove.tree {cfg : Cfg} {s s1 : CState} {tr1 : List CEvent} (h : CMove cfg s tr1 s1) :
    s1.tree = s.tree ∨ s.tree.Small ∧ ((∃ p p' : Prog Resp, CStep cfg s.tree p s1.tree p') ∨ ∃ sel, s.tree.bgStep cfg sel = some s1.tree) := by
  cases h with
  | inv i c h => exact .inl rfl
  | raw h hl hs hc => exact .inr ⟨hs, .inl ⟨_, _, hc⟩⟩
  | lock h hf => exact .inl rfl
  | unlock h => exact .inl rfl
  | ret h hr' hne => exact .inl rfl
  | bg sel hs h => exact .inr ⟨hs, .inr ⟨sel, h⟩⟩

theorem CMove.ok {cfg : Cfg} {s s1 : CState} {tr1 : List CEvent} (h : CMove cfg s tr1 s1) {ex : Bool} (hok : Tree.OK cfg ex 0 END_OF_SHARDS s.tree) :
    Tree.OK cfg ex 0 END_OF_SHARDS s1.tree := by
  rcases h.tree with e | ⟨hs, ⟨p, p', hc⟩ | ⟨sel, hb⟩⟩
  · rw [e]; exact hok
  · exact (hc.sim hok hs).1
  · exact (bg_get hok hs hb).1

/-! ## Where an entry is -/

theorem Shard.runActive_span (s : Shard) (r : Nat) (ps : List Prim) : (s.runActive r ps).lo = s.lo ∧ (s.runActive r ps).hi = s.hi := by
  unfold Shard.runActive
  cases ht : s.tgt with
  | none => simp
  | some t => simp only; split <;> simp

theorem Shard.beginCompaction_span (s : Shard) (off : Nat) : (s.beginCompaction off).lo = s.lo ∧ (s.beginCompaction off).hi = s.hi := by
  unfold Shard.beginCompaction
  split
  · exact ⟨rfl, rfl⟩
  · cases ht : s.tgt with
    | some t => exact ⟨rfl, rfl⟩
    | none => exact ⟨rfl, rfl⟩

theorem Shard.insert_span (cfg : Cfg) (s : Shard) (ph : PH) (k v : Bytes) (mode : Mode) :
    (s.insert cfg ph k v mode).1.lo = s.lo ∧ (s.insert cfg ph k v mode).1.hi = s.hi := by
  unfold Shard.insert
  dsimp only
  cases (s.insertPlan cfg ph k v mode).2.2 with
  | none => exact s.runActive_span _ _
  | some off =>
    have h1 := (s.runActive ph.rowSel (s.insertPlan cfg ph k v mode).1).beginCompaction_span off
    have h2 := s.runActive_span ph.rowSel (s.insertPlan cfg ph k v mode).1
    exact ⟨h1.1.trans h2.1, h1.2.trans h2.2⟩

/-- An effect leaves an entry that stays at its position. -/
theorem Effect.stays {cfg : Cfg} {lo hi : Nat} {f : MFile} {r : Nat} {k : Bytes} {cur new : Option Bytes} {ps : List Prim} (he : Effect cfg f r k cur ps new) (hok : FileOK cfg lo hi f)
    (hr : r < NUM_ROWS) {r' c' : Nat} {k' v' : Bytes} (hr' : r' < NUM_ROWS) (hc' : c' < ROW_WIDTH) (hl : f.live r' c' = some (k', v')) (hstay : k' = k → new ≠ none) :
    ∃ v2, (f.run ps).live r' c' = some (k', v2) := by
  cases he with
  | noop => exact ⟨v', hl⟩
  | put c v hc he hcur hk hv ho =>
    rw [live_put hok.extOK hk hv ho (cfg.ph_sig_ne k) hr' hc']
    rw [if_neg]
    · exact ⟨v', hl⟩
    · rintro ⟨rfl, rfl⟩; rw [hl] at he; cases he
  | replace c old v hc he hcur hk hv ho =>
    have hsig : (f.slot r c).sig ≠ INVALID_SIG := fun e => by rw [live_eq_none.2 e] at he; cases he
    rw [live_replace hok.extOK hk hv ho hsig hr' hc']
    by_cases e : r' = r ∧ c' = c
    · obtain ⟨rfl, rfl⟩ := e
      rw [hl] at he; cases he
      exact ⟨v, if_pos ⟨rfl, rfl⟩⟩
    · rw [if_neg e]; exact ⟨v', hl⟩
  | remove c old hc he hcur =>
    rw [live_remove]
    rw [if_neg]
    · exact ⟨v', hl⟩
    · rintro ⟨rfl, rfl⟩; rw [hl] at he; cases he; exact hstay rfl rfl

theorem Shard.runActive_stays {cfg : Cfg} {s : Shard} {k : Bytes} {ps : List Prim} {new : Option Bytes} (h : s.Inv cfg)
    (he : Effect cfg (s.active (cfg.ph k).rowSel) (cfg.ph k).rowSel k (s.val cfg k) ps new) {r' c' : Nat} {k' v' : Bytes} (hr' : r' < NUM_ROWS) (hc' : c' < ROW_WIDTH)
    (hl : s.view r' c' = some (k', v')) (hstay : k' = k → new ≠ none) : ∃ v2, (s.runActive (cfg.ph k).rowSel ps).view r' c' = some (k', v2) := by
  have hcu := he.cu
  have hr := (cfg.ph k).rowSel_lt
  have ha := h.active (cfg.ph k).rowSel
  have key := fun hl' => he.stays ha hr hr' hc' (v' := v') hl' hstay
  generalize (cfg.ph k).rowSel = r at *
  unfold Shard.view Shard.active Shard.runActive at *
  cases ht : s.tgt with
  | none => simp only [ht] at hl key ⊢; exact key hl
  | some t =>
    simp only [ht] at hl hcu key ⊢
    by_cases hlt : r < t.compactedUpTo
    · simp only [if_pos hlt] at hcu key ⊢
      simp only [hcu]
      by_cases h2 : r' < t.compactedUpTo
      · rw [if_pos h2] at hl ⊢; exact key hl
      · rw [if_neg h2] at hl ⊢; exact ⟨v', hl⟩
    · simp only [if_neg hlt] at key ⊢
      by_cases h2 : r' < t.compactedUpTo
      · rw [if_pos h2] at hl ⊢; exact ⟨v', hl⟩
      · rw [if_neg h2] at hl ⊢; exact key hl

theorem Shard.insert_stays {cfg : Cfg} {s : Shard} {k v : Bytes} {mode : Mode} (h : s.Inv cfg) (hsmall : (s.active (cfg.ph k).rowSel).writeOff < 4294967296)
    (hk : k.length < 65536) (hv : v.length < 65536) (hlo : s.lo ≤ (cfg.ph k).shardSel) (hhi : (cfg.ph k).shardSel < s.hi) {r c : Nat} {k' v' : Bytes} (hr : r < NUM_ROWS) (hc : c < ROW_WIDTH)
    (hl : s.view r c = some (k', v')) (hstay : (s.insert cfg (cfg.ph k) k v mode).1.val cfg k' ≠ none) :
    ∃ v2, (s.insert cfg (cfg.ph k) k v mode).1.view r c = some (k', v2) := by
  have hplan := insertPlan_spec (mode := mode) (h.active (cfg.ph k).rowSel) (h.val k) hk hv hsmall
  have hs' : (s.insert cfg (cfg.ph k) k v mode).1 = (match (s.insertPlan cfg (cfg.ph k) k v mode).2.2 with
    | some off => (s.runActive (cfg.ph k).rowSel (s.insertPlan cfg (cfg.ph k) k v mode).1).beginCompaction off
    | none => s.runActive (cfg.ph k).rowSel (s.insertPlan cfg (cfg.ph k) k v mode).1) := rfl
  rw [hs'] at hstay ⊢
  clear hs'
  generalize s.insertPlan cfg (cfg.ph k) k v mode = p at hplan hstay ⊢
  obtain ⟨ps, st0, sc⟩ := p
  simp only at hplan hstay ⊢
  suffices hmain : (s.runActive (cfg.ph k).rowSel ps).Inv cfg ∧ ((s.runActive (cfg.ph k).rowSel ps).val cfg k' ≠ none →
      ∃ v2, (s.runActive (cfg.ph k).rowSel ps).view r c = some (k', v2)) by
    cases sc with
    | none => exact hmain.2 hstay
    | some off =>
      obtain ⟨b1, b2, b3, b4⟩ := Shard.beginCompaction_spec hmain.1 off
      simp only at hstay ⊢
      rw [Shard.val_congr b2] at hstay
      unfold Shard.view
      rw [b2]
      exact hmain.2 hstay
  rcases hplan with ⟨h1, h2, h3⟩ | ⟨h1, h2⟩
  · subst h2
    rw [Shard.runActive_nil]
    exact ⟨h, fun _ => ⟨v', hl⟩⟩
  · obtain ⟨e1, e2⟩ := h.effect h2 hlo hhi
    refine ⟨e1, fun hst => Shard.runActive_stays h h2 hr hc hl ?_⟩
    rintro rfl
    rw [e2, Map.upd_same] at hst
    exact hst

theorem Shard.remove_stays {cfg : Cfg} {s : Shard} {k : Bytes} (h : s.Inv cfg) (hlo : s.lo ≤ (cfg.ph k).shardSel) (hhi : (cfg.ph k).shardSel < s.hi) {r c : Nat} {k' v' : Bytes}
    (hr : r < NUM_ROWS) (hc : c < ROW_WIDTH) (hl : s.view r c = some (k', v')) (hstay : (s.remove (cfg.ph k) k).1.val cfg k' ≠ none) :
    ∃ v2, (s.remove (cfg.ph k) k).1.view r c = some (k', v2) := by
  obtain ⟨h1, h2⟩ := removePlan_spec (h.active (cfg.ph k).rowSel) (h.val k)
  obtain ⟨e1, e2⟩ := h.effect h2 hlo hhi
  refine Shard.runActive_stays h h2 hr hc hl ?_
  rintro rfl
  have : (s.remove (cfg.ph k') k').1.val cfg k' = Map.upd (s.val cfg) k' none k' := e2 k'
  rw [this, Map.upd_same] at hstay
  exact hstay

theorem Shard.bgStep_stays {cfg : Cfg} {s s' : Shard} {ex : Bool} (h : s.Inv cfg) (hsmall : s.Small) (ha : s.AcctInv ex) (e : s.bgStep cfg = some s') {r c : Nat} (hr : r < NUM_ROWS) (hc : c < ROW_WIDTH)
    (ht : s'.inTarget r = s.inTarget r) : s'.view r c = s.view r c ∧ s'.lo = s.lo ∧ s'.hi = s.hi := by
  unfold Shard.bgStep at e
  cases htg : s.tgt with
  | none => rw [htg] at e; cases e; exact ⟨rfl, rfl, rfl⟩
  | some t =>
    rw [htg] at e
    simp only at e
    have hT := h.tgtOK htg
    by_cases hlt : t.compactedUpTo < NUM_ROWS
    · rw [if_pos hlt] at e
      have hsm := hsmall.2 t htg
      rw [remW_step _ _ hlt] at hsm
      have hempty : ∀ c, c < ROW_WIDTH → t.live t.compactedUpTo c = none := fun c hc =>
        live_eq_none.2 (h.fresh t htg _ c (Nat.le_refl _) hlt hc)
      obtain ⟨t', h1, h2, h3, h4⟩ := compactRow_spec (first := (t.compactedUpTo == 0)) h.src hT hlt (Or.inr hempty) (by omega)
      rw [h1] at e
      cases e
      refine ⟨?_, rfl, rfl⟩
      unfold Shard.inTarget at ht
      simp only [htg, h3.cu, decide_eq_decide] at ht
      unfold Shard.view Shard.active
      simp only [htg, h3.cu]
      by_cases e' : r < t.compactedUpTo
      · rw [if_pos (ht.2 e'), if_pos e']
        exact h3.other r c hr hc (by omega)
      · rw [if_neg (fun hx => e' (ht.1 hx)), if_neg e']
    · rw [if_neg hlt] at e
      cases e
      exfalso
      unfold Shard.inTarget at ht
      simp only [htg] at ht
      have : decide (r < t.compactedUpTo) = true := decide_eq_true (by omega)
      rw [this] at ht
      cases ht

/-! ## The tree -/

theorem Shard.finish_span {cfg : Cfg} {s s' : Shard} (h : s.finish cfg = some s') : s'.lo = s.lo ∧ s'.hi = s.hi := by
  unfold Shard.finish at h
  cases ht : s.tgt with
  | none => rw [ht] at h; cases h; exact ⟨rfl, rfl⟩
  | some t =>
    rw [ht] at h
    simp only at h
    cases hc : compactRows cfg s.src (NUM_ROWS - t.compactedUpTo) (t.compactedUpTo == 0) t with
    | none => rw [hc] at h; cases h
    | some t' => rw [hc] at h; cases h; exact ⟨rfl, rfl⟩

theorem Shard.split_span {cfg : Cfg} {s b t : Shard} (h : s.split cfg = some (b, t)) : t.hi = s.hi := by
  unfold Shard.split at h
  cases hf : s.finish cfg with
  | none => rw [hf] at h; cases h
  | some s1 =>
    rw [hf] at h
    dsimp only at h
    split at h
    · cases h; exact (Shard.finish_span hf).2
    · cases h

theorem Tree.insert_hi {cfg : Cfg} {ph : PH} {k v : Bytes} {mode : Mode} : ∀ (n : Nat) (t t' : Tree) (st : InsStatus), t.insert cfg ph k v mode n = .ok (t', st) → t'.hi = t.hi
  | 0, _, _, _, h => by unfold Tree.insert at h; cases h
  | n + 1, .leaf s, t', st, h => by
    unfold Tree.insert at h
    have hsp := s.insert_span cfg ph k v mode
    revert h hsp
    generalize s.insert cfg ph k v mode = x
    obtain ⟨s', st0⟩ := x
    intro h hsp
    cases st0 with
    | splitNeeded =>
      dsimp only at h
      cases hs : s'.split cfg with
      | none => rw [hs] at h; cases h
      | some bt =>
        obtain ⟨b, t⟩ := bt
        rw [hs] at h
        have := Tree.insert_hi n _ _ _ h
        rw [this]
        exact (Shard.split_span hs).trans hsp.2
    | _ => cases h; exact hsp.2
  | n + 1, .vertex b t, t', st, h => by
    unfold Tree.insert at h
    by_cases hb : ph.shardSel < b.hi
    · rw [if_pos hb] at h
      cases hr : Tree.insert cfg ph k v mode n b with
      | ok r => rw [hr] at h; cases h; rfl
      | _ => rw [hr] at h; cases h
    · rw [if_neg hb] at h
      cases hr : Tree.insert cfg ph k v mode n t with
      | ok r =>
        rw [hr] at h; cases h
        exact (show r.1.hi = t.hi from Tree.insert_hi n _ _ _ hr)
      | _ => rw [hr] at h; cases h

/-- What an insertion does to the leaf owning any selector: nothing, or it is split (any number of times), or the insertion is made there. -/
theorem Tree.insert_at {cfg : Cfg} {ph : PH} {k v : Bytes} {mode : Mode} (sel : Nat) : ∀ (n : Nat) (t t' : Tree) (st : InsStatus), t.insert cfg ph k v mode n = .ok (t', st) →
    t.depth sel < t'.depth sel ∨ t'.depth sel = t.depth sel ∧ (t'.find sel = t.find sel ∨
      t.find ph.shardSel = t.find sel ∧ t'.find sel = ((t.find sel).insert cfg ph k v mode).1)
  | 0, _, _, _, h => by unfold Tree.insert at h; cases h
  | n + 1, .leaf s, t', st, h => by
    unfold Tree.insert at h
    cases hx : s.insert cfg ph k v mode with
    | mk s' st0 =>
    have hfin : ∀ st1 : InsStatus, Out.ok (Tree.leaf s', st1) = .ok (t', st) → (Tree.leaf s).depth sel < t'.depth sel ∨ t'.depth sel = (Tree.leaf s).depth sel ∧ (t'.find sel = (Tree.leaf s).find sel ∨
      (Tree.leaf s).find ph.shardSel = (Tree.leaf s).find sel ∧ t'.find sel = (((Tree.leaf s).find sel).insert cfg ph k v mode).1) := by
      intro st1 h
      cases h
      refine .inr ⟨rfl, .inr ⟨rfl, ?_⟩⟩
      show s' = (s.insert cfg ph k v mode).1
      rw [hx]
    rw [hx] at h
    cases st0 with
    | splitNeeded =>
      dsimp only at h
      cases hs : s'.split cfg with
      | none => rw [hs] at h; cases h
      | some bt =>
        obtain ⟨b, t⟩ := bt
        rw [hs] at h
        left
        have h1 := Tree.insert_at sel n _ _ _ h
        have h2 : (Tree.leaf s).depth sel = 0 := rfl
        have h3 : 0 < (Tree.vertex (.leaf b) (.leaf t)).depth sel := by
          show 0 < if sel < b.hi then _ + 1 else _ + 1
          split <;> omega
        omega
    | added => exact hfin _ h
    | replaced _ => exact hfin _ h
    | keyDoesNotExist => exact hfin _ h
    | alreadyExists _ => exact hfin _ h
  | n + 1, .vertex b t, t', st, h => by
    unfold Tree.insert at h
    by_cases hb : ph.shardSel < b.hi
    · rw [if_pos hb] at h
      cases hr : Tree.insert cfg ph k v mode n b with
      | ok r =>
        obtain ⟨b', st'⟩ := r
        rw [hr] at h; cases h
        have ih := Tree.insert_at sel n _ _ _ hr
        have hh := Tree.insert_hi n _ _ _ hr
        unfold Tree.depth Tree.find
        rw [hh, if_pos hb]
        by_cases hs : sel < b.hi
        · simp only [if_pos hs]
          rcases ih with ih | ih
          · left; omega
          · right; exact ⟨by omega, ih.2⟩
        · simp only [if_neg hs]
          exact .inr ⟨trivial, .inl trivial⟩
      | _ => rw [hr] at h; cases h
    · rw [if_neg hb] at h
      cases hr : Tree.insert cfg ph k v mode n t with
      | ok r =>
        obtain ⟨b', st'⟩ := r
        rw [hr] at h; cases h
        have ih := Tree.insert_at sel n _ _ _ hr
        unfold Tree.depth Tree.find
        rw [if_neg hb]
        by_cases hs : sel < b.hi
        · simp only [if_pos hs]
          exact .inr ⟨trivial, .inl trivial⟩
        · simp only [if_neg hs]
          rcases ih with ih | ih
          · left; omega
          · right; exact ⟨by omega, ih.2⟩
      | _ => rw [hr] at h; cases h

theorem Tree.modify_at {f : Shard → Shard} {sel' : Nat} (hf : ∀ s, (f s).hi = s.hi) (sel : Nat) : ∀ t : Tree, (t.modify sel' f).hi = t.hi ∧
    (t.modify sel' f).depth sel = t.depth sel ∧ ((t.modify sel' f).find sel = t.find sel ∨ t.find sel' = t.find sel ∧ (t.modify sel' f).find sel = f (t.find sel))
  | .leaf s => ⟨hf s, rfl, .inr ⟨rfl, rfl⟩⟩
  | .vertex b t => by
    have ihb := Tree.modify_at (sel' := sel') hf sel b
    have iht := Tree.modify_at (sel' := sel') hf sel t
    unfold Tree.modify Tree.depth Tree.find
    by_cases hb : sel' < b.hi
    · simp only [if_pos hb, ihb.1]
      refine ⟨rfl, ?_⟩
      by_cases hs : sel < b.hi
      · simp only [if_pos hs]; exact ⟨by rw [ihb.2.1], ihb.2.2⟩
      · simp only [if_neg hs]; exact ⟨trivial, .inl trivial⟩
    · simp only [if_neg hb]
      refine ⟨iht.1, ?_⟩
      by_cases hs : sel < b.hi
      · simp only [if_pos hs]; exact ⟨trivial, .inl trivial⟩
      · simp only [if_neg hs]; exact ⟨by rw [iht.2.1], iht.2.2⟩

theorem Shard.bgStep_hi {cfg : Cfg} {s s' : Shard} (h : s.bgStep cfg = some s') : s'.hi = s.hi := by
  unfold Shard.bgStep at h
  cases ht : s.tgt with
  | none => rw [ht] at h; cases h; rfl
  | some t =>
    rw [ht] at h
    simp only at h
    split at h
    · cases hc : compactRow cfg (t.compactedUpTo == 0) s.src t with
      | none => rw [hc] at h; cases h
      | some t' => rw [hc] at h; cases h; rfl
    · cases h; rfl

theorem Tree.bgStep_at {cfg : Cfg} (sel sel' : Nat) : ∀ t t' : Tree, t.bgStep cfg sel' = some t' → t'.hi = t.hi ∧ t'.depth sel = t.depth sel ∧
    (t'.find sel = t.find sel ∨ (t.find sel).bgStep cfg = some (t'.find sel))
  | .leaf s, t', h => by
    unfold Tree.bgStep at h
    cases hs : s.bgStep cfg with
    | none => rw [hs] at h; cases h
    | some s' => rw [hs] at h; cases h; exact ⟨Shard.bgStep_hi hs, rfl, .inr hs⟩
  | .vertex b t, t', h => by
    unfold Tree.bgStep at h
    by_cases hb : sel' < b.hi
    · rw [if_pos hb] at h
      cases hs : b.bgStep cfg sel' with
      | none => rw [hs] at h; cases h
      | some b' =>
        rw [hs] at h; cases h
        have ih := Tree.bgStep_at sel sel' b b' hs
        unfold Tree.depth Tree.find
        rw [ih.1]
        refine ⟨rfl, ?_⟩
        by_cases hs : sel < b.hi
        · simp only [if_pos hs]; exact ⟨by rw [ih.2.1], ih.2.2⟩
        · simp only [if_neg hs]; exact ⟨trivial, .inl trivial⟩
    · rw [if_neg hb] at h
      cases hs : t.bgStep cfg sel' with
      | none => rw [hs] at h; cases h
      | some b' =>
        rw [hs] at h; cases h
        have ih := Tree.bgStep_at sel sel' t b' hs
        unfold Tree.depth Tree.find
        refine ⟨ih.1, ?_⟩
        by_cases hs : sel < b.hi
        · simp only [if_pos hs]; exact ⟨trivial, .inl trivial⟩
        · simp only [if_neg hs]; exact ⟨by rw [ih.2.1], ih.2.2⟩

/-- While the shard of `k` is not split and its row not copied, the entry of `k` stays where it is. -/
theorem CMove.stays {cfg : Cfg} {s s1 : CState} {tr1 : List CEvent} (h : CMove cfg s tr1 s1) {ex : Bool} (hok : Tree.OK cfg ex 0 END_OF_SHARDS s.tree) {k : Bytes}
    (hh : s1.tree.home cfg k = s.tree.home cfg k) (hk : s1.tree.userGet cfg k ≠ none) {r c : Nat} (hr : r < NUM_ROWS) (hc : c < ROW_WIDTH)
    (hl : ∃ v, (s.tree.find (cfg.ph (userKey k)).shardSel).view r c = some (userKey k, v)) :
    (∃ v, (s1.tree.find (cfg.ph (userKey k)).shardSel).view r c = some (userKey k, v)) ∧
      (s1.tree.find (cfg.ph (userKey k)).shardSel).lo = (s.tree.find (cfg.ph (userKey k)).shardSel).lo ∧
      (s1.tree.find (cfg.ph (userKey k)).shardSel).hi = (s.tree.find (cfg.ph (userKey k)).shardSel).hi := by
  obtain ⟨v, hl⟩ := hl
  unfold Tree.home at hh
  dsimp only at hh
  rw [Prod.mk.injEq] at hh
  have hrow : (cfg.ph (userKey k)).rowSel = r := ((hok.find (inSpan_full _)).2.1.active r).row r c (userKey k, v) hr hc hl
  rw [hrow] at hh
  have hk' : (s1.tree.find (cfg.ph (userKey k)).shardSel).val cfg (userKey k) ≠ none := hk
  clear hk
  generalize hsel : (cfg.ph (userKey k)).shardSel = sel at *
  have hin : inSpan 0 END_OF_SHARDS sel := hsel ▸ inSpan_full _
  obtain ⟨f1, f2, f3, f4⟩ := hok.find hin
  rcases h.tree with e | ⟨hs, ⟨p, p', hc'⟩ | ⟨sel', hb⟩⟩
  · rw [e]; exact ⟨⟨v, hl⟩, rfl, rfl⟩
  · generalize s1.tree = t1 at *
    cases hc' with
    | get => exact ⟨⟨v, hl⟩, rfl, rfl⟩
    | insErr => exact ⟨⟨v, hl⟩, rfl, rfl⟩
    | byHash => exact ⟨⟨v, hl⟩, rfl, rfl⟩
    | lock => exact ⟨⟨v, hl⟩, rfl, rfl⟩
    | unlock => exact ⟨⟨v, hl⟩, rfl, rfl⟩
    | ins _ key val mode cc st n hsz hi =>
      have hz := sizeErr_lt hsz
      rcases Tree.insert_at sel n _ _ _ hi with h1 | ⟨_, h1 | ⟨h1, h2⟩⟩
      · omega
      · rw [h1]; exact ⟨⟨v, hl⟩, rfl, rfl⟩
      · obtain ⟨g1, g2, g3, g4⟩ := hok.find (inSpan_full (cfg.ph key))
        rw [h1] at g1
        rw [h2] at hk' ⊢
        have hsp := (s.tree.find sel).insert_span cfg (cfg.ph key) key val mode
        exact ⟨Shard.insert_stays f2 ((hs _ f4).active _) hz.1 hz.2 g1.1 g1.2 hr hc hl hk', hsp.1, hsp.2⟩
    | rem key cc =>
      have hsp : ∀ s : Shard, (s.remove (cfg.ph key) key).1.lo = s.lo ∧ (s.remove (cfg.ph key) key).1.hi = s.hi := fun s => s.runActive_span _ _
      obtain ⟨_, h1, h2⟩ := Tree.modify_at (sel' := (cfg.ph key).shardSel) (f := fun s => (s.remove (cfg.ph key) key).1) (fun s => (hsp s).2) sel s.tree
      have e : (s.tree.remove cfg key).1 = s.tree.modify (cfg.ph key).shardSel (fun s => (s.remove (cfg.ph key) key).1) := rfl
      rw [e] at hk' ⊢
      rcases h2 with h2 | ⟨h2, h3⟩
      · rw [h2]; exact ⟨⟨v, hl⟩, rfl, rfl⟩
      · obtain ⟨g1, g2, g3, g4⟩ := hok.find (inSpan_full (cfg.ph key))
        rw [h2] at g1
        rw [h3] at hk' ⊢
        exact ⟨Shard.remove_stays f2 g1.1 g1.2 hr hc hl hk', (hsp _).1, (hsp _).2⟩
  · obtain ⟨_, _, h1 | h1⟩ := Tree.bgStep_at sel sel' _ _ hb
    · rw [h1]; exact ⟨⟨v, hl⟩, rfl, rfl⟩
    · obtain ⟨e1, e2, e3⟩ := Shard.bgStep_stays (c := c) f2 (hs _ f4) f3 h1 hr hc hh.2
      exact ⟨⟨v, by rw [e1]; exact hl⟩, e2, e3⟩

/-! ## The iteration -/

theorem It.show_user {kv kv' : KV} (h : It.show false kv = some kv') : kv = (userKey kv'.1, kv'.2) := by
  unfold It.show at h
  rw [if_neg (by simp)] at h
  by_cases he : endsWith kv.1 USER_NS = true
  · rw [if_pos he] at h
    obtain ⟨p, hp⟩ := endsWith_iff.1 he
    cases h
    have : kv.1.take (kv.1.length - USER_NS.length) = p := by rw [hp]; simp
    obtain ⟨a, b⟩ := kv
    dsimp only at *
    rw [this]; unfold userKey; rw [← hp]
  · rw [if_neg he] at h; cases h

theorem It.show_of_user (k v : Bytes) : It.show false (userKey k, v) = some (k, v) := by
  unfold It.show
  rw [if_neg (by simp), if_pos (show endsWith (userKey k) USER_NS = true from endsWith_iff.2 ⟨k, rfl⟩)]
  simp [userKey]

theorem Tree.OK.disj {cfg ex lo hi t} (h : Tree.OK cfg ex lo hi t) {a b : Nat} (ha : inSpan lo hi a) (hb : inSpan lo hi b) :
    t.find a = t.find b ∨ (t.find a).hi ≤ (t.find b).lo ∨ (t.find b).hi ≤ (t.find a).lo := by
  have key : ∀ l : List Shard, l.Pairwise (fun a b => a.hi ≤ b.lo) → ∀ a b, a ∈ l → b ∈ l → a = b ∨ a.hi ≤ b.lo ∨ b.hi ≤ a.lo := by
    intro l hl
    induction l with
    | nil => simp
    | cons x l ih =>
      intro a b ha hb
      rw [List.pairwise_cons] at hl
      rcases List.mem_cons.1 ha with ea | ha
      · rcases List.mem_cons.1 hb with eb | hb
        · exact .inl (ea.trans eb.symm)
        · rw [ea]; exact .inr (.inl (hl.1 b hb))
      · rcases List.mem_cons.1 hb with eb | hb
        · rw [eb]; exact .inr (.inr (hl.1 a ha))
        · exact ih hl.2 a b ha hb
  exact key _ h.chain.ordered _ _ (h.find ha).2.2.2 (h.find hb).2.2.2

/-- A pair returned is in the store at that moment. -/
theorem It.tick_sound {cfg ex t} (h : Tree.OK cfg ex 0 END_OF_SHARDS t) {it it' : It} {kv : KV} (hs : it.sel < END_OF_SHARDS) (hp : PosOK it.row it.ent) (hraw : it.raw = false)
    (e : It.tick t it = (it', some kv)) : it.row < NUM_ROWS ∧ (t.find it.sel).view it.row it.ent = some (userKey kv.1, kv.2) ∧ t.userGet cfg kv.1 = some kv.2 := by
  obtain ⟨f1, f2, f3, f4⟩ := h.find (sel := it.sel) ⟨Nat.zero_le _, hs⟩
  unfold It.tick at e
  dsimp only at e
  by_cases hr : it.row < NUM_ROWS
  · rw [if_pos hr] at e
    have hv : (t.find it.sel).view it.row it.ent = some (userKey kv.1, kv.2) := by
      rw [← Shard.readAt_eq]
      cases ho : (t.find it.sel).readAt it.row it.ent with
      | none => rw [ho] at e; cases e
      | some x =>
        rw [ho, hraw] at e
        simp only [Option.bind_some] at e
        cases hx : It.show false x with
        | none => rw [hx] at e; cases e
        | some y => rw [hx] at e; cases e; rw [It.show_user hx]
    refine ⟨hr, hv, ?_⟩
    have hval := f2.val_eq_some.2 ⟨_, _, hr, hp.1, hv⟩
    have hsp := f2.val_span hval
    have hin : inSpan (t.find it.sel).lo (t.find it.sel).hi (cfg.ph (userKey kv.1)).shardSel := hsp
    have hd := h.disj (a := it.sel) (b := (cfg.ph (userKey kv.1)).shardSel) ⟨Nat.zero_le _, hs⟩ (inSpan_full _)
    have f1' := (h.find (inSpan_full (cfg.ph (userKey kv.1)))).1
    rcases hd with hd | hd | hd
    · unfold Tree.userGet Tree.get
      rw [← hd]; exact hval
    · exact absurd (Nat.le_trans hd f1'.1) (by have := hin.2; omega)
    · exact absurd (Nat.le_trans hd hin.1) (by have := f1'.2; omega)
  · rw [if_neg hr] at e; cases e

/-- The next position. -/
theorem It.tick_pos {t : Tree} {it it' : It} {o : Option KV} (hp : PosOK it.row it.ent) (e : It.tick t it = (it', o)) :
    it'.raw = it.raw ∧ PosOK it'.row it'.ent ∧
    (it.row < NUM_ROWS → it'.row * ROW_WIDTH + it'.ent = it.row * ROW_WIDTH + it.ent + 1 ∧ (it'.sel = it.sel ∨ it'.sel = (t.find it.sel).lo)) ∧
    (NUM_ROWS ≤ it.row → it'.row = 0 ∧ it'.ent = 0 ∧ it'.sel = (t.find it.sel).hi ∧ o = none) := by
  obtain ⟨h1, h2, h3⟩ := hp
  unfold It.tick at e
  dsimp only at e
  by_cases hr : it.row < NUM_ROWS
  · rw [if_pos hr] at e
    have hq : PosOK (if ROW_WIDTH ≤ it.ent + 1 then it.row + 1 else it.row) (if ROW_WIDTH ≤ it.ent + 1 then 0 else it.ent + 1) := by
      unfold PosOK
      by_cases h : ROW_WIDTH ≤ it.ent + 1
      · rw [if_pos h, if_pos h]; exact ⟨by decide, by omega, fun _ => rfl⟩
      · rw [if_neg h, if_neg h]; exact ⟨by omega, by omega, fun e => by omega⟩
    have ha : (if ROW_WIDTH ≤ it.ent + 1 then it.row + 1 else it.row) * ROW_WIDTH + (if ROW_WIDTH ≤ it.ent + 1 then 0 else it.ent + 1) = it.row * ROW_WIDTH + it.ent + 1 := by
      by_cases h : ROW_WIDTH ≤ it.ent + 1
      · rw [if_pos h, if_pos h, Nat.add_mul]; omega
      · rw [if_neg h, if_neg h]; omega
    cases ho : ((t.find it.sel).readAt it.row it.ent).bind (It.show it.raw) with
    | none => rw [ho] at e; cases e; exact ⟨rfl, hq, fun _ => ⟨ha, .inl rfl⟩, fun h => by omega⟩
    | some kv => rw [ho] at e; cases e; exact ⟨rfl, hq, fun _ => ⟨ha, .inr rfl⟩, fun h => by omega⟩
  · rw [if_neg hr] at e
    cases e
    exact ⟨rfl, posOK_zero, fun h => absurd h hr, fun _ => ⟨rfl, rfl, rfl, rfl⟩⟩

/-- The iterator has not come to the entry. -/
def It.Ahead (s : Shard) (r c : Nat) (it : It) : Prop :=
  it.sel < s.lo ∨ (s.lo ≤ it.sel ∧ it.sel < s.hi) ∧ it.row * ROW_WIDTH + it.ent ≤ r * ROW_WIDTH + c

/-- The iterator has passed the entry. -/
def It.Behind (s : Shard) (r c : Nat) (it : It) : Prop :=
  s.hi ≤ it.sel ∨ (s.lo ≤ it.sel ∧ it.sel < s.hi) ∧ r * ROW_WIDTH + c < it.row * ROW_WIDTH + it.ent

theorem pos_inj {r c r' c' : Nat} (hc : c < ROW_WIDTH) (hc' : c' < ROW_WIDTH) (h : r * ROW_WIDTH + c = r' * ROW_WIDTH + c') : r = r' ∧ c = c' := by
  have e : ROW_WIDTH = 512 := rfl
  rw [e] at hc hc' h
  omega

theorem pos_lt {r c : Nat} (hr : r < NUM_ROWS) (hc : c < ROW_WIDTH) : r * ROW_WIDTH + c < NUM_ROWS * ROW_WIDTH := by
  have e : (r + 1) * ROW_WIDTH ≤ NUM_ROWS * ROW_WIDTH := Nat.mul_le_mul_right _ hr
  rw [Nat.add_mul] at e
  omega

/-- A read returns the pair of `k` iff it reads its position. -/
theorem It.tick_track {cfg ex t} (h : Tree.OK cfg ex 0 END_OF_SHARDS t) {it it' : It} {o : Option KV} (hs : it.sel < END_OF_SHARDS) (hp : PosOK it.row it.ent) (hraw : it.raw = false)
    (e : It.tick t it = (it', o)) {k v : Bytes} {r c : Nat} (hr : r < NUM_ROWS) (hc : c < ROW_WIDTH)
    (hl : (t.find (cfg.ph (userKey k)).shardSel).view r c = some (userKey k, v)) :
    (It.Ahead (t.find (cfg.ph (userKey k)).shardSel) r c it →
      (It.Ahead (t.find (cfg.ph (userKey k)).shardSel) r c it' ∧ ∀ kv ∈ o, kv.1 ≠ k) ∨ (It.Behind (t.find (cfg.ph (userKey k)).shardSel) r c it' ∧ o = some (k, v))) ∧
    (It.Behind (t.find (cfg.ph (userKey k)).shardSel) r c it → It.Behind (t.find (cfg.ph (userKey k)).shardSel) r c it' ∧ ∀ kv ∈ o, kv.1 ≠ k) := by
  obtain ⟨q1, q2, q3, q4⟩ := It.tick_pos hp e
  obtain ⟨f1, f2, f3, f4⟩ := h.find (sel := it.sel) ⟨Nat.zero_le _, hs⟩
  obtain ⟨g1, g2, g3, g4⟩ := h.find (inSpan_full (cfg.ph (userKey k)))
  have hd := h.disj (a := it.sel) (b := (cfg.ph (userKey k)).shardSel) ⟨Nat.zero_le _, hs⟩ (inSpan_full _)
  -- a returned pair of `k` is at its position
  have hat : ∀ kv ∈ o, kv.1 = k → (t.find it.sel) = t.find (cfg.ph (userKey k)).shardSel ∧ it.row = r ∧ it.ent = c := by
    intro kv hkv ek
    rw [Option.mem_def] at hkv
    rw [hkv] at e
    obtain ⟨s1, s2, s3⟩ := It.tick_sound h hs hp hraw e
    rw [ek] at s2
    have hval := f2.val_eq_some.2 ⟨_, _, s1, hp.1, s2⟩
    have hsp := f2.val_span hval
    have hes : t.find it.sel = t.find (cfg.ph (userKey k)).shardSel := by
      rcases hd with hd | hd | hd
      · exact hd
      · exact absurd (Nat.le_trans hd g1.1) (by have := hsp.2; omega)
      · exact absurd (Nat.le_trans hd hsp.1) (by have := g1.2; omega)
    rw [hes] at s2
    have r1 := (g2.active r).row r c (userKey k, v) hr hc hl
    have r2 := (g2.active it.row).row it.row it.ent (userKey k, kv.2) s1 hp.1 s2
    have er : it.row = r := r2.symm.trans r1
    rw [er] at s2
    exact ⟨hes, er, (g2.active r).inj r it.ent c _ _ hr hp.1 hc s2 hl rfl⟩
  generalize hS : t.find (cfg.ph (userKey k)).shardSel = S at *
  generalize hT : t.find it.sel = T at *
  have hST : S.lo < S.hi := by have := g1.1; have := g1.2; omega
  constructor
  · intro ha
    rcases ha with ha | ⟨ha, hpos⟩
    · -- another shard
      have hne : T.hi ≤ S.lo := by
        rcases hd with hd | hd | hd
        · rw [hd] at f1; exact absurd f1.1 (by omega)
        · exact hd
        · exact absurd (Nat.le_trans hd f1.1) (by omega)
      have hno : ∀ kv ∈ o, kv.1 ≠ k := by
        intro kv hkv ek
        have := (hat kv hkv ek).1
        rw [this] at hne; omega
      left
      refine ⟨?_, hno⟩
      by_cases hrow : it.row < NUM_ROWS
      · obtain ⟨_, hsel⟩ := q3 hrow
        left
        rcases hsel with hsel | hsel
        · rw [hsel]; exact ha
        · rw [hsel]; have := f1.1; omega
      · obtain ⟨z1, z2, z3, z4⟩ := q4 (by omega)
        unfold It.Ahead
        rw [z1, z2, z3]
        by_cases hlt : T.hi < S.lo
        · exact .inl hlt
        · exact .inr ⟨by omega, by rw [Nat.zero_mul]; exact Nat.zero_le _⟩
    · -- the shard of the entry
      have hes : T = S := by
        rcases hd with hd | hd | hd
        · exact hd
        · exact absurd f1.2 (by omega)
        · exact absurd f1.1 (by omega)
      have hrow : it.row < NUM_ROWS := by
        refine Nat.lt_of_not_le (fun hle => ?_)
        have h1 := pos_lt hr hc
        have h2 : NUM_ROWS * ROW_WIDTH ≤ it.row * ROW_WIDTH := Nat.mul_le_mul_right _ hle
        omega
      obtain ⟨hadv, hsel⟩ := q3 hrow
      have hsel' : S.lo ≤ it'.sel ∧ it'.sel < S.hi := by
        rcases hsel with hsel | hsel
        · rw [hsel]; exact ha
        · rw [hsel, hes]; omega
      by_cases heq : it.row * ROW_WIDTH + it.ent = r * ROW_WIDTH + c
      · obtain ⟨e1, e2⟩ := pos_inj hp.1 hc heq
        right
        refine ⟨.inr ⟨hsel', by omega⟩, ?_⟩
        unfold It.tick at e
        dsimp only at e
        have hv : T.readAt it.row it.ent = some (userKey k, v) := by rw [Shard.readAt_eq, e1, e2, hes]; exact hl
        rw [if_pos hrow, hT, hv, hraw, Option.bind_some, It.show_of_user] at e
        cases e; rfl
      · left
        refine ⟨.inr ⟨hsel', by rw [hadv]; exact Nat.lt_of_le_of_ne hpos heq⟩, fun kv hkv ek => ?_⟩
        obtain ⟨_, e1, e2⟩ := hat kv hkv ek
        rw [e1, e2] at heq; exact heq rfl
  · intro hb
    rcases hb with hb | ⟨hb, hpos⟩
    · have hne : S.hi ≤ T.lo := by
        rcases hd with hd | hd | hd
        · rw [hd] at f1; exact absurd f1.2 (by omega)
        · exact absurd f1.2 (by omega)
        · exact hd
      have hno : ∀ kv ∈ o, kv.1 ≠ k := by
        intro kv hkv ek
        have := (hat kv hkv ek).1
        rw [this] at hne; omega
      refine ⟨.inl ?_, hno⟩
      by_cases hrow : it.row < NUM_ROWS
      · obtain ⟨_, hsel⟩ := q3 hrow
        rcases hsel with hsel | hsel
        · rw [hsel]; exact hb
        · rw [hsel]; exact hne
      · obtain ⟨z1, z2, z3, z4⟩ := q4 (by omega)
        rw [z3]; have := f1.1; have := f1.2; omega
    · have hes : T = S := by
        rcases hd with hd | hd | hd
        · exact hd
        · exact absurd f1.2 (by omega)
        · exact absurd f1.1 (by omega)
      have hno : ∀ kv ∈ o, kv.1 ≠ k := by
        intro kv hkv ek
        obtain ⟨_, e1, e2⟩ := hat kv hkv ek
        rw [e1, e2] at hpos; omega
      refine ⟨?_, hno⟩
      by_cases hrow : it.row < NUM_ROWS
      · obtain ⟨hadv, hsel⟩ := q3 hrow
        right
        refine ⟨?_, by rw [hadv]; exact Nat.lt_succ_of_lt hpos⟩
        rcases hsel with hsel | hsel
        · rw [hsel]; exact hb
        · rw [hsel, hes]; omega
      · obtain ⟨z1, z2, z3, z4⟩ := q4 (by omega)
        left; rw [z3, hes]; exact Nat.le_refl _

/-- Every pair returned was in the store at some moment of the iteration. -/
theorem IterRun.sound {cfg : Cfg} {P : Tree → Prop} {s s' : CState} {it : It} {kvs : List KV} {tr : List CEvent} (h : IterRun cfg P s it kvs tr s') {ex : Bool} :
    Tree.OK cfg ex 0 END_OF_SHARDS s.tree → PosOK it.row it.ent → it.raw = false → ∀ kv ∈ kvs, ∃ t, P t ∧ t.userGet cfg kv.1 = some kv.2 := by
  induction h with
  | done hp h => intro _ _ _ kv hkv; cases hkv
  | @tick s s' it it' o kvs tr hp hlt h _ ih =>
    intro hok hpos hraw kv hkv
    obtain ⟨q1, q2, _⟩ := It.tick_pos hpos h
    rcases List.mem_append.1 hkv with hkv | hkv
    · cases o with
      | none => cases hkv
      | some x =>
        rw [Option.toList_some, List.mem_singleton] at hkv
        subst hkv
        exact ⟨_, hp, (It.tick_sound hok hlt hpos hraw h).2.2⟩
    · exact ih hok q2 (q1.trans hraw) kv hkv
  | move hp h _ ih => intro hok hpos hraw; exact ih (h.ok hok) hpos hraw

theorem filter_none {k : Bytes} : ∀ {l : List KV}, (∀ kv ∈ l, kv.1 ≠ k) → l.filter (fun kv => decide (kv.1 = k)) = [] := by
  intro l h
  rw [List.filter_eq_nil_iff]
  intro kv hkv
  simpa using h kv hkv

/-- A key that is present all the time, and whose entry is not moved, is returned once. -/
theorem IterRun.once {cfg : Cfg} {P : Tree → Prop} {k : Bytes} {hm : Nat × Bool} (hP : ∀ t, P t → t.home cfg k = hm ∧ t.userGet cfg k ≠ none) {s s' : CState} {it : It} {kvs : List KV}
    {tr : List CEvent} (h : IterRun cfg P s it kvs tr s') {ex : Bool} {r c : Nat} (hr : r < NUM_ROWS) (hc : c < ROW_WIDTH) :
    Tree.OK cfg ex 0 END_OF_SHARDS s.tree → PosOK it.row it.ent → it.raw = false →
    (∃ v, (s.tree.find (cfg.ph (userKey k)).shardSel).view r c = some (userKey k, v)) →
    (It.Ahead (s.tree.find (cfg.ph (userKey k)).shardSel) r c it → ∃ v t, P t ∧ t.userGet cfg k = some v ∧ kvs.filter (fun kv => decide (kv.1 = k)) = [(k, v)]) ∧
    (It.Behind (s.tree.find (cfg.ph (userKey k)).shardSel) r c it → kvs.filter (fun kv => decide (kv.1 = k)) = []) := by
  induction h with
  | @done s it hp h =>
    intro hok _ _ _
    obtain ⟨g1, g2, g3, g4⟩ := hok.find (inSpan_full (cfg.ph (userKey k)))
    have hhi := (hok.chain.ge _ g4).2.2
    refine ⟨fun ha => ?_, fun _ => rfl⟩
    exfalso
    rcases ha with ha | ⟨ha, _⟩
    · have := g1.1; have := g1.2; omega
    · omega
  | @tick s s' it it' o kvs tr hp hlt h _ ih =>
    intro hok hpos hraw hl
    obtain ⟨q1, q2, _⟩ := It.tick_pos hpos h
    obtain ⟨v, hv⟩ := hl
    obtain ⟨ta, tb⟩ := It.tick_track hok hlt hpos hraw h hr hc hv
    obtain ⟨ia, ib⟩ := ih hok q2 (q1.trans hraw) ⟨v, hv⟩
    have hno : (∀ kv ∈ o, kv.1 ≠ k) → o.toList.filter (fun kv => decide (kv.1 = k)) = [] := by
      intro ho
      refine filter_none (fun kv hkv => ho kv ?_)
      cases o with
      | none => cases hkv
      | some x => rw [Option.toList_some, List.mem_singleton] at hkv; rw [hkv]; rfl
    rw [List.filter_append]
    refine ⟨fun ha => ?_, fun hb => ?_⟩
    · rcases ta ha with ⟨h1, h2⟩ | ⟨h1, h2⟩
      · rw [hno h2, List.nil_append]; exact ia h1
      · refine ⟨v, s.tree, hp, ?_, ?_⟩
        · have := (hok.find (inSpan_full (cfg.ph (userKey k)))).2.1
          exact this.val_eq_some.2 ⟨r, c, hr, hc, hv⟩
        · rw [ib h1, h2]; simp
    · obtain ⟨h1, h2⟩ := tb hb
      rw [hno h2, List.nil_append]; exact ib h1
  | @move s s1 s' it kvs tr1 tr hp h hrest ih =>
    intro hok hpos hraw hl
    have hp1 : P s1.tree := by cases hrest <;> assumption
    obtain ⟨e1, e2, e3⟩ := h.stays hok ((hP _ hp1).1.trans (hP _ hp).1.symm) (hP _ hp1).2 hr hc hl
    have := ih (h.ok hok) hpos hraw e1
    unfold It.Ahead It.Behind at this ⊢
    rw [e2, e3] at this
    exact this

/-! ## Keys that no call changes -/

/-- The programs of the calls that do not change `k` do not write its entry. -/
def KeepOff (k : Bytes) (s : CState) : Prop :=
  ∀ i c p, s.thr i = some (c, p) → ¬ c.changesKey k → ∃ F : Bytes → Prop, ¬ F (userKey k) ∧ p.Within F anyRes

theorem keepOff_call (cfg : Cfg) (k : Bytes) (c : Call) (h : ¬ c.changesKey k) : ∃ F : Bytes → Prop, ¬ F (userKey k) ∧ (c.prog cfg).Within F anyRes := by
  by_cases hg : ∃ op, c = .kv k op
  · obtain ⟨op, rfl⟩ := hg
    refine ⟨fun _ => False, id, ?_⟩
    cases op with
    | get => refine within_tag (Q := anyRes) ?_; unfold kvGet; within
    | contains => refine within_tag (Q := anyRes) ?_; unfold kvContains; within
    | _ => exact absurd ⟨rfl, by simp, by simp⟩ h
  · refine ⟨c.Foot cfg, ?_, within_call cfg c⟩
    cases c with
    | kv k' op => intro e; exact hg ⟨op, by rw [userKey_inj e]⟩
    | typed k' op => intro e; revert e; show userKey k = typedKey k' → False; rw [typedKey_eq, userKey_eq]; exact ne_of_ns (by decide)
    | list lk op => exact user_notL
    | queue qk op => exact user_notQ

theorem KeepOff.move {cfg : Cfg} {k : Bytes} {s s1 : CState} {tr1 : List CEvent} (h : CMove cfg s tr1 s1) {ex : Bool} (hok : Tree.OK cfg ex 0 END_OF_SHARDS s.tree)
    (hk : KeepOff k s) : KeepOff k s1 := by
  intro j c' p' hj hc'
  have hset : ∀ {i : Nat} {x : Option (Call × Prog Resp)}, (setN s.thr i x) j = some (c', p') → (j = i ∧ x = some (c', p')) ∨ s.thr j = some (c', p') := by
    intro i x hx
    unfold setN at hx
    by_cases e : j = i
    · rw [if_pos e] at hx; exact .inl ⟨e, hx⟩
    · rw [if_neg e] at hx; exact .inr hx
  cases h with
  | inv i c h =>
    rcases hset hj with ⟨_, e⟩ | e
    · cases e; exact keepOff_call cfg k _ hc'
    · exact hk _ _ _ e hc'
  | raw h hl hs hc =>
    rcases hset hj with ⟨_, e⟩ | e
    · cases e
      obtain ⟨F, h1, h2⟩ := hk _ _ _ h hc'
      exact ⟨F, h1, (h2.step (hc.sim hok hs).2).2⟩
    · exact hk _ _ _ e hc'
  | lock h hf =>
    rcases hset hj with ⟨_, e⟩ | e
    · cases e
      obtain ⟨F, h1, h2⟩ := hk _ _ _ h hc'
      exact ⟨F, h1, h2⟩
    · exact hk _ _ _ e hc'
  | unlock h =>
    rcases hset hj with ⟨_, e⟩ | e
    · cases e
      obtain ⟨F, h1, h2⟩ := hk _ _ _ h hc'
      exact ⟨F, h1, h2⟩
    · exact hk _ _ _ e hc'
  | ret h hr hne =>
    rcases hset hj with ⟨_, e⟩ | e
    · cases e
    · exact hk _ _ _ e hc'
  | bg sel hs h => exact hk _ _ _ hj hc'

theorem ConcRun.keepOff {cfg : Cfg} {k : Bytes} {s s' : CState} {tr : List CEvent} (h : ConcRun cfg s tr s') {ex : Bool} : Tree.OK cfg ex 0 END_OF_SHARDS s.tree → KeepOff k s → KeepOff k s' := by
  induction h with
  | nil s => exact fun _ h => h
  | inv i c h _ ih => exact fun hok hk => ih hok (KeepOff.move (cfg := cfg) (.inv i c h) hok hk)
  | raw h hl hs hc _ ih => exact fun hok hk => ih ((CMove.raw h hl hs hc).ok hok) (KeepOff.move (cfg := cfg) (.raw h hl hs hc) hok hk)
  | lock h hf _ ih => exact fun hok hk => ih hok (KeepOff.move (cfg := cfg) (.lock h hf) hok hk)
  | unlock h _ ih => exact fun hok hk => ih hok (KeepOff.move (cfg := cfg) (.unlock h) hok hk)
  | ret h hr hne _ ih => exact fun hok hk => ih hok (KeepOff.move (cfg := cfg) (.ret h hr hne) hok hk)
  | bg sel hs h _ ih => exact fun hok hk => ih ((CMove.bg (cfg := cfg) sel hs h).ok hok) (KeepOff.move (cfg := cfg) (.bg sel hs h) hok hk)

/-- No call that may change `k` is in progress. -/
def CState.NoChange (s : CState) (k : Bytes) : Prop := ∀ i c p, s.thr i = some (c, p) → ¬ c.changesKey k

theorem CMove.noChange {cfg : Cfg} {k : Bytes} {s s1 : CState} {tr1 : List CEvent} (h : CMove cfg s tr1 s1) (hk : s.NoChange k) (ht : ∀ i c, CEvent.inv i c ∈ tr1 → ¬ c.changesKey k) :
    s1.NoChange k := by
  intro j c' p' hj
  have hset : ∀ {i : Nat} {x : Option (Call × Prog Resp)}, (setN s.thr i x) j = some (c', p') → (j = i ∧ x = some (c', p')) ∨ s.thr j = some (c', p') := by
    intro i x hx
    unfold setN at hx
    by_cases e : j = i
    · rw [if_pos e] at hx; exact .inl ⟨e, hx⟩
    · rw [if_neg e] at hx; exact .inr hx
  cases h with
  | inv i c h =>
    rcases hset hj with ⟨_, e⟩ | e
    · cases e; exact ht i _ (List.mem_singleton.2 rfl)
    · exact hk _ _ _ e
  | raw h hl hs hc =>
    rcases hset hj with ⟨_, e⟩ | e
    · cases e; exact hk _ _ _ h
    · exact hk _ _ _ e
  | lock h hf =>
    rcases hset hj with ⟨_, e⟩ | e
    · cases e; exact hk _ _ _ h
    · exact hk _ _ _ e
  | unlock h =>
    rcases hset hj with ⟨_, e⟩ | e
    · cases e; exact hk _ _ _ h
    · exact hk _ _ _ e
  | ret h hr hne =>
    rcases hset hj with ⟨_, e⟩ | e
    · cases e
    · exact hk _ _ _ e
  | bg sel hs h => exact hk _ _ _ hj

theorem CMove.sameVal {cfg : Cfg} {k : Bytes} {s s1 : CState} {tr1 : List CEvent} (h : CMove cfg s tr1 s1) {ex : Bool} (hok : Tree.OK cfg ex 0 END_OF_SHARDS s.tree)
    (hk : KeepOff k s) (hn : s.NoChange k) : s1.tree.userGet cfg k = s.tree.userGet cfg k := by
  cases h with
  | inv i c h => rfl
  | raw h hl hs hc =>
    obtain ⟨F, h1, h2⟩ := hk _ _ _ h (hn _ _ _ h)
    exact (h2.step (hc.sim hok hs).2).1 _ h1
  | lock h hf => rfl
  | unlock h => rfl
  | ret h hr hne => rfl
  | bg sel hs h => exact congrFun (bg_get hok hs h).2 _

/-- A key that no call changes keeps its value during the iteration. -/
theorem IterRun.keeps {cfg : Cfg} {P : Tree → Prop} {k : Bytes} {v : Option Bytes} {s s' : CState} {it : It} {kvs : List KV} {tr : List CEvent} (h : IterRun cfg P s it kvs tr s') {ex : Bool} :
    Tree.OK cfg ex 0 END_OF_SHARDS s.tree → KeepOff k s → s.NoChange k → (∀ i c, CEvent.inv i c ∈ tr → ¬ c.changesKey k) → s.tree.userGet cfg k = v →
    IterRun cfg (fun t => P t ∧ t.userGet cfg k = v) s it kvs tr s' := by
  induction h with
  | done hp h => intro _ _ _ _ hv; exact .done ⟨hp, hv⟩ h
  | tick hp hlt h _ ih => intro hok hk hn ht hv; exact .tick ⟨hp, hv⟩ hlt h (ih hok hk hn ht hv)
  | move hp h _ ih =>
    intro hok hk hn ht hv
    refine .move ⟨hp, hv⟩ h (ih (h.ok hok) (hk.move h hok) (h.noChange hn fun i c hm => ht i c (List.mem_append_left _ hm)) (fun i c hm => ht i c (List.mem_append_right _ hm)) ?_)
    rw [h.sameVal hok hk hn, hv]

/-! ## Undisturbed, the ticks are the calls of `next` -/

theorem It.scan_ticks {cfg : Cfg} {P : Tree → Prop} {s s' : CState} {sel : Nat} (hp : P s.tree) (hs : sel < END_OF_SHARDS) {raw : Bool} {tr : List CEvent} {kvs : List KV} :
    ∀ (n row ent : Nat),
    (∀ row' ent' kv, It.scan (s.tree.find sel) raw n row ent = (row', ent', some kv) → ∀ kvs, IterRun cfg P s ⟨(s.tree.find sel).lo, row', ent', raw⟩ kvs tr s' →
      IterRun cfg P s ⟨sel, row, ent, raw⟩ (kv :: kvs) tr s') ∧
    (∀ row' ent', It.scan (s.tree.find sel) raw n row ent = (row', ent', none) → IterRun cfg P s ⟨sel, row', ent', raw⟩ kvs tr s' → IterRun cfg P s ⟨sel, row, ent, raw⟩ kvs tr s')
  | 0, row, ent => ⟨(fun row' ent' kv h => by cases h), (fun row' ent' h hr => by cases h; exact hr)⟩
  | n + 1, row, ent => by
    have ih := It.scan_ticks (cfg := cfg) (P := P) (s' := s') (raw := raw) (tr := tr) (kvs := kvs) hp hs n
    unfold It.scan
    by_cases hr : row < NUM_ROWS
    · rw [if_pos hr]
      dsimp only
      have ht : It.tick s.tree ⟨sel, row, ent, raw⟩ = (match ((s.tree.find sel).readAt row ent).bind (It.show raw) with
        | some kv => (⟨(s.tree.find sel).lo, if ROW_WIDTH ≤ ent + 1 then row + 1 else row, if ROW_WIDTH ≤ ent + 1 then 0 else ent + 1, raw⟩, some kv)
        | none => (⟨sel, if ROW_WIDTH ≤ ent + 1 then row + 1 else row, if ROW_WIDTH ≤ ent + 1 then 0 else ent + 1, raw⟩, none)) := by
        unfold It.tick; dsimp only; rw [if_pos hr]
        cases ((s.tree.find sel).readAt row ent).bind (It.show raw) <;> rfl
      cases ho : ((s.tree.find sel).readAt row ent).bind (It.show raw) with
      | some kv =>
        rw [ho] at ht
        refine ⟨fun row' ent' kv' e kvs hrest => ?_, fun row' ent' e => by cases e⟩
        cases e
        exact .tick (o := some kv) hp hs ht hrest
      | none =>
        rw [ho] at ht
        refine ⟨fun row' ent' kv' e kvs hrest => ?_, fun row' ent' e hrest => ?_⟩
        · exact .tick (o := none) hp hs ht ((ih _ _).1 _ _ _ e _ hrest)
        · exact .tick (o := none) hp hs ht ((ih _ _).2 _ _ e hrest)
    · rw [if_neg hr]
      exact ⟨(fun row' ent' kv e => by cases e), (fun row' ent' e hrest => by cases e; exact hrest)⟩

/-- A scan that finds nothing ends at the end of the table. -/
theorem It.scan_end (s : Shard) (raw : Bool) : ∀ (n row ent : Nat), PosOK row ent → NUM_ROWS * ROW_WIDTH ≤ n + (row * ROW_WIDTH + ent) → ∀ row' ent',
    It.scan s raw n row ent = (row', ent', none) → NUM_ROWS ≤ row'
  | 0, row, ent, hp, hn, row', ent', h => by
    cases h
    refine Nat.le_of_not_lt (fun hlt => ?_)
    have := pos_lt hlt hp.1
    omega
  | n + 1, row, ent, hp, hn, row', ent', h => by
    obtain ⟨h1, h2, h3⟩ := hp
    unfold It.scan at h
    by_cases hr : row < NUM_ROWS
    · rw [if_pos hr] at h
      dsimp only at h
      cases ho : (s.readAt row ent).bind (It.show raw) with
      | some kv => rw [ho] at h; cases h
      | none =>
        rw [ho] at h
        refine It.scan_end s raw n _ _ ?_ ?_ row' ent' h
        · unfold PosOK
          by_cases h : ROW_WIDTH ≤ ent + 1
          · rw [if_pos h, if_pos h]; exact ⟨by decide, by omega, fun _ => rfl⟩
          · rw [if_neg h, if_neg h]; exact ⟨by omega, by omega, fun e => by omega⟩
        · by_cases h : ROW_WIDTH ≤ ent + 1
          · rw [if_pos h, if_pos h, Nat.add_mul]; omega
          · rw [if_neg h, if_neg h]; omega
    · rw [if_neg hr] at h; cases h; omega

/-- A call of `next` is a sequence of ticks. -/
theorem It.next_ticks {cfg : Cfg} {P : Tree → Prop} {s s' : CState} (hp : P s.tree) {tr : List CEvent} {kvs : List KV} :
    ∀ (n : Nat) (it : It), PosOK it.row it.ent → ∀ it' o, It.next s.tree n it = (it', o) → IterRun cfg P s it' kvs tr s' → IterRun cfg P s it (o.toList ++ kvs) tr s'
  | 0, it, _, it', o, h, hr => by cases h; exact hr
  | n + 1, it, hpos, it', o, h, hr => by
    unfold It.next at h
    by_cases hs : it.sel < END_OF_SHARDS
    · rw [if_pos hs] at h
      dsimp only at h
      cases hsc : It.scan (s.tree.find it.sel) it.raw (NUM_ROWS * ROW_WIDTH) it.row it.ent with
      | mk row x =>
        obtain ⟨ent, o'⟩ := x
        rw [hsc] at h
        cases o' with
        | some kv =>
          cases h
          exact (It.scan_ticks (kvs := kvs) hp hs _ _ _).1 _ _ _ hsc _ hr
        | none =>
          dsimp only at h
          have ih := It.next_ticks (cfg := cfg) hp n ⟨(s.tree.find it.sel).hi, 0, 0, it.raw⟩ posOK_zero it' o h hr
          refine (It.scan_ticks (kvs := o.toList ++ kvs) hp hs _ _ _).2 _ _ hsc ?_
          have hend := It.scan_end _ _ _ _ _ hpos (Nat.le_add_right _ _) _ _ hsc
          refine .tick (o := none) hp hs ?_ ih
          unfold It.tick
          dsimp only
          rw [if_neg (by omega)]
    · rw [if_neg hs] at h; cases h; exact hr

/-- An undisturbed iteration. -/
theorem It.collect_ticks {cfg : Cfg} {ex : Bool} {P : Tree → Prop} {s : CState} (hok : Tree.OK cfg ex 0 END_OF_SHARDS s.tree) (hp : P s.tree) : ∀ (n : Nat) (it : It), It.OK s.tree it →
    (It.rest s.tree it).length < n → IterRun cfg P s it (It.collect s.tree n it) [] s
  | 0, _, _, hn => by omega
  | n + 1, it, hit, hn => by
    have hs := It.step_spec hok hit
    unfold It.collect
    cases hr : It.rest s.tree it with
    | nil =>
      rw [hr] at hs
      obtain ⟨a, b, e⟩ : ∃ a b, It.step s.tree it = (a, b) := ⟨_, _, rfl⟩
      rw [e] at hs ⊢
      obtain ⟨h1, h2⟩ : b = none ∧ a = _ := hs
      subst h1
      exact It.next_ticks (kvs := []) hp _ _ hit.pos _ _ e (.done hp (by rw [h2]; exact Nat.le_refl _))
    | cons kv l =>
      rw [hr] at hs
      obtain ⟨it', e, h1, h2, _⟩ := hs
      rw [e]
      dsimp only
      refine It.next_ticks hp _ _ hit.pos _ (some kv) e (It.collect_ticks hok hp n it' h2 ?_)
      rw [hr] at hn; rw [h1]; simp at hn; omega

end Candy
