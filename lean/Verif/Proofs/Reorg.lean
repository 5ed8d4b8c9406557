import Verif.Proofs.Compact
/-!
# Compaction steps, split and merge of shards preserve the contents
-/
namespace Candy

theorem bytesOf_liveRow (f : MFile) (r : Nat) : bytesOf (f.liveRow r) = rowW kvSize f r := (rowW_eq _ _ _).symm

theorem length_liveRow (f : MFile) (r : Nat) : (f.liveRow r).length = rowW (fun _ => 1) f r := by
  rw [rowW_eq, List.map_const', List.sum_replicate_nat, Nat.mul_one]

/-- Weight of the rows from `cu` on. -/
def remW (w : KV → Nat) (f : MFile) (cu : Nat) : Nat := sumTo NUM_ROWS (fun r => if r < cu then 0 else rowW w f r)

theorem remW_step (w : KV → Nat) (f : MFile) {cu : Nat} (h : cu < NUM_ROWS) :
    remW w f cu = rowW w f cu + remW w f (cu + 1) := by
  unfold remW
  have := sumTo_update (g := fun r => if r < cu then 0 else rowW w f r)
    (h := fun r => if r < cu + 1 then 0 else rowW w f r) (c := cu) h (fun i hi hne => by
      by_cases e : i < cu
      · rw [if_pos e, if_pos (by omega)]
      · rw [if_neg e, if_neg (by omega)])
  simp only [Nat.lt_irrefl, if_false, Nat.lt_add_one, if_true] at this
  omega

theorem remW_end (w : KV → Nat) (f : MFile) {cu : Nat} (h : NUM_ROWS ≤ cu) : remW w f cu = 0 := by
  apply sumTo_zero; intro i hi; rw [if_pos (by omega)]

theorem remW_zero (w : KV → Nat) (f : MFile) : remW w f 0 = fileW w f := by
  apply sumTo_congr; intro i hi; rw [if_neg (by omega)]

theorem remW_le (w : KV → Nat) (f : MFile) (cu : Nat) : remW w f cu ≤ fileW w f := by
  apply sumTo_mono; intro i hi; split <;> omega

/-- A compaction target, possibly left by a crash in the middle of a row. -/
structure TgtOK (cfg : Cfg) (lo hi : Nat) (src t : MFile) : Prop where
  ok : FileOK cfg lo hi t
  cu : t.compactedUpTo ≤ NUM_ROWS
  part : t.compactedUpTo < NUM_ROWS → Partial t t.compactedUpTo 0 (src.liveRow t.compactedUpTo)
  fresh : ∀ r c, t.compactedUpTo < r → r < NUM_ROWS → c < ROW_WIDTH → t.live r c = none

theorem run_addCompacted_live (f : MFile) (r c : Nat) : (f.run [.addCompacted]).live r c = f.live r c := rfl

theorem liveRow_congr {f g : MFile} {r : Nat} (h : ∀ c, c < ROW_WIDTH → f.live r c = g.live r c) : f.liveRow r = g.liveRow r := by
  rw [liveRow_eq, liveRow_eq]
  exact filterMap_congr (fun c hc => h c (List.mem_range.1 hc))

theorem rowW_congr {w : KV → Nat} {f g : MFile} {r : Nat} (h : ∀ c, c < ROW_WIDTH → f.live r c = g.live r c) :
    rowW w f r = rowW w g r := by
  rw [rowW_eq, rowW_eq, liveRow_congr h]

theorem FileOK.congr {cfg lo hi} {f g : MFile} (h : FileOK cfg lo hi f) (hs : g.slot = f.slot) (hd : g.data = f.data)
    (ho : f.writeOff ≤ g.writeOff) : FileOK cfg lo hi g := by
  have hl : ∀ r c, g.live r c = f.live r c := by
    intro r c; unfold MFile.live MFile.readKV; rw [hs, hd]
  constructor
  · intro r c hr hc hsig; rw [hs] at hsig ⊢; exact Nat.le_trans (h.ext r c hr hc hsig) ho
  · intro r c kv hr hc hlv; rw [hl] at hlv; rw [hs]; exact h.sig r c kv hr hc hlv
  · intro r c kv hr hc hlv; rw [hl] at hlv; exact h.row r c kv hr hc hlv
  · intro r c kv hr hc hlv; rw [hl] at hlv; exact h.span r c kv hr hc hlv
  · intro r c c' kv kv' hr hc hc' h1 h2 e; rw [hl] at h1 h2; exact h.inj r c c' kv kv' hr hc hc' h1 h2 e

/-- Effect of compacting one row. -/
structure Compacted (src t t' : MFile) : Prop where
  cu : t'.compactedUpTo = t.compactedUpTo + 1
  row : t'.liveRow t.compactedUpTo = src.liveRow t.compactedUpTo
  other : ∀ r c, r < NUM_ROWS → c < ROW_WIDTH → r ≠ t.compactedUpTo → t'.live r c = t.live r c
  off : t'.writeOff = t.writeOff + rowW kvSize src t.compactedUpTo
  wasted : t'.wasted = t.wasted
  inserts : t'.numInserts = t.numInserts + rowW (fun _ => 1) src t.compactedUpTo
  removals : t'.numRemovals = t.numRemovals
  weight : ∀ w, fileW w t' + rowW w t t.compactedUpTo = fileW w t + rowW w src t.compactedUpTo

theorem compactRow_spec {cfg : Cfg} {lo hi : Nat} {src t : MFile} {first : Bool} (hs : FileOK cfg lo hi src)
    (ht : TgtOK cfg lo hi src t) (hlt : t.compactedUpTo < NUM_ROWS)
    (hf : first = true ∨ ∀ c, c < ROW_WIDTH → t.live t.compactedUpTo c = none)
    (hsmall : t.writeOff + rowW kvSize src t.compactedUpTo < 4294967296) :
    ∃ t', compactRow cfg first src t = some t' ∧ TgtOK cfg lo hi src t' ∧ Compacted src t t' ∧
      (∀ c, c < ROW_WIDTH → t.compactedUpTo + 1 < NUM_ROWS → t'.live (t.compactedUpTo + 1) c = none) := by
  have hlen := liveRow_length src t.compactedUpTo
  obtain ⟨ps, h1, h2, h3⟩ := copyPrims_spec first hlt (src.liveRow t.compactedUpTo) t 0 ht.ok (hs.copyOK hlt)
    (ht.part hlt) (by rcases hf with h | h; exact Or.inl h; exact Or.inr (fun c _ hc => h c hc)) (by omega)
    (by rw [bytesOf_liveRow]; exact hsmall)
  refine ⟨t.run (ps ++ [.addCompacted]), ?_, ?_, ?_, ?_⟩
  · unfold compactRow compactRowPrims; rw [h1]; rfl
  · rw [run_append]
    have hfresh' : ∀ r c, t.compactedUpTo < r → r < NUM_ROWS → c < ROW_WIDTH → (t.run ps).live r c = none := by
      intro r c hr hr' hc
      rw [h3.other r c hr' hc (by omega)]
      exact ht.fresh r c hr hr' hc
    have hcu : ((t.run ps).run [.addCompacted]).compactedUpTo = t.compactedUpTo + 1 := by
      show (t.run ps).compactedUpTo + 1 = _; rw [h3.cu]
    constructor
    · exact h2.congr rfl rfl (Nat.le_refl _)
    · rw [hcu]; omega
    · rw [hcu]
      intro hlt'
      apply Partial.of_empty
      intro c hc
      exact hfresh' _ c (by omega) hlt' hc
    · rw [hcu]
      intro r c hr hr' hc
      exact hfresh' r c (by omega) hr' hc
  · rw [run_append]
    constructor
    · show (t.run ps).compactedUpTo + 1 = _; rw [h3.cu]
    · rw [← h3.liveRow (ht.part hlt) hlen]
      exact liveRow_congr (fun c _ => run_addCompacted_live _ _ _)
    · intro r c hr hc hne; exact h3.other r c hr hc hne
    · show (t.run ps).writeOff = _; rw [h3.off, bytesOf_liveRow]
    · exact h3.wasted
    · show (t.run ps).numInserts = _; rw [h3.inserts, length_liveRow]
    · exact h3.removals
    · intro w
      have := h3.weight (ht.part hlt) hlt hlen w
      rw [← rowW_eq] at this
      exact this
  · intro c hc hlt'
    rw [run_append, run_addCompacted_live, h3.other _ c hlt' hc (by omega)]
    exact ht.fresh _ c (by omega) hlt' hc

/-- Effect of running the compaction to its end. -/
structure FullyCompacted (src t t' : MFile) : Prop where
  cu : t'.compactedUpTo = NUM_ROWS
  done : ∀ r, r < NUM_ROWS → t.compactedUpTo ≤ r → t'.liveRow r = src.liveRow r
  prev : ∀ r c, r < NUM_ROWS → c < ROW_WIDTH → r < t.compactedUpTo → t'.live r c = t.live r c
  off : t'.writeOff = t.writeOff + remW kvSize src t.compactedUpTo
  wasted : t'.wasted = t.wasted
  inserts : t'.numInserts = t.numInserts + remW (fun _ => 1) src t.compactedUpTo
  removals : t'.numRemovals = t.numRemovals
  weight : ∀ w, fileW w t' + remW w t t.compactedUpTo = fileW w t + remW w src t.compactedUpTo

theorem remW_of_fresh {cfg lo hi src t} (w : KV → Nat) (ht : TgtOK cfg lo hi src t) (hlt : t.compactedUpTo < NUM_ROWS) :
    remW w t t.compactedUpTo = rowW w t t.compactedUpTo := by
  rw [remW_step w t hlt]
  have : remW w t (t.compactedUpTo + 1) = 0 := by
    apply sumTo_zero
    intro r hr
    split
    · rfl
    · apply sumTo_zero
      intro c hc
      exact cellW_none (ht.fresh r c (by omega) hr hc)
  omega

theorem compactRows_succ {cfg : Cfg} {src t t' : MFile} {n : Nat} {first : Bool} (h : compactRow cfg first src t = some t') :
    compactRows cfg src (n + 1) first t = compactRows cfg src n false t' := by
  show (compactRow cfg first src t).bind _ = _
  rw [h]; rfl

theorem compactRows_spec {cfg : Cfg} {lo hi : Nat} {src : MFile} (hs : FileOK cfg lo hi src) :
    ∀ (n : Nat) (t : MFile) (first : Bool), n = NUM_ROWS - t.compactedUpTo → TgtOK cfg lo hi src t →
      (first = true ∨ (t.compactedUpTo < NUM_ROWS → ∀ c, c < ROW_WIDTH → t.live t.compactedUpTo c = none)) →
      t.writeOff + remW kvSize src t.compactedUpTo < 4294967296 →
      ∃ t', compactRows cfg src n first t = some t' ∧ FileOK cfg lo hi t' ∧ FullyCompacted src t t'
  | 0, t, first, hn, ht, _, _ => by
    have hcu := ht.cu
    have he : t.compactedUpTo = NUM_ROWS := by omega
    refine ⟨t, rfl, ht.ok, he, ?_, fun _ _ _ _ _ => rfl, ?_, rfl, ?_, rfl, ?_⟩
    · intro r h1 h2; omega
    · rw [remW_end _ _ (by omega)]; rfl
    · rw [remW_end _ _ (by omega)]; rfl
    · intro w; rw [remW_end _ _ (by omega), remW_end _ _ (by omega)]
  | n + 1, t, first, hn, ht, hf, hsmall => by
    have hlt : t.compactedUpTo < NUM_ROWS := by omega
    rw [remW_step _ _ hlt] at hsmall
    obtain ⟨t', h1, h2, h3, h4⟩ := compactRow_spec (first := first) hs ht hlt
      (by rcases hf with h | h; exact Or.inl h; exact Or.inr (h hlt)) (by omega)
    obtain ⟨t'', g1, g2, g3⟩ := compactRows_spec hs n t' false (by rw [h3.cu]; omega) h2
      (Or.inr (by
        intro hlt' c hc
        rw [h3.cu] at hlt' ⊢
        exact h4 c hc hlt'))
      (by rw [h3.cu, h3.off]; omega)
    refine ⟨t'', (compactRows_succ h1).trans g1, g2, ?_⟩
    have hc := h3.cu
    constructor
    · exact g3.cu
    · intro r hr hge
      by_cases e : r = t.compactedUpTo
      · subst e
        rw [← h3.row]
        exact liveRow_congr (fun c hc' => g3.prev _ c hr hc' (by omega))
      · exact g3.done r hr (by omega)
    · intro r c hr hc' hlt'
      rw [g3.prev r c hr hc' (by omega), h3.other r c hr hc' (by omega)]
    · rw [g3.off, h3.off, h3.cu, remW_step kvSize src hlt]; omega
    · rw [g3.wasted, h3.wasted]
    · rw [g3.inserts, h3.inserts, h3.cu, remW_step (fun _ => 1) src hlt]; omega
    · rw [g3.removals, h3.removals]
    · intro w
      have w1 := h3.weight w
      have w2 := g3.weight w
      rw [remW_of_fresh w ht hlt, remW_step w src hlt]
      have : remW w t' t'.compactedUpTo = 0 := by
        by_cases hl : t'.compactedUpTo < NUM_ROWS
        · rw [remW_of_fresh w h2 hl]
          apply sumTo_zero
          intro c hc'
          apply cellW_none
          rw [hc]; rw [hc] at hl
          exact h4 c hc' hl
        · exact remW_end _ _ (by omega)
      rw [this, h3.cu] at w2
      omega

/-- Accounting of a file: exact, or (after crashes) with some slack. -/
def FileAcct (exact : Bool) (f : MFile) : Prop := ∃ d e, Acct d e f ∧ (exact = true → d = 0 ∧ e = 0)

theorem FileAcct.empty (ex : Bool) : FileAcct ex MFile.empty := ⟨0, 0, Acct.empty, fun _ => ⟨rfl, rfl⟩⟩

theorem FileAcct.bytes {ex f} (h : FileAcct ex f) : liveBytes f ≤ f.writeOff := by
  obtain ⟨d, e, ⟨h1, _⟩, _⟩ := h; omega

theorem FileAcct.count {f} (h : FileAcct true f) : liveCount f = f.numInserts - f.numRemovals ∧ f.numRemovals ≤ f.numInserts := by
  obtain ⟨d, e, ⟨_, h1⟩, h2⟩ := h; have := h2 rfl; omega

theorem FileAcct.weaken {ex f} (h : FileAcct ex f) : FileAcct false f := by
  obtain ⟨d, e, h1, _⟩ := h; exact ⟨d, e, h1, by simp⟩

def Shard.AcctInv (exact : Bool) (s : Shard) : Prop :=
  FileAcct exact s.src ∧ ∀ t, s.tgt = some t → FileAcct exact t

/-- The files of the shard are below 4 GiB and will still be after completing the running compaction. -/
def Shard.Small (s : Shard) : Prop :=
  s.src.writeOff < 4294967296 ∧ ∀ t, s.tgt = some t → t.writeOff + remW kvSize s.src t.compactedUpTo < 4294967296

theorem Shard.Small.active {s : Shard} (h : s.Small) (r : Nat) : (s.active r).writeOff < 4294967296 := by
  unfold Shard.active
  cases ht : s.tgt with
  | none => exact h.1
  | some t =>
    simp only
    split
    · have := h.2 t ht; omega
    · exact h.1

theorem Shard.Inv.tgtOK {cfg s} (h : Shard.Inv cfg s) {t} (ht : s.tgt = some t) : TgtOK cfg s.lo s.hi s.src t := by
  refine ⟨h.tgt t ht, h.cu t ht, ?_, ?_⟩
  · intro hlt
    apply Partial.of_empty
    intro c hc
    exact live_eq_none.2 (h.fresh t ht _ c (Nat.le_refl _) hlt hc)
  · intro r c h1 h2 h3
    exact live_eq_none.2 (h.fresh t ht r c (by omega) h2 h3)

/-- Two shards with the same rows (as sets of pairs) give the same values. -/
theorem Shard.val_eq_of_rows {cfg : Cfg} {s s' : Shard} (h : s.Inv cfg) (h' : s'.Inv cfg)
    (hrows : ∀ r, r < NUM_ROWS → ∀ kv, kv ∈ (s.active r).liveRow r ↔ kv ∈ (s'.active r).liveRow r) (k : Bytes) :
    s'.val cfg k = s.val cfg k := by
  apply h'.val_of
  have hr := (cfg.ph k).rowSel_lt
  have hv := h.val k
  cases hx : s.val cfg k with
  | none =>
    rw [hx] at hv
    intro c hc v hl
    have := (hrows _ hr (k, v)).2 (mem_liveRow.2 ⟨c, hc, hl⟩)
    obtain ⟨c', hc', hl'⟩ := mem_liveRow.1 this
    exact hv c' hc' v hl'
  | some v =>
    rw [hx] at hv
    obtain ⟨c, hc, hl⟩ := hv
    exact mem_liveRow.1 ((hrows _ hr (k, v)).1 (mem_liveRow.2 ⟨c, hc, hl⟩))

/-- One step of the background thread never fails and changes no value. -/
theorem Shard.bgStep_spec {cfg : Cfg} {s : Shard} {ex : Bool} (h : s.Inv cfg) (hsmall : s.Small) (ha : s.AcctInv ex) :
    ∃ s', s.bgStep cfg = some s' ∧ s'.Inv cfg ∧ s'.lo = s.lo ∧ s'.hi = s.hi ∧ s'.Small ∧ s'.AcctInv ex ∧
      (∀ k, s'.val cfg k = s.val cfg k) ∧ (∀ r, r < NUM_ROWS → (s'.active r).liveRow r = (s.active r).liveRow r) := by
  unfold Shard.bgStep
  cases ht : s.tgt with
  | none => exact ⟨s, rfl, h, rfl, rfl, hsmall, ha, fun _ => rfl, fun _ _ => rfl⟩
  | some t =>
    simp only
    have hT := h.tgtOK ht
    by_cases hlt : t.compactedUpTo < NUM_ROWS
    · rw [if_pos hlt]
      have hsm := hsmall.2 t ht
      rw [remW_step _ _ hlt] at hsm
      have hempty : ∀ c, c < ROW_WIDTH → t.live t.compactedUpTo c = none := fun c hc =>
        live_eq_none.2 (h.fresh t ht _ c (Nat.le_refl _) hlt hc)
      obtain ⟨t', h1, h2, h3, h4⟩ := compactRow_spec (first := (t.compactedUpTo == 0)) h.src hT hlt (Or.inr hempty) (by omega)
      have hinv : Shard.Inv cfg { s with tgt := some t' } := by
        refine ⟨h.src, ?_, ?_, ?_⟩
        · intro t0 e; simp at e; subst e; exact h2.ok
        · intro t0 e; simp at e; subst e; exact h2.cu
        · intro t0 e; simp at e; subst e
          intro r c h5 h6 h7
          apply live_eq_none.1
          by_cases hr : r = t'.compactedUpTo
          · rw [h3.cu] at hr; subst hr; exact h4 c h7 h6
          · exact h2.fresh r c (by omega) h6 h7
      have hrows : ∀ r, r < NUM_ROWS → (Shard.active { s with tgt := some t' } r).liveRow r = (s.active r).liveRow r := by
        intro r hr
        unfold Shard.active
        simp only [ht, h3.cu]
        by_cases e : r = t.compactedUpTo
        · subst e; rw [if_pos (by omega), if_neg (by omega)]; exact h3.row
        · by_cases e' : r < t.compactedUpTo
          · rw [if_pos (by omega), if_pos e']
            exact liveRow_congr (fun c hc => h3.other r c hr hc e)
          · rw [if_neg (by omega), if_neg e']
      refine ⟨_, by rw [h1]; rfl, hinv, rfl, rfl, ?_, ?_, ?_, hrows⟩
      · refine ⟨hsmall.1, ?_⟩
        intro t0 e; simp at e; subst e
        rw [h3.off, h3.cu]; show t.writeOff + _ + remW kvSize s.src _ < _; omega
      · refine ⟨ha.1, ?_⟩
        intro t0 e; simp at e; subst e
        obtain ⟨d, e, ⟨a1, a2⟩, a3⟩ := ha.2 t ht
        refine ⟨d, e, ⟨?_, ?_⟩, a3⟩
        · have hw := h3.weight kvSize
          have hz : rowW kvSize t t.compactedUpTo = 0 := sumTo_zero (fun c hc => cellW_none (hempty c hc))
          unfold liveBytes at *
          rw [h3.off, h3.wasted]; omega
        · have hw := h3.weight (fun _ => 1)
          have hz : rowW (fun _ => 1) t t.compactedUpTo = 0 := sumTo_zero (fun c hc => cellW_none (hempty c hc))
          unfold liveCount at *
          rw [h3.inserts, h3.removals]; omega
      · intro k
        exact Shard.val_eq_of_rows h hinv (fun r hr kv => by rw [hrows r hr]) k
    · rw [if_neg hlt]
      have hcu : t.compactedUpTo = NUM_ROWS := by have := h.cu t ht; omega
      have hinv : Shard.Inv cfg { s with src := t, tgt := none } := by
        refine ⟨h.tgt t ht, ?_, ?_, ?_⟩ <;> intro t0 e <;> exact absurd e (by simp)
      have hrows : ∀ r, r < NUM_ROWS → (Shard.active { s with src := t, tgt := none } r).liveRow r = (s.active r).liveRow r := by
        intro r hr
        unfold Shard.active
        simp only [ht]
        rw [if_pos (by omega)]
      refine ⟨_, rfl, hinv, rfl, rfl, ?_, ?_, ?_, hrows⟩
      · have := hsmall.2 t ht
        exact ⟨Nat.lt_of_le_of_lt (Nat.le_add_right _ _) this, fun t0 e => absurd e (by simp)⟩
      · exact ⟨ha.2 t ht, fun t0 e => absurd e (by simp)⟩
      · intro k
        exact Shard.val_eq_of_rows h hinv (fun r hr kv => by rw [hrows r hr]) k

/-- Waiting for the compaction never fails and changes no value. -/
theorem Shard.finish_spec {cfg : Cfg} {s : Shard} {ex : Bool} (h : s.Inv cfg) (hsmall : s.Small) (ha : s.AcctInv ex) :
    ∃ s', s.finish cfg = some s' ∧ s'.Inv cfg ∧ s'.tgt = none ∧ s'.lo = s.lo ∧ s'.hi = s.hi ∧ s'.Small ∧ s'.AcctInv ex ∧
      (∀ k, s'.val cfg k = s.val cfg k) ∧ (∀ r, r < NUM_ROWS → s'.src.liveRow r = (s.active r).liveRow r) := by
  unfold Shard.finish
  cases ht : s.tgt with
  | none =>
    refine ⟨s, rfl, h, ht, rfl, rfl, hsmall, ha, fun _ => rfl, fun r _ => ?_⟩
    unfold Shard.active; rw [ht]
  | some t =>
    simp only
    have hT := h.tgtOK ht
    have hempty : ∀ r c, r < NUM_ROWS → t.compactedUpTo ≤ r → c < ROW_WIDTH → t.live r c = none := fun r c h1 h2 h3 =>
        live_eq_none.2 (h.fresh t ht r c h2 h1 h3)
    obtain ⟨t', h1, h2, h3⟩ := compactRows_spec h.src _ t (t.compactedUpTo == 0) rfl hT
      (Or.inr (fun e c hc => hempty _ c e (Nat.le_refl _) hc))
      (hsmall.2 t ht)
    have hinv : Shard.Inv cfg { s with src := t', tgt := none } := by
        refine ⟨h2, ?_, ?_, ?_⟩ <;> intro t0 e <;> exact absurd e (by simp)
    have hrows : ∀ r, r < NUM_ROWS → t'.liveRow r = (s.active r).liveRow r := by
      intro r hr
      unfold Shard.active
      simp only [ht]
      by_cases e : r < t.compactedUpTo
      · rw [if_pos e]; exact liveRow_congr (fun c hc => h3.prev r c hr hc e)
      · rw [if_neg e]; exact h3.done r hr (by omega)
    refine ⟨_, by rw [h1]; rfl, hinv, rfl, rfl, rfl, ?_, ?_, ?_, hrows⟩
    · refine ⟨?_, fun t0 e => absurd e (by simp)⟩
      show t'.writeOff < _
      rw [h3.off]; exact hsmall.2 t ht
    · refine ⟨?_, fun t0 e => absurd e (by simp)⟩
      obtain ⟨d, e, ⟨a1, a2⟩, a3⟩ := ha.2 t ht
      have hz : ∀ w, remW w t t.compactedUpTo = 0 := by
        intro w
        apply sumTo_zero
        intro r hr
        split
        · rfl
        · exact sumTo_zero (fun c hc => cellW_none (hempty r c hr (by omega) hc))
      refine ⟨d, e, ⟨?_, ?_⟩, a3⟩
      · have hw := h3.weight kvSize
        rw [hz] at hw
        unfold liveBytes at *
        show fileW kvSize t' + t'.wasted + d = t'.writeOff
        rw [h3.off, h3.wasted]; omega
      · have hw := h3.weight (fun _ => 1)
        rw [hz] at hw
        unfold liveCount at *
        show fileW (fun _ => 1) t' + t'.numRemovals + e = t'.numInserts
        rw [h3.inserts, h3.removals]; omega
    · intro k
      exact Shard.val_eq_of_rows h hinv (fun r hr kv => by
        rw [← hrows r hr]; unfold Shard.active; simp) k

/-! ## Filling a fresh file -/

theorem fillRows_spec {cfg : Cfg} {lo hi : Nat} {contents : Nat → List KV} :
    ∀ (rows : List Nat) (f : MFile), rows.Nodup → (∀ r ∈ rows, r < NUM_ROWS) → FileOK cfg lo hi f →
      (∀ r ∈ rows, CopyOK cfg lo hi r (contents r)) → (∀ r ∈ rows, (contents r).length ≤ ROW_WIDTH) →
      (∀ r ∈ rows, ∀ c, c < ROW_WIDTH → f.live r c = none) →
      f.writeOff + (rows.map (fun r => bytesOf (contents r))).sum < 4294967296 →
      ∃ g, fillRows cfg contents f rows = some g ∧ FileOK cfg lo hi g ∧ (∀ r ∈ rows, g.liveRow r = contents r) ∧
        (∀ r c, r < NUM_ROWS → c < ROW_WIDTH → r ∉ rows → g.live r c = f.live r c) ∧
        g.writeOff = f.writeOff + (rows.map (fun r => bytesOf (contents r))).sum ∧
        g.compactedUpTo = f.compactedUpTo ∧ (∀ d e, Acct d e f → Acct d e g)
  | [], f, _, _, hok, _, _, _, _ => by
    refine ⟨f, rfl, hok, by simp, fun _ _ _ _ _ => rfl, by simp, rfl, fun _ _ h => h⟩
  | r :: rows, f, hnd, hlt, hok, hcp, hlen, hempty, hsmall => by
    have hnd' := List.nodup_cons.1 hnd
    simp only [List.map_cons, List.sum_cons] at hsmall
    have hr := hlt r (List.mem_cons_self)
    have he := hempty r (List.mem_cons_self)
    have hl := hlen r (List.mem_cons_self)
    have hpar : Partial f r 0 (contents r) := Partial.of_empty he
    obtain ⟨ps, h1, h2, h3⟩ := copyPrims_spec false hr (contents r) f 0 hok (hcp r (List.mem_cons_self)) hpar
      (Or.inr (fun c _ hc => he c hc)) (by omega) (by omega)
    obtain ⟨g, g1, g2, g3, g4, g5, g6, g7⟩ := fillRows_spec (contents := contents) rows (f.run ps) hnd'.2
      (fun x hx => hlt x (List.mem_cons_of_mem _ hx)) h2 (fun x hx => hcp x (List.mem_cons_of_mem _ hx))
      (fun x hx => hlen x (List.mem_cons_of_mem _ hx))
      (fun x hx c hc => by
        rw [h3.other x c (hlt x (List.mem_cons_of_mem _ hx)) hc (by rintro rfl; exact hnd'.1 hx)]
        exact hempty x (List.mem_cons_of_mem _ hx) c hc)
      (by rw [h3.off]; omega)
    refine ⟨g, by simp only [fillRows, h1]; exact g1, g2, ?_, ?_, ?_, ?_, ?_⟩
    · intro x hx
      rcases List.mem_cons.1 hx with rfl | hx
      · rw [liveRow_congr (g := f.run ps) (fun c hc => g4 x c hr hc hnd'.1)]
        exact h3.liveRow hpar hl
      · exact g3 x hx
    · intro x c hx hc hn
      rw [List.mem_cons, not_or] at hn
      rw [g4 x c hx hc hn.2, h3.other x c hx hc hn.1]
    · rw [g5, h3.off]; simp only [List.map_cons, List.sum_cons]; omega
    · rw [g6, h3.cu]
    · intro d e ha
      apply g7
      obtain ⟨a1, a2⟩ := ha
      have w1 := h3.weight hpar hr hl kvSize
      have w2 := h3.weight hpar hr hl (fun _ => 1)
      have hz : ∀ w, rowW w f r = 0 := fun w => sumTo_zero (fun c hc => cellW_none (he c hc))
      rw [hz] at w1 w2
      simp only [Nat.add_zero, List.map_const', List.sum_replicate_nat, Nat.mul_one] at w1 w2
      constructor
      · unfold liveBytes at *
        rw [h3.off, h3.wasted, w1]; unfold bytesOf; omega
      · unfold liveCount at *
        rw [h3.inserts, h3.removals, w2]; omega

theorem sum_range_eq_sumTo (g : Nat → Nat) : ∀ n, ((List.range n).map g).sum = sumTo n g
  | 0 => by unfold sumTo; rfl
  | n + 1 => by
    rw [List.range_succ, List.map_append, List.sum_append, sum_range_eq_sumTo g n]
    conv => rhs; unfold sumTo
    simp

/-- Filling an empty file with given rows. -/
theorem fill_spec {cfg : Cfg} {lo hi : Nat} {contents : Nat → List KV}
    (hcp : ∀ r, r < NUM_ROWS → CopyOK cfg lo hi r (contents r))
    (hlen : ∀ r, r < NUM_ROWS → (contents r).length ≤ ROW_WIDTH)
    (hsmall : sumTo NUM_ROWS (fun r => bytesOf (contents r)) < 4294967296) :
    ∃ g, fillRows cfg contents MFile.empty (List.range NUM_ROWS) = some g ∧ FileOK cfg lo hi g ∧
      (∀ r, r < NUM_ROWS → g.liveRow r = contents r) ∧
      g.writeOff = sumTo NUM_ROWS (fun r => bytesOf (contents r)) ∧ g.compactedUpTo = 0 ∧ Acct 0 0 g := by
  obtain ⟨g, g1, g2, g3, g4, g5, g6, g7⟩ := fillRows_spec (cfg := cfg) (lo := lo) (hi := hi) (contents := contents)
    (List.range NUM_ROWS) MFile.empty List.nodup_range (fun r h => List.mem_range.1 h) (FileOK.empty ..)
    (fun r h => hcp r (List.mem_range.1 h)) (fun r h => hlen r (List.mem_range.1 h)) (fun r _ c _ => empty_live r c)
    (by rw [sum_range_eq_sumTo]; simpa [MFile.empty] using hsmall)
  refine ⟨g, g1, g2, fun r h => g3 r (List.mem_range.2 h), ?_, g6, g7 0 0 Acct.empty⟩
  rw [g5, sum_range_eq_sumTo]; simp [MFile.empty]

theorem CopyOK.filter {cfg lo hi lo' hi' r l} (h : CopyOK cfg lo hi r l) (p : KV → Bool)
    (hp : ∀ kv ∈ l, p kv = true → lo' ≤ (cfg.ph kv.1).shardSel ∧ (cfg.ph kv.1).shardSel < hi') :
    CopyOK cfg lo' hi' r (l.filter p) := by
  refine ⟨h.distinct.filter p, ?_, ?_, ?_⟩
  · intro kv hm; exact h.row kv (List.mem_filter.1 hm).1
  · intro kv hm; exact hp kv (List.mem_filter.1 hm).1 (List.mem_filter.1 hm).2
  · intro kv hm; exact h.size kv (List.mem_filter.1 hm).1

theorem bytesOf_filter (p : KV → Bool) : ∀ l : List KV, bytesOf (l.filter p) + bytesOf (l.filter (fun x => !p x)) = bytesOf l
  | [] => rfl
  | a :: l => by
    have := bytesOf_filter p l
    by_cases h : p a = true
    · rw [List.filter_cons_of_pos h, List.filter_cons_of_neg (by simp [h]), bytesOf_cons, bytesOf_cons]; omega
    · rw [List.filter_cons_of_neg h, List.filter_cons_of_pos (by simpa using h), bytesOf_cons, bytesOf_cons]; omega

/-- A quiescent shard (no compaction running). -/
def quiet (lo hi : Nat) (f : MFile) : Shard := ⟨lo, hi, f, none⟩

theorem quiet_inv {cfg lo hi f} (h : FileOK cfg lo hi f) : (quiet lo hi f).Inv cfg := by
  refine ⟨h, ?_, ?_, ?_⟩ <;> intro t e <;> exact absurd e (by simp [quiet])

theorem quiet_val {cfg lo hi f} (h : FileOK cfg lo hi f) (k : Bytes) {x}
    (hx : match x with
      | none => ∀ v, (k, v) ∉ f.liveRow (cfg.ph k).rowSel
      | some v => (k, v) ∈ f.liveRow (cfg.ph k).rowSel) : (quiet lo hi f).val cfg k = x := by
  apply (quiet_inv h).val_of
  cases x with
  | none => intro c hc v hl; exact hx v (mem_liveRow.2 ⟨c, hc, hl⟩)
  | some v => exact mem_liveRow.1 hx

theorem Shard.Inv.mem_row {cfg s} (h : Shard.Inv cfg s) {k v : Bytes} :
    (k, v) ∈ (s.active (cfg.ph k).rowSel).liveRow (cfg.ph k).rowSel ↔ s.val cfg k = some v := by
  constructor
  · intro hm; exact h.val_of (mem_liveRow.1 hm)
  · intro hv; have := h.val k; rw [hv] at this; exact mem_liveRow.2 this

theorem Shard.Inv.val_span {cfg s} (h : Shard.Inv cfg s) {k v : Bytes} (hv : s.val cfg k = some v) :
    s.lo ≤ (cfg.ph k).shardSel ∧ (cfg.ph k).shardSel < s.hi := by
  have hm := h.mem_row.2 hv
  obtain ⟨c, hc, hl⟩ := mem_liveRow.1 hm
  exact (h.active _).span _ c (k, v) (cfg.ph k).rowSel_lt hc hl

/-- `Shard::split` never fails; the halves hold exactly the pairs of their part of the span. -/
theorem Shard.split_spec {cfg : Cfg} {s : Shard} {ex : Bool} (h : s.Inv cfg) (hsmall : s.Small) (ha : s.AcctInv ex) :
    ∃ bf tf, s.split cfg = some (quiet s.lo (midOf s.lo s.hi) bf, quiet (midOf s.lo s.hi) s.hi tf) ∧
      FileOK cfg s.lo (midOf s.lo s.hi) bf ∧ FileOK cfg (midOf s.lo s.hi) s.hi tf ∧ Acct 0 0 bf ∧ Acct 0 0 tf ∧
      bf.wasted = 0 ∧ tf.wasted = 0 ∧
      (∀ r, r < NUM_ROWS → bf.liveRow r = ((s.active r).liveRow r).filter
        (fun kv => decide ((cfg.ph kv.1).shardSel < midOf s.lo s.hi))) ∧
      (∀ r, r < NUM_ROWS → tf.liveRow r = ((s.active r).liveRow r).filter
        (fun kv => !decide ((cfg.ph kv.1).shardSel < midOf s.lo s.hi))) ∧
      bf.writeOff + tf.writeOff = sumTo NUM_ROWS (fun r => bytesOf ((s.active r).liveRow r)) ∧
      bf.writeOff + tf.writeOff < 4294967296 := by
  obtain ⟨s1, f1, f2, f3, f4, f5, f6, f7, f8, f9⟩ := s.finish_spec h hsmall ha
  unfold Shard.split
  rw [f1]
  simp only [f4, f5]
  generalize hmid : midOf s.lo s.hi = mid
  have hsrc : FileOK cfg s.lo s.hi s1.src := by have := f2.src; rwa [f4, f5] at this
  have hcap := f7.1.bytes
  have hlb : liveBytes s1.src = sumTo NUM_ROWS (fun r => bytesOf ((s.active r).liveRow r)) := by
    unfold liveBytes fileW
    apply sumTo_congr
    intro r hr
    rw [← f9 r hr, bytesOf_liveRow]
  have hw : ∀ p : KV → Bool, sumTo NUM_ROWS (fun r => bytesOf ((s1.src.liveRow r).filter p)) +
      sumTo NUM_ROWS (fun r => bytesOf ((s1.src.liveRow r).filter (fun x => !p x))) = liveBytes s1.src := by
    intro p
    rw [← sumTo_add]
    unfold liveBytes fileW
    apply sumTo_congr
    intro r _
    rw [bytesOf_filter, bytesOf_liveRow]
  have hw' := hw (fun kv => decide ((cfg.ph kv.1).shardSel < mid))
  have hs1 := f6.1
  have hflen : ∀ (p : KV → Bool) r, ((s1.src.liveRow r).filter p).length ≤ ROW_WIDTH := fun p r =>
    Nat.le_trans (List.length_filter_le _ _) (liveRow_length _ _)
  obtain ⟨bf, b1, b2, b3, b4, b5, b6⟩ := fill_spec (cfg := cfg) (lo := s.lo) (hi := mid)
    (contents := fun r => (s1.src.liveRow r).filter (fun kv => decide ((cfg.ph kv.1).shardSel < mid)))
    (fun r hr => (hsrc.copyOK hr).filter _ (fun kv hm hp => by
      have := (hsrc.copyOK hr).span kv hm
      simp only [decide_eq_true_eq] at hp; omega)) (fun r _ => hflen _ r) (by omega)
  obtain ⟨tf, t1, t2, t3, t4, t5, t6⟩ := fill_spec (cfg := cfg) (lo := mid) (hi := s.hi)
    (contents := fun r => (s1.src.liveRow r).filter (fun kv => !decide ((cfg.ph kv.1).shardSel < mid)))
    (fun r hr => (hsrc.copyOK hr).filter _ (fun kv hm hp => by
      have := (hsrc.copyOK hr).span kv hm
      simp only [Bool.not_eq_true', decide_eq_false_iff_not] at hp; omega)) (fun r _ => hflen _ r) (by omega)
  refine ⟨bf, tf, ?_, b2, t2, b6, t6, ?_, ?_, ?_, ?_, ?_, ?_⟩
  · rw [b1, t1]; rfl
  · have := b6.1
    have hl : liveBytes bf = sumTo NUM_ROWS (fun r => bytesOf ((s1.src.liveRow r).filter
        (fun kv => decide ((cfg.ph kv.1).shardSel < mid)))) := by
      unfold liveBytes fileW
      apply sumTo_congr
      intro r hr
      rw [← bytesOf_liveRow, b3 r hr]
    omega
  · have := t6.1
    have hl : liveBytes tf = sumTo NUM_ROWS (fun r => bytesOf ((s1.src.liveRow r).filter
        (fun kv => !decide ((cfg.ph kv.1).shardSel < mid)))) := by
      unfold liveBytes fileW
      apply sumTo_congr
      intro r hr
      rw [← bytesOf_liveRow, t3 r hr]
    omega
  · intro r hr; rw [b3 r hr, f9 r hr]
  · intro r hr; rw [t3 r hr, f9 r hr]
  · rw [b4, t4, ← hlb, hw']
  · rw [b4, t4]; omega

/-- Values of the halves of a split. -/
theorem Shard.split_val {cfg : Cfg} {s : Shard} {lo hi : Nat} {f : MFile} {p : KV → Bool} (h : s.Inv cfg)
    (hf : FileOK cfg lo hi f) (hrows : ∀ r, r < NUM_ROWS → f.liveRow r = ((s.active r).liveRow r).filter p)
    (q : Bytes → Bool) (hpq : ∀ k v, p (k, v) = q k) (k : Bytes) :
    (quiet lo hi f).val cfg k = if q k = true then s.val cfg k else none := by
  have hr := (cfg.ph k).rowSel_lt
  apply quiet_val hf
  by_cases hq : q k = true
  · rw [if_pos hq]
    cases hv : s.val cfg k with
    | none =>
      intro v hm
      rw [hrows _ hr, List.mem_filter] at hm
      have := h.mem_row.1 hm.1
      rw [hv] at this; exact absurd this (by simp)
    | some v =>
      simp only
      rw [hrows _ hr, List.mem_filter]
      exact ⟨h.mem_row.2 hv, by rw [hpq]; exact hq⟩
  · rw [if_neg hq]
    intro v hm
    rw [hrows _ hr, List.mem_filter] at hm
    rw [hpq] at hm
    exact hq hm.2

/-- `Shard::merge` of two adjacent quiescent shards either refuses (a row is too full) or gives the union. -/
theorem Shard.merge_spec {cfg : Cfg} {b t : Shard} (hb : b.Inv cfg) (ht : t.Inv cfg) (hadj : b.hi = t.lo)
    (hlohi : b.lo ≤ b.hi) (hlohi' : t.lo ≤ t.hi)
    (hbq : b.tgt = none) (htq : t.tgt = none) (hsmall : liveBytes b.src + liveBytes t.src < 4294967296) :
    b.merge cfg t = .rowTooFull ∨
    ∃ f, b.merge cfg t = .merged (quiet b.lo t.hi f) ∧ FileOK cfg b.lo t.hi f ∧ Acct 0 0 f ∧
      (∀ r, r < NUM_ROWS → f.liveRow r = b.src.liveRow r ++ t.src.liveRow r) ∧
      f.writeOff = liveBytes b.src + liveBytes t.src ∧
      ∀ k, (quiet b.lo t.hi f).val cfg k = if (cfg.ph k).shardSel < b.hi then b.val cfg k else t.val cfg k := by
  unfold Shard.merge
  split
  · rename_i hall
    right
    rw [List.all_eq_true] at hall
    have hlen : ∀ r, r < NUM_ROWS → (b.src.liveRow r ++ t.src.liveRow r).length ≤ ROW_WIDTH := by
      intro r hr
      have := hall r (List.mem_range.2 hr)
      rw [List.length_append]
      simpa using this
    have hsum : sumTo NUM_ROWS (fun r => bytesOf (b.src.liveRow r ++ t.src.liveRow r)) = liveBytes b.src + liveBytes t.src := by
      unfold liveBytes fileW
      rw [← sumTo_add]
      apply sumTo_congr
      intro r _
      rw [← bytesOf_liveRow, ← bytesOf_liveRow]
      simp [bytesOf]
    have hcp : ∀ r, r < NUM_ROWS → CopyOK cfg b.lo t.hi r (b.src.liveRow r ++ t.src.liveRow r) := by
      intro r hr
      have h1 := hb.src.copyOK hr
      have h2 := ht.src.copyOK hr
      refine ⟨?_, ?_, ?_, ?_⟩
      · unfold DistinctKeys
        rw [List.pairwise_append]
        refine ⟨h1.distinct, h2.distinct, ?_⟩
        intro x hx y hy e
        have e1 := h1.span x hx
        have e2 := h2.span y hy
        rw [e] at e1
        omega
      · intro kv hm
        rcases List.mem_append.1 hm with hm | hm
        · exact h1.row kv hm
        · exact h2.row kv hm
      · intro kv hm
        rcases List.mem_append.1 hm with hm | hm
        · have := h1.span kv hm; omega
        · have := h2.span kv hm; omega
      · intro kv hm
        rcases List.mem_append.1 hm with hm | hm
        · exact h1.size kv hm
        · exact h2.size kv hm
    obtain ⟨f, f1, f2, f3, f4, f5, f6⟩ := fill_spec (cfg := cfg) (lo := b.lo) (hi := t.hi)
      (contents := fun r => b.src.liveRow r ++ t.src.liveRow r) hcp hlen (by omega)
    refine ⟨f, by rw [f1]; rfl, f2, f6, f3, by rw [f4, hsum], ?_⟩
    intro k
    have hr := (cfg.ph k).rowSel_lt
    have hab : ∀ r, b.active r = b.src := fun r => by unfold Shard.active; rw [hbq]
    have hat : ∀ r, t.active r = t.src := fun r => by unfold Shard.active; rw [htq]
    have mb : ∀ v, (k, v) ∈ b.src.liveRow (cfg.ph k).rowSel ↔ b.val cfg k = some v := by
      intro v; rw [← hb.mem_row, hab]
    have mt : ∀ v, (k, v) ∈ t.src.liveRow (cfg.ph k).rowSel ↔ t.val cfg k = some v := by
      intro v; rw [← ht.mem_row, hat]
    apply quiet_val f2
    rw [f3 _ hr]
    by_cases hsel : (cfg.ph k).shardSel < b.hi
    · rw [if_pos hsel]
      have hno : ∀ v, t.val cfg k ≠ some v := fun v hv => by have := ht.val_span hv; omega
      cases hv : b.val cfg k with
      | none =>
        intro v hm
        rcases List.mem_append.1 hm with hm | hm
        · have := (mb v).1 hm; rw [hv] at this; exact absurd this (by simp)
        · exact hno v ((mt v).1 hm)
      | some v => exact List.mem_append_left _ ((mb v).2 hv)
    · rw [if_neg hsel]
      have hno : ∀ v, b.val cfg k ≠ some v := fun v hv => by have := hb.val_span hv; omega
      cases hv : t.val cfg k with
      | none =>
        intro v hm
        rcases List.mem_append.1 hm with hm | hm
        · exact hno v ((mb v).1 hm)
        · have := (mt v).1 hm; rw [hv] at this; exact absurd this (by simp)
      | some v => exact List.mem_append_right _ ((mt v).2 hv)
  · exact Or.inl rfl

end Candy
