import Verif.Proofs.Acct
/-!
# Copying rows: compaction, split, merge
-/
namespace Candy

/-- The pairs of a list have pairwise different keys. -/
abbrev DistinctKeys (l : List KV) : Prop := l.Pairwise (fun a b => a.1 ≠ b.1)

theorem FileOK.distinct {cfg lo hi f} (h : FileOK cfg lo hi f) {r : Nat} (hr : r < NUM_ROWS) : DistinctKeys (f.liveRow r) := by
  rw [liveRow_eq]
  unfold DistinctKeys
  rw [List.pairwise_filterMap]
  have hp : (List.range ROW_WIDTH).Pairwise (fun a b => a ∈ List.range ROW_WIDTH ∧ b ∈ List.range ROW_WIDTH ∧ a < b) :=
    List.pairwise_lt_range.imp_of_mem (fun ha hb hlt => ⟨ha, hb, hlt⟩)
  refine hp.imp ?_
  rintro a b ⟨ha, hb, hlt⟩ x hx y hy e
  rw [List.mem_range] at ha hb
  have := h.inj r a b x y hr ha hb hx hy e
  omega

theorem liveRow_length (f : MFile) (r : Nat) : (f.liveRow r).length ≤ ROW_WIDTH := by
  rw [liveRow_eq]
  refine Nat.le_trans (List.length_filterMap_le _ _) ?_
  simp

theorem liveRow_sizes {f : MFile} {r : Nat} {kv : KV} (h : kv ∈ f.liveRow r) : kv.1.length < 65536 ∧ kv.2.length < 65536 := by
  rw [mem_liveRow] at h
  obtain ⟨c, _, hl⟩ := h
  rw [live_eq_some] at hl
  rw [← hl.2, readKV_klen, readKV_vlen]
  exact ⟨descKlen_lt _, descVlen_lt _⟩

/-- What copying needs to know about the pairs to be copied to row `r`. -/
structure CopyOK (cfg : Cfg) (lo hi r : Nat) (kvs : List KV) : Prop where
  distinct : DistinctKeys kvs
  row : ∀ kv ∈ kvs, (cfg.ph kv.1).rowSel = r
  span : ∀ kv ∈ kvs, lo ≤ (cfg.ph kv.1).shardSel ∧ (cfg.ph kv.1).shardSel < hi
  size : ∀ kv ∈ kvs, kv.1.length < 65536 ∧ kv.2.length < 65536

theorem FileOK.copyOK {cfg lo hi f} (h : FileOK cfg lo hi f) {r : Nat} (hr : r < NUM_ROWS) :
    CopyOK cfg lo hi r (f.liveRow r) := by
  refine ⟨h.distinct hr, ?_, ?_, fun kv hm => liveRow_sizes hm⟩
  · intro kv hm
    rw [mem_liveRow] at hm
    obtain ⟨c, hc, hl⟩ := hm
    exact h.row r c kv hr hc hl
  · intro kv hm
    rw [mem_liveRow] at hm
    obtain ⟨c, hc, hl⟩ := hm
    exact h.span r c kv hr hc hl

theorem CopyOK.tail {cfg lo hi r kv kvs} (h : CopyOK cfg lo hi r (kv :: kvs)) : CopyOK cfg lo hi r kvs :=
  ⟨(List.pairwise_cons.1 h.distinct).2, fun x hx => h.row x (List.mem_cons_of_mem _ hx),
    fun x hx => h.span x (List.mem_cons_of_mem _ hx), fun x hx => h.size x (List.mem_cons_of_mem _ hx)⟩

theorem bytesOf_cons (kv : KV) (l : List KV) : bytesOf (kv :: l) = kv.1.length + kv.2.length + bytesOf l := by
  simp [bytesOf, kvSize]

/-- State of the target row before copying `kvs` from column `col`: what is there already is part of what will be copied
(left by an earlier, interrupted copy), and the columns to the left hold other keys. -/
structure Partial (f : MFile) (r col : Nat) (kvs : List KV) : Prop where
  right : ∀ c, col ≤ c → c < ROW_WIDTH → ∀ kv, f.live r c = some kv → kvs[c - col]? = some kv
  left : ∀ c, c < col → c < ROW_WIDTH → ∀ kv, f.live r c = some kv → ∀ kv' ∈ kvs, kv.1 ≠ kv'.1

theorem Partial.of_empty {f : MFile} {r : Nat} {kvs : List KV} (h : ∀ c, c < ROW_WIDTH → f.live r c = none) :
    Partial f r 0 kvs :=
  ⟨fun c _ hc kv hl => by rw [h c hc] at hl; exact absurd hl (by simp), fun c hc => by omega⟩

/-- Result of copying. -/
structure Copied (f g : MFile) (r col : Nat) (kvs : List KV) : Prop where
  row : ∀ c, c < ROW_WIDTH → g.live r c = if col ≤ c ∧ c < col + kvs.length then kvs[c - col]? else f.live r c
  other : ∀ r' c, r' < NUM_ROWS → c < ROW_WIDTH → r' ≠ r → g.live r' c = f.live r' c
  otherSlot : ∀ r' c, r' ≠ r → g.slot r' c = f.slot r' c
  off : g.writeOff = f.writeOff + bytesOf kvs
  wasted : g.wasted = f.wasted
  inserts : g.numInserts = f.numInserts + kvs.length
  removals : g.numRemovals = f.numRemovals
  cu : g.compactedUpTo = f.compactedUpTo

theorem copyPrims_spec {cfg : Cfg} {lo hi r : Nat} (first : Bool) (hr : r < NUM_ROWS) :
    ∀ (kvs : List KV) (f : MFile) (col : Nat), FileOK cfg lo hi f → CopyOK cfg lo hi r kvs → Partial f r col kvs →
      (first = true ∨ ∀ c, col ≤ c → c < ROW_WIDTH → f.live r c = none) → col + kvs.length ≤ ROW_WIDTH →
      f.writeOff + bytesOf kvs < 4294967296 →
      ∃ ps, copyPrims cfg first r f col kvs = some ps ∧ FileOK cfg lo hi (f.run ps) ∧ Copied f (f.run ps) r col kvs
  | [], f, col, hok, _, _, _, _, _ => by
    refine ⟨[], rfl, hok, ?_⟩
    constructor <;> simp [bytesOf]
    intro c _ h1 h2; omega
  | kv :: kvs, f, col, hok, hcp, hpar, hfirst, hlen, hoff => by
    simp only [List.length_cons] at hlen
    have hsz := hcp.size kv (List.mem_cons_self)
    have hrow := hcp.row kv (List.mem_cons_self)
    have hspan := hcp.span kv (List.mem_cons_self)
    have hdist := List.pairwise_cons.1 hcp.distinct
    rw [bytesOf_cons] at hoff
    have ho : f.writeOff < 4294967296 := by omega
    have hcol : col < ROW_WIDTH := by omega
    have hlive := fun {r' c'} => live_put (r := r) (c := col) (r' := r') (c' := c') hok.extOK hsz.1 hsz.2 ho
      (cfg.ph_sig_ne kv.1)
    -- the state after the first pair
    have hok' : FileOK cfg lo hi (f.run (f.putPrims r col kv.1 kv.2 (cfg.ph kv.1).sig)) := by
      apply hok.put hsz.1 hsz.2 ho hrow hspan.1 hspan.2
      intro c' hc' hne v' hl
      by_cases hlt : c' < col
      · exact hpar.left c' hlt hc' _ hl kv (List.mem_cons_self) rfl
      · have := hpar.right c' (by omega) hc' _ hl
        have e : c' - col = (c' - (col + 1)) + 1 := by omega
        rw [e, List.getElem?_cons_succ] at this
        have hm := List.mem_of_getElem? this
        exact hdist.1 _ hm rfl
    generalize hg : f.run (f.putPrims r col kv.1 kv.2 (cfg.ph kv.1).sig) = g at hok' hlive
    have hgoff : g.writeOff = f.writeOff + (kv.1.length + kv.2.length) := by rw [← hg]; exact put_writeOff ..
    have hpar' : Partial g r (col + 1) kvs := by
      constructor
      · intro c h1 h2 x hx
        rw [hlive hr h2, if_neg (by omega)] at hx
        have := hpar.right c (by omega) h2 x hx
        have e : c - col = (c - (col + 1)) + 1 := by omega
        rwa [e, List.getElem?_cons_succ] at this
      · intro c h1 h2 x hx y hy
        rw [hlive hr h2] at hx
        by_cases e : c = col
        · subst e
          simp only [and_self, if_true, Option.some.injEq] at hx
          rw [← hx]
          exact hdist.1 y hy
        · rw [if_neg (by omega)] at hx
          exact hpar.left c (by omega) h2 x hx y (List.mem_cons_of_mem _ hy)
    have hfirst' : first = true ∨ ∀ c, col + 1 ≤ c → c < ROW_WIDTH → g.live r c = none := by
      rcases hfirst with h | h
      · exact Or.inl h
      · right
        intro c h1 h2
        rw [hlive hr h2, if_neg (by omega)]
        exact h c (by omega) h2
    obtain ⟨ps, hps, hokps, hc⟩ := copyPrims_spec first hr kvs g (col + 1) hok' hcp.tail hpar' hfirst' (by omega)
      (by omega)
    refine ⟨f.putPrims r col kv.1 kv.2 (cfg.ph kv.1).sig ++ ps, ?_, ?_, ?_⟩
    · simp only [copyPrims]
      rw [if_neg (by omega), if_neg ?_, if_neg (by simpa using hrow), hg, hps]
      rintro ⟨h1, h2⟩
      rcases hfirst with h | h
      · rw [h] at h1; exact absurd h1 (by simp)
      · exact h2 (live_eq_none.1 (h col (Nat.le_refl _) hcol))
    · rw [run_append, hg]; exact hokps
    · rw [run_append, hg]
      constructor
      · intro c h2
        rw [hc.row c h2, hlive hr h2]
        by_cases h1 : col + 1 ≤ c ∧ c < col + 1 + kvs.length
        · rw [if_pos h1, if_pos (by simp only [List.length_cons]; omega)]
          have e : c - col = (c - (col + 1)) + 1 := by omega
          rw [e, List.getElem?_cons_succ]
        · rw [if_neg h1]
          by_cases e : c = col
          · subst e
            rw [if_pos ⟨rfl, rfl⟩, if_pos (by simp only [List.length_cons]; omega)]
            simp
          · rw [if_neg (by omega), if_neg (by simp only [List.length_cons]; omega)]
      · intro r' c h1 h2 h3
        rw [hc.other r' c h1 h2 h3, hlive h1 h2, if_neg (by omega)]
      · intro r' c h1
        rw [hc.otherSlot r' c h1, ← hg, put_slot, if_neg (by omega)]
      · rw [hc.off, hgoff, bytesOf_cons]; omega
      · rw [hc.wasted, ← hg]; exact put_wasted ..
      · rw [hc.inserts, ← hg, put_inserts]; simp only [List.length_cons]; omega
      · rw [hc.removals, ← hg]; exact put_removals ..
      · rw [hc.cu, ← hg]; exact put_cu ..

/-- Copying onto an empty or partially filled row leaves exactly the copied pairs. -/
theorem Copied.mem {f g : MFile} {r : Nat} {kvs : List KV} (h : Copied f g r 0 kvs) (hp : Partial f r 0 kvs)
    (hlen : kvs.length ≤ ROW_WIDTH) {kv : KV} : (∃ c, c < ROW_WIDTH ∧ g.live r c = some kv) ↔ kv ∈ kvs := by
  constructor
  · rintro ⟨c, hc, hl⟩
    rw [h.row c hc] at hl
    split at hl
    · exact List.mem_of_getElem? hl
    · have := hp.right c (Nat.zero_le _) hc kv hl
      exact List.mem_of_getElem? this
  · intro hm
    obtain ⟨i, hi, e⟩ := List.mem_iff_getElem.1 hm
    refine ⟨i, by omega, ?_⟩
    rw [h.row i (by omega), if_pos (by omega)]
    simp [hi, e]

/-- The copied row, read back, is the list that was copied. -/
theorem Copied.liveRow {f g : MFile} {r : Nat} {kvs : List KV} (h : Copied f g r 0 kvs) (hp : Partial f r 0 kvs)
    (hlen : kvs.length ≤ ROW_WIDTH) : g.liveRow r = kvs := by
  have hrow : ∀ c, c < ROW_WIDTH → g.live r c = kvs[c]? := by
    intro c hc
    rw [h.row c hc]
    split
    · simp
    · rename_i hn
      have hge : kvs.length ≤ c := by omega
      rw [List.getElem?_eq_none hge]
      cases hl : f.live r c with
      | none => rfl
      | some kv =>
        have := hp.right c (Nat.zero_le _) hc kv hl
        rw [Nat.sub_zero, List.getElem?_eq_none hge] at this
        exact absurd this (by simp)
  rw [liveRow_eq]
  have : (List.range ROW_WIDTH).filterMap (g.live r) = (List.range ROW_WIDTH).filterMap (fun c => kvs[c]?) := by
    apply filterMap_congr
    intro c hc
    exact hrow c (List.mem_range.1 hc)
  rw [this]
  clear this hrow h hp
  -- general fact
  have gen : ∀ (n : Nat) (l : List KV), l.length ≤ n → (List.range n).filterMap (fun c => l[c]?) = l := by
    intro n
    induction n with
    | zero => intro l hl; have : l = [] := List.length_eq_zero_iff.1 (by omega); subst this; rfl
    | succ n ih =>
      intro l hl
      cases l with
      | nil => simp
      | cons a l =>
        rw [List.range_succ_eq_map, List.filterMap_cons]
        simp only [List.getElem?_cons_zero, List.filterMap_map]
        congr 1
        have := ih l (by simpa using hl)
        conv => rhs; rw [← this]
        apply filterMap_congr
        intro c _
        simp
  exact gen _ _ hlen

theorem Copied.weight {f g : MFile} {r : Nat} {kvs : List KV} (h : Copied f g r 0 kvs) (hp : Partial f r 0 kvs)
    (hr : r < NUM_ROWS) (hlen : kvs.length ≤ ROW_WIDTH) (w : KV → Nat) :
    fileW w g + rowW w f r = fileW w f + (kvs.map w).sum := by
  have h1 : rowW w g r = (kvs.map w).sum := by rw [rowW_eq, h.liveRow hp hlen]
  have h2 : fileW w g + rowW w f r = fileW w f + rowW w g r := by
    apply sumTo_update hr
    intro i hi hne
    apply sumTo_congr
    intro j hj
    simp only [cellW]; rw [h.other i j hi hj hne]
  rw [← h1]; exact h2

end Candy
