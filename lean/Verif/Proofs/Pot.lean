import Verif.Proofs.Tree
/-!
# Background steps and waiting on the tree; how large files can get
-/
namespace Candy

/-- One step of a background compaction anywhere: no failure, same contents. -/
theorem Tree.bgStep_spec {cfg ex lo hi t} (h : Tree.OK cfg ex lo hi t) (hsm : t.Small) (sel : Nat) :
    ∃ t', t.bgStep cfg sel = some t' ∧ Tree.OK cfg ex lo hi t' ∧ t'.Small ∧
      ∀ k, inSpan lo hi (cfg.ph k).shardSel → t'.get cfg k = t.get cfg k := by
  induction h with
  | @leaf lo hi s hlo hhi hle hinv ha =>
    rw [Tree.Small.leaf] at hsm
    obtain ⟨s', h1, h2, h3, h4, h5, h6, h7, _⟩ := s.bgStep_spec hinv hsm ha
    refine ⟨.leaf s', by unfold Tree.bgStep; rw [h1]; rfl, .leaf (h3.trans hlo) (h4.trans hhi) hle h2 h6, Tree.Small.leaf.2 h5, fun k _ => h7 k⟩
  | @vertex lo hi b t hle hb ht ih1 ih2 =>
    rw [Tree.Small.vertex] at hsm
    unfold Tree.bgStep
    split
    · obtain ⟨b', h1, h2, h3, h4⟩ := ih1 hsm.1
      refine ⟨.vertex b' t, by rw [h1]; rfl, .vertex hle h2 ht, Tree.Small.vertex.2 ⟨h3, hsm.2⟩, ?_⟩
      intro k hk
      rw [Tree.get_vertex, Tree.get_vertex, h2.hi_eq, hb.hi_eq]
      split
      · exact h4 k ⟨hk.1, by assumption⟩
      · rfl
    · obtain ⟨t', h1, h2, h3, h4⟩ := ih2 hsm.2
      refine ⟨.vertex b t', by rw [h1]; rfl, .vertex hle hb h2, Tree.Small.vertex.2 ⟨hsm.1, h3⟩, ?_⟩
      intro k hk
      rw [Tree.get_vertex, Tree.get_vertex, hb.hi_eq]
      split
      · rfl
      · exact h4 k ⟨by omega, hk.2⟩

/-- No compaction is running anywhere. -/
def Tree.Quiet (t : Tree) : Prop := ∀ s ∈ t.leaves, s.tgt = none

/-- Waiting for all compactions: no failure, same contents. -/
theorem Tree.finishAll_spec {cfg ex lo hi t} (h : Tree.OK cfg ex lo hi t) (hsm : t.Small) :
    ∃ t', t.finishAll cfg = some t' ∧ Tree.OK cfg ex lo hi t' ∧ t'.Small ∧ t'.Quiet ∧
      t'.leaves.map (fun s => (s.lo, s.hi)) = t.leaves.map (fun s => (s.lo, s.hi)) ∧
      ∀ k, inSpan lo hi (cfg.ph k).shardSel → t'.get cfg k = t.get cfg k := by
  induction h with
  | @leaf lo hi s hlo hhi hle hinv ha =>
    rw [Tree.Small.leaf] at hsm
    obtain ⟨s', h1, h2, hq, h3, h4, h5, h6, h7, _⟩ := s.finish_spec hinv hsm ha
    refine ⟨.leaf s', by unfold Tree.finishAll; rw [h1]; rfl, .leaf (h3.trans hlo) (h4.trans hhi) hle h2 h6, Tree.Small.leaf.2 h5, ?_, ?_,
      fun k _ => h7 k⟩
    · intro x hx; rw [Tree.leaves_leaf, List.mem_singleton] at hx; subst hx; exact hq
    · simp [Tree.leaves_leaf, h3, h4]
  | @vertex lo hi b t hle hb ht ih1 ih2 =>
    rw [Tree.Small.vertex] at hsm
    obtain ⟨b', h1, h2, h3, h3q, hm1, h4⟩ := ih1 hsm.1
    obtain ⟨t', g1, g2, g3, g3q, hm2, g4⟩ := ih2 hsm.2
    refine ⟨.vertex b' t', by unfold Tree.finishAll; rw [h1, g1], .vertex hle h2 g2, Tree.Small.vertex.2 ⟨h3, g3⟩, ?_, ?_, ?_⟩
    · intro x hx
      rw [Tree.leaves_vertex, List.mem_append] at hx
      exact hx.elim (h3q x) (g3q x)
    · simp only [Tree.leaves_vertex, List.map_append, hm1, hm2]
    · intro k hk
      rw [Tree.get_vertex, Tree.get_vertex, h2.hi_eq, hb.hi_eq]
      split
      · exact h4 k ⟨hk.1, by assumption⟩
      · exact g4 k ⟨by omega, hk.2⟩

/-- What `get_by_hash` returns: stored pairs, among them all whose key has this hash; no key twice. -/
theorem Shard.getByHash_spec {cfg : Cfg} {s : Shard} (h : s.Inv cfg) (ph : PH) (hph : ph.sig ≠ INVALID_SIG) :
    (∀ kv ∈ s.getByHash ph, s.val cfg kv.1 = some kv.2) ∧
    (∀ k v, s.val cfg k = some v → cfg.ph k = ph → (k, v) ∈ s.getByHash ph) ∧
    DistinctKeys (s.getByHash ph) := by
  have hr := ph.rowSel_lt
  have hok := h.active ph.rowSel
  have hmem : ∀ i, i ∈ lookups ((s.active ph.rowSel).slot ph.rowSel) ph.sig 0 ↔
      i < ROW_WIDTH ∧ ((s.active ph.rowSel).slot ph.rowSel i).sig = ph.sig := by
    intro i; exact mem_lookups
  have hlive : ∀ i, i ∈ lookups ((s.active ph.rowSel).slot ph.rowSel) ph.sig 0 →
      (s.active ph.rowSel).live ph.rowSel i = some ((s.active ph.rowSel).readKV ((s.active ph.rowSel).slot ph.rowSel i).desc) := by
    intro i hi
    have := (hmem i).1 hi
    exact live_eq_some.2 ⟨by rw [this.2]; exact hph, rfl⟩
  refine ⟨?_, ?_, ?_⟩
  · intro kv hkv
    unfold Shard.getByHash at hkv
    rw [List.mem_map] at hkv
    obtain ⟨i, hi, rfl⟩ := hkv
    have hl := hlive i hi
    apply (h.val_eq_some).2
    exact ⟨ph.rowSel, i, hr, ((hmem i).1 hi).1, hl⟩
  · intro k v hv e
    subst e
    have := h.val k
    rw [hv] at this
    obtain ⟨c, hc, hl⟩ := this
    unfold Shard.getByHash
    rw [List.mem_map]
    refine ⟨c, (hmem c).2 ⟨hc, ?_⟩, (live_eq_some.1 hl).2⟩
    exact hok.sig _ c (k, v) hr hc hl
  · unfold Shard.getByHash DistinctKeys
    rw [List.pairwise_map]
    have hnd : (lookups ((s.active ph.rowSel).slot ph.rowSel) ph.sig 0).Pairwise (fun a b =>
        a ∈ lookups ((s.active ph.rowSel).slot ph.rowSel) ph.sig 0 ∧ b ∈ lookups ((s.active ph.rowSel).slot ph.rowSel) ph.sig 0 ∧ a < b) := by
      have : (lookups ((s.active ph.rowSel).slot ph.rowSel) ph.sig 0).Pairwise (· < ·) := by
        rw [lookups_eq]
        exact List.Pairwise.filter _ (by
          have := List.pairwise_lt_range' (s := 0) (n := ROW_WIDTH - 0) (step := 1)
          simpa using this)
      exact this.imp_of_mem (fun ha hb hlt => ⟨ha, hb, hlt⟩)
    refine hnd.imp ?_
    rintro a b ⟨ha, hb, hlt⟩ e
    have := hok.inj _ a b _ _ hr ((hmem a).1 ha).1 ((hmem b).1 hb).1 (hlive a ha) (hlive b hb) e
    omega

theorem Tree.getByHash_spec {cfg ex t} (h : Tree.OK cfg ex 0 END_OF_SHARDS t) (ph : PH) (hph : ph.sig ≠ INVALID_SIG) :
    (∀ kv ∈ t.getByHash ph, t.get cfg kv.1 = some kv.2) ∧
    (∀ k v, t.get cfg k = some v → cfg.ph k = ph → (k, v) ∈ t.getByHash ph) ∧
    DistinctKeys (t.getByHash ph) := by
  have hf : ∀ lo hi t, Tree.OK cfg ex lo hi t → inSpan lo hi ph.shardSel → ∀ k v, inSpan lo hi (cfg.ph k).shardSel →
      (t.find ph.shardSel).val cfg k = some v → t.get cfg k = some v := by
    intro lo hi t h
    induction h with
    | leaf => intro _ k v _ hv; exact hv
    | @vertex lo hi b t hle hb ht ih1 ih2 =>
      intro hs k v hk hv
      rw [Tree.find_vertex, hb.hi_eq] at hv
      rw [Tree.get_vertex, hb.hi_eq]
      by_cases e : ph.shardSel < midOf lo hi
      · rw [if_pos e] at hv
        obtain ⟨f1, f2, _, _⟩ := hb.find (sel := ph.shardSel) ⟨hs.1, e⟩
        have hsp := f2.val_span hv
        have hbd : ∀ lo hi t, Tree.OK cfg ex lo hi t → inSpan lo hi ph.shardSel → lo ≤ (t.find ph.shardSel).lo ∧ (t.find ph.shardSel).hi ≤ hi := by
          intro lo hi t h
          induction h with
          | leaf h1 h2 => intro _; subst h1 h2; exact ⟨Nat.le_refl _, Nat.le_refl _⟩
          | @vertex lo hi b t hle hb ht ih1 ih2 =>
            intro hs
            have hm := midOf_bounds hle
            rw [Tree.find_vertex, hb.hi_eq]
            split
            · have := ih1 ⟨hs.1, by assumption⟩; omega
            · have := ih2 ⟨by omega, hs.2⟩; omega
        have := hbd _ _ _ hb ⟨hs.1, e⟩
        rw [if_pos (by omega)]
        exact ih1 ⟨hs.1, e⟩ k v ⟨hk.1, by omega⟩ hv
      · rw [if_neg e] at hv
        obtain ⟨f1, f2, _, _⟩ := ht.find (sel := ph.shardSel) ⟨by omega, hs.2⟩
        have hsp := f2.val_span hv
        have hbd : ∀ lo hi t, Tree.OK cfg ex lo hi t → inSpan lo hi ph.shardSel → lo ≤ (t.find ph.shardSel).lo ∧ (t.find ph.shardSel).hi ≤ hi := by
          intro lo hi t h
          induction h with
          | leaf h1 h2 => intro _; subst h1 h2; exact ⟨Nat.le_refl _, Nat.le_refl _⟩
          | @vertex lo hi b t hle hb ht ih1 ih2 =>
            intro hs
            have hm := midOf_bounds hle
            rw [Tree.find_vertex, hb.hi_eq]
            split
            · have := ih1 ⟨hs.1, by assumption⟩; omega
            · have := ih2 ⟨by omega, hs.2⟩; omega
        have := hbd _ _ _ ht ⟨by omega, hs.2⟩
        rw [if_neg (by omega)]
        exact ih2 ⟨by omega, hs.2⟩ k v ⟨by omega, hk.2⟩ hv
  have hsel : inSpan 0 END_OF_SHARDS ph.shardSel := ⟨Nat.zero_le _, ph.shardSel_lt⟩
  obtain ⟨f1, f2, _, _⟩ := h.find hsel
  obtain ⟨g1, g2, g3⟩ := Shard.getByHash_spec f2 ph hph
  refine ⟨?_, ?_, g3⟩
  · intro kv hkv
    exact hf _ _ _ h hsel _ _ ⟨Nat.zero_le _, (cfg.ph kv.1).shardSel_lt⟩ (g1 kv hkv)
  · intro k v hv e
    subst e
    exact g2 k v hv rfl

/-- `get_by_hash` returns only pairs whose key has this signature. -/
theorem Tree.getByHash_sig {cfg ex t} (h : Tree.OK cfg ex 0 END_OF_SHARDS t) (ph : PH) (hph : ph.sig ≠ INVALID_SIG) {kv : KV}
    (hkv : kv ∈ t.getByHash ph) : (cfg.ph kv.1).sig = ph.sig := by
  obtain ⟨_, f2, _, _⟩ := h.find (sel := ph.shardSel) ⟨Nat.zero_le _, ph.shardSel_lt⟩
  unfold Tree.getByHash Shard.getByHash at hkv
  rw [List.mem_map] at hkv
  obtain ⟨i, hi, rfl⟩ := hkv
  have hi := mem_lookups.1 hi
  have hl := live_eq_some.2 ⟨by rw [hi.2]; exact hph, rfl⟩
  exact ((f2.active ph.rowSel).sig _ i _ ph.rowSel_lt hi.1 hl).symm.trans hi.2

/-! ## File sizes -/

/-- The size the shard's file has, or will have when the running compaction is done, if larger. -/
def Shard.proj (s : Shard) : Nat :=
  match s.tgt with
  | none => s.src.writeOff
  | some t => max s.src.writeOff (t.writeOff + remW kvSize s.src t.compactedUpTo)

theorem Shard.small_iff (s : Shard) : s.Small ↔ s.proj < 4294967296 := by
  unfold Shard.Small Shard.proj
  cases ht : s.tgt with
  | none => simp
  | some t =>
    simp only [Option.some.injEq]
    constructor
    · rintro ⟨h1, h2⟩; have := h2 t rfl; omega
    · intro h; exact ⟨by omega, fun t' e => by subst e; omega⟩

/-- Sum of the file sizes. -/
def Tree.pot (t : Tree) : Nat := (t.leaves.map Shard.proj).sum

theorem Tree.pot_vertex (b t : Tree) : (Tree.vertex b t).pot = b.pot + t.pot := by
  unfold Tree.pot; rw [Tree.leaves_vertex, List.map_append, List.sum_append]

theorem Tree.pot_leaf (s : Shard) : (Tree.leaf s).pot = s.proj := by
  unfold Tree.pot; rw [Tree.leaves_leaf]; simp

theorem Tree.small_of_pot : ∀ {t : Tree}, t.pot < 4294967296 → t.Small
  | .leaf s, h => by rw [Tree.pot_leaf] at h; exact Tree.Small.leaf.2 (s.small_iff.2 h)
  | .vertex b t, h => by
    rw [Tree.pot_vertex] at h
    exact Tree.Small.vertex.2 ⟨Tree.small_of_pot (by omega), Tree.small_of_pot (by omega)⟩

/-- An update changes the weight of the rows from `cu` on by what changes in one cell. -/
theorem remW_update (w : KV → Nat) {f g : MFile} {r c cu : Nat} (hr : r < NUM_ROWS) (hc : c < ROW_WIDTH)
    (h : ∀ r' c', r' < NUM_ROWS → c' < ROW_WIDTH → ¬ (r' = r ∧ c' = c) → g.live r' c' = f.live r' c') :
    remW w g cu + (if r < cu then 0 else cellW w f r c) = remW w f cu + (if r < cu then 0 else cellW w g r c) := by
  have h1 : rowW w g r + cellW w f r c = rowW w f r + cellW w g r c := by
    apply sumTo_update hc
    intro i hi hne
    simp only [cellW]; rw [h r i hr hi (by omega)]
  have h2 := sumTo_update (g := fun r => if r < cu then 0 else rowW w f r) (h := fun r => if r < cu then 0 else rowW w g r) hr
    (fun i hi hne => by
      by_cases e : i < cu
      · rw [if_pos e, if_pos e]
      · rw [if_neg e, if_neg e]
        apply sumTo_congr
        intro j hj
        simp only [cellW]; rw [h i j hi hj (by omega)])
  unfold remW
  by_cases e : r < cu
  · rw [if_pos e, if_pos e] at h2; rw [if_pos e, if_pos e]; exact h2
  · rw [if_neg e, if_neg e] at h2; rw [if_neg e, if_neg e]; omega

/-- The live bytes grow by at most what is appended to the file. -/
theorem Effect.remW_le {cfg f r k cur ps new} (hext : ExtOK f) (hr : r < NUM_ROWS) (h : Effect cfg f r k cur ps new) (cu : Nat) :
    remW kvSize (f.run ps) cu + f.writeOff ≤ remW kvSize f cu + (f.run ps).writeOff := by
  cases h with
  | noop => exact Nat.le_refl _
  | put c v hc he hcur hk hv ho =>
    have hl := fun {r' c'} => live_put (r := r) (c := c) (r' := r') (c' := c') hext hk hv ho (cfg.ph_sig_ne k)
    have := remW_update kvSize (cu := cu) (f := f) (g := f.run (f.putPrims r c k v (cfg.ph k).sig)) hr hc
        (fun r' c' hr' hc' hne => by rw [hl hr' hc', if_neg hne])
    rw [cellW_none he, cellW_some (kv := (k, v)) (by rw [hl hr hc]; simp)] at this
    rw [put_writeOff]
    simp only [kvSize] at *
    split at this <;> omega
  | replace c old v hc he hcur hk hv ho =>
    have hl := fun {r' c'} => live_replace (r := r) (c := c) (r' := r') (c' := c') (old := old) hext hk hv ho
      (live_eq_some.1 he).1
    have := remW_update kvSize (cu := cu) (f := f) (g := f.run (f.replacePrims r c k v old)) hr hc
        (fun r' c' hr' hc' hne => by rw [hl hr' hc', if_neg hne])
    rw [cellW_some he, cellW_some (kv := (k, v)) (by rw [hl hr hc]; simp)] at this
    rw [replace_writeOff]
    simp only [kvSize] at *
    split at this <;> omega
  | remove c old hc he hcur =>
    have hl := live_remove f r c k old
    have := remW_update kvSize (cu := cu) (f := f) (g := f.run (removePrims r c k old)) hr hc
        (fun r' c' hr' hc' hne => by rw [hl, if_neg hne])
    rw [cellW_some he, cellW_none (f := f.run (removePrims r c k old)) (by rw [hl]; simp)] at this
    have hw : (f.run (removePrims r c k old)).writeOff = f.writeOff := rfl
    rw [hw]
    simp only [kvSize] at *
    split at this <;> omega

theorem Shard.proj_effect {cfg : Cfg} {s : Shard} {k : Bytes} {ps cur new} {n : Nat} (h : s.Inv cfg)
    (he : Effect cfg (s.active (cfg.ph k).rowSel) (cfg.ph k).rowSel k cur ps new)
    (hn : ((s.active (cfg.ph k).rowSel).run ps).writeOff ≤ (s.active (cfg.ph k).rowSel).writeOff + n) :
    (s.runActive (cfg.ph k).rowSel ps).proj ≤ s.proj + n := by
  have hr := (cfg.ph k).rowSel_lt
  have hx := (h.active (cfg.ph k).rowSel).ext
  have hcu := he.cu
  have hrem := fun cu => he.remW_le hx hr cu
  revert hn hcu hrem
  unfold Shard.active Shard.runActive Shard.proj
  cases ht : s.tgt with
  | none => intro hn _ _; exact hn
  | some t =>
    simp only
    split
    · intro hn hcu _
      simp only [hcu]
      omega
    · intro hn hcu hrem
      have := hrem t.compactedUpTo
      dsimp only
      omega

theorem tryReplace_growth {f : MFile} {r : Nat} {k v : Bytes} {mode : Mode} (g : MFile) :
    ∀ is, (g.run (f.tryReplace r k v mode is).1).writeOff ≤ g.writeOff + (k.length + v.length)
  | [] => Nat.le_add_right _ _
  | i :: is => by
    unfold MFile.tryReplace
    have hrp : ∀ old, (g.run (f.replacePrims r i k v old)).writeOff ≤ g.writeOff + (k.length + v.length) := fun old => Nat.le_refl _
    have h0 : (g.run []).writeOff ≤ g.writeOff + (k.length + v.length) := Nat.le_add_right _ _
    dsimp only
    split
    · exact tryReplace_growth g is
    · split
      · exact h0
      · dsimp only; split
        · exact hrp _
        · exact h0
      · dsimp only; split
        · exact hrp _
        · exact h0
      · split
        · exact h0
        · dsimp only; split
          · exact hrp _
          · exact h0

/-- A call appends at most one pair. -/
theorem Shard.insertPlan_growth {cfg : Cfg} {s : Shard} {ph : PH} {k v : Bytes} {mode : Mode} (g : MFile) :
    (g.run (s.insertPlan cfg ph k v mode).1).writeOff ≤ g.writeOff + (k.length + v.length) := by
  have h0 : (g.run []).writeOff ≤ g.writeOff + (k.length + v.length) := Nat.le_add_right _ _
  have htr := tryReplace_growth (f := s.active ph.rowSel) (r := ph.rowSel) (k := k) (v := v) (mode := mode) g
    (lookups ((s.active ph.rowSel).slot ph.rowSel) ph.sig 0)
  unfold Shard.insertPlan
  dsimp only
  split
  · exact h0
  · split
    · exact htr
    · exact htr
    · split
      · exact h0
      · split
        · exact Nat.le_refl _
        · exact h0

theorem Shard.proj_begin {s : Shard} {ex} (ha : s.AcctInv ex) (off : Nat) : (s.beginCompaction off).proj ≤ s.proj := by
  unfold Shard.beginCompaction
  split
  · exact Nat.le_refl _
  · cases ht : s.tgt with
    | some t => exact Nat.le_refl _
    | none =>
      have h1 : remW kvSize s.src 0 ≤ s.src.writeOff := by rw [remW_zero]; exact ha.1.bytes
      have e1 : s.proj = s.src.writeOff := by unfold Shard.proj; rw [ht]
      have e2 : Shard.proj { lo := s.lo, hi := s.hi, src := s.src, tgt := some MFile.empty } =
        max s.src.writeOff (0 + remW kvSize s.src 0) := rfl
      simp only
      rw [e1, e2]; omega

theorem Shard.proj_insert {cfg : Cfg} {s : Shard} {k v : Bytes} {mode : Mode} {ex} (h : s.Inv cfg) (ha : s.AcctInv ex)
    (hsmall : (s.active (cfg.ph k).rowSel).writeOff < 4294967296) (hk : k.length < 65536) (hv : v.length < 65536) :
    (s.insert cfg (cfg.ph k) k v mode).1.proj ≤ s.proj + (k.length + v.length) ∧
    ((s.insert cfg (cfg.ph k) k v mode).2 = .splitNeeded → (s.insert cfg (cfg.ph k) k v mode).1.proj ≤ s.proj) := by
  have hplan := insertPlan_spec (mode := mode) (h.active (cfg.ph k).rowSel) (h.val k) hk hv hsmall
  have hg := s.insertPlan_growth (cfg := cfg) (ph := cfg.ph k) (k := k) (v := v) (mode := mode) (s.active (cfg.ph k).rowSel)
  have hsp := Shard.insert_split (mode := mode) h hsmall hk hv
  refine ⟨?_, ?_⟩
  · unfold Shard.insert
    generalize s.insertPlan cfg (cfg.ph k) k v mode = p at hplan hg
    obtain ⟨ps, st0, sc⟩ := p
    simp only at hplan hg ⊢
    have : (s.runActive (cfg.ph k).rowSel ps).proj ≤ s.proj + (k.length + v.length) ∧ (s.runActive (cfg.ph k).rowSel ps).AcctInv ex := by
      rcases hplan with ⟨_, h2, _⟩ | ⟨_, h2⟩
      · subst h2; rw [Shard.runActive_nil]; exact ⟨Nat.le_add_right _ _, ha⟩
      · exact ⟨Shard.proj_effect h h2 hg, ha.effect h h2⟩
    cases sc with
    | none => exact this.1
    | some off => exact Nat.le_trans (Shard.proj_begin this.2 off) this.1
  · intro e
    rcases hsp e with e | ⟨off, e⟩
    · rw [e]; exact Nat.le_refl _
    · rw [e]; exact Shard.proj_begin ha off

theorem Shard.proj_split {cfg : Cfg} {s : Shard} {ex : Bool} (h : s.Inv cfg) (hsmall : s.Small) (ha : s.AcctInv ex) {b t}
    (he : s.split cfg = some (b, t)) : b.proj + t.proj ≤ s.proj := by
  obtain ⟨s1, f1, f2, f3, f4, f5, f6, f7, f8, f9⟩ := s.finish_spec h hsmall ha
  obtain ⟨bf, tf, h1, _, _, _, _, _, _, _, _, h8, _⟩ := s.split_spec h hsmall ha
  rw [h1] at he
  simp only [Option.some.injEq, Prod.mk.injEq] at he
  obtain ⟨rfl, rfl⟩ := he
  show bf.writeOff + tf.writeOff ≤ _
  rw [h8]
  have hlb : liveBytes s1.src = sumTo NUM_ROWS (fun r => bytesOf ((s.active r).liveRow r)) := by
    unfold liveBytes fileW
    apply sumTo_congr
    intro r hr
    rw [← f9 r hr, bytesOf_liveRow]
  rw [← hlb]
  refine Nat.le_trans f7.1.bytes ?_
  unfold Shard.finish at f1
  unfold Shard.proj
  cases ht : s.tgt with
  | none => rw [ht] at f1; simp at f1; subst f1; exact Nat.le_refl _
  | some t =>
    rw [ht] at f1
    simp only at f1 ⊢
    obtain ⟨t', h1, h2, h3⟩ := compactRows_spec h.src _ t (t.compactedUpTo == 0) rfl (h.tgtOK ht)
      (Or.inr (fun e c hc => live_eq_none.2 (h.fresh t ht _ c (Nat.le_refl _) e hc)))
      (hsmall.2 t ht)
    rw [h1] at f1
    simp at f1
    subst f1
    show t'.writeOff ≤ _
    rw [h3.off]; omega

theorem Tree.pot_insert {cfg : Cfg} {ex : Bool} {k v : Bytes} {mode : Mode} (hk : k.length < 65536) (hv : v.length < 65536) :
    ∀ (n : Nat) (t : Tree) (lo hi : Nat) (r), Tree.OK cfg ex lo hi t → t.Small → inSpan lo hi (cfg.ph k).shardSel →
      t.insert cfg (cfg.ph k) k v mode n = .ok r → r.1.pot ≤ t.pot + (k.length + v.length)
  | 0, _, _, _, _, _, _, _, h => by simp [Tree.insert] at h
  | n + 1, .leaf s, lo, hi, r, hok, hsm, hsel, h => by
    cases hok with
    | leaf hlo hhi hle hinv ha =>
      subst hlo hhi
      rw [Tree.Small.leaf] at hsm
      have hoff := hsm.active (cfg.ph k).rowSel
      obtain ⟨g1, g2, g3, g4⟩ := Shard.insert_spec (mode := mode) hinv hoff hk hv hsel.1 hsel.2
      have ha' := Shard.insert_acct (mode := mode) hinv ha hoff hk hv
      have hsplit := Shard.insert_split (mode := mode) hinv hoff hk hv
      have hp := Shard.proj_insert (mode := mode) hinv ha hoff hk hv
      unfold Tree.insert at h
      generalize s.insert cfg (cfg.ph k) k v mode = p at g1 g2 g3 g4 ha' hsplit h hp
      obtain ⟨s', st⟩ := p
      simp only at g1 g2 g3 g4 ha' hsplit h hp
      by_cases e : st = .splitNeeded
      · subst e
        have hsm' : s'.Small := by
          rcases hsplit rfl with e | ⟨off, e⟩
          · rw [e]; exact hsm
          · rw [e]; exact Shard.beginCompaction_small ha hsm off
        obtain ⟨b, t, p1, p2, p3, p4⟩ := Shard.split_tree g1 hsm' ha' (by omega)
        have hps := Shard.proj_split g1 hsm' ha' p1
        rw [g2, g3] at p2
        simp only [p1] at h
        have := Tree.pot_insert hk hv n _ s.lo s.hi r p2 p3 hsel h
        rw [Tree.pot_vertex, Tree.pot_leaf, Tree.pot_leaf] at this
        rw [Tree.pot_leaf]
        have := hp.2 rfl
        omega
      · have hr : r = (.leaf s', st) := by
          cases st with
          | splitNeeded => exact absurd rfl e
          | _ => simp at h; exact h.symm
        subst hr
        rw [Tree.pot_leaf, Tree.pot_leaf]; exact hp.1
  | n + 1, .vertex b t, lo, hi, r, hok, hsm, hsel, h => by
    cases hok with
    | vertex hle hb ht =>
      rw [Tree.Small.vertex] at hsm
      unfold Tree.insert at h
      rw [hb.hi_eq] at h
      by_cases hlt : (cfg.ph k).shardSel < midOf lo hi
      · rw [if_pos hlt] at h
        cases hx : b.insert cfg (cfg.ph k) k v mode n with
        | ok x =>
          rw [hx] at h
          have := Tree.pot_insert hk hv n b lo _ x hb hsm.1 ⟨hsel.1, hlt⟩ hx
          simp only [Out.bind, Out.ok.injEq] at h
          subst h
          simp only [Tree.pot_vertex]; omega
        | panic => rw [hx] at h; simp [Out.bind] at h
        | diverge => rw [hx] at h; simp [Out.bind] at h
        | deadlock => rw [hx] at h; simp [Out.bind] at h
      · rw [if_neg hlt] at h
        cases hx : t.insert cfg (cfg.ph k) k v mode n with
        | ok x =>
          rw [hx] at h
          have := Tree.pot_insert hk hv n t _ hi x ht hsm.2 ⟨by omega, hsel.2⟩ hx
          simp only [Out.bind, Out.ok.injEq] at h
          subst h
          simp only [Tree.pot_vertex]; omega
        | panic => rw [hx] at h; simp [Out.bind] at h
        | diverge => rw [hx] at h; simp [Out.bind] at h
        | deadlock => rw [hx] at h; simp [Out.bind] at h

theorem Shard.proj_remove {cfg : Cfg} {s : Shard} {k : Bytes} (h : s.Inv cfg) : (s.remove (cfg.ph k) k).1.proj ≤ s.proj := by
  have he := (removePlan_spec (h.active (cfg.ph k).rowSel) (h.val k)).2
  have := Shard.proj_effect (n := 0) h he (by
    cases he' : (s.removePlan (cfg.ph k) k).1 with
    | nil => exact Nat.le_refl _
    | cons a l =>
      have hrl : ∀ is, ∀ g : MFile, (g.run ((s.active (cfg.ph k).rowSel).removeLoop (cfg.ph k).rowSel k is).1).writeOff ≤ g.writeOff := by
        intro is
        induction is with
        | nil => intro g; exact Nat.le_refl _
        | cons i is ih =>
          intro g
          unfold MFile.removeLoop
          dsimp only
          split
          · exact Nat.le_refl _
          · exact ih g
      rw [← he']
      exact hrl _ _)
  exact this

theorem Shard.proj_bg {cfg : Cfg} {s s' : Shard} {ex : Bool} (h : s.Inv cfg) (hsmall : s.Small) (ha : s.AcctInv ex)
    (he : s.bgStep cfg = some s') : s'.proj ≤ s.proj := by
  unfold Shard.bgStep at he
  cases ht : s.tgt with
  | none => rw [ht] at he; simp at he; subst he; exact Nat.le_refl _
  | some t =>
    rw [ht] at he
    simp only at he
    have e1 : s.proj = max s.src.writeOff (t.writeOff + remW kvSize s.src t.compactedUpTo) := by
      unfold Shard.proj; rw [ht]
    by_cases hlt : t.compactedUpTo < NUM_ROWS
    · rw [if_pos hlt] at he
      have hsm := hsmall.2 t ht
      have hst := remW_step kvSize s.src hlt
      obtain ⟨t', h1, h2, h3, h4⟩ := compactRow_spec (first := (t.compactedUpTo == 0)) h.src (h.tgtOK ht) hlt
        (Or.inr (fun c hc => live_eq_none.2 (h.fresh t ht _ c (Nat.le_refl _) hlt hc))) (by omega)
      rw [h1] at he
      simp at he
      subst he
      rw [e1]
      show max s.src.writeOff (t'.writeOff + remW kvSize s.src t'.compactedUpTo) ≤ _
      rw [h3.off, h3.cu]; omega
    · rw [if_neg hlt] at he
      simp at he
      subst he
      rw [e1]
      show t.writeOff ≤ _
      omega

theorem Shard.proj_finish {cfg : Cfg} {s s' : Shard} (h : s.Inv cfg) (hsmall : s.Small)
    (he : s.finish cfg = some s') : s'.proj ≤ s.proj := by
  unfold Shard.finish at he
  cases ht : s.tgt with
  | none => rw [ht] at he; simp at he; subst he; exact Nat.le_refl _
  | some t =>
    rw [ht] at he
    simp only at he
    obtain ⟨t', h1, h2, h3⟩ := compactRows_spec h.src _ t (t.compactedUpTo == 0) rfl (h.tgtOK ht)
      (Or.inr (fun e c hc => live_eq_none.2 (h.fresh t ht _ c (Nat.le_refl _) e hc)))
      (hsmall.2 t ht)
    rw [h1] at he
    simp at he
    subst he
    show t'.writeOff ≤ _
    unfold Shard.proj
    rw [ht, h3.off]
    simp only; omega

theorem Tree.pot_bg {cfg ex lo hi t} (h : Tree.OK cfg ex lo hi t) (hsm : t.Small) (sel : Nat) {t'} (he : t.bgStep cfg sel = some t') :
    t'.pot ≤ t.pot := by
  induction h generalizing t' with
  | @leaf lo hi s hlo hhi hle hinv ha =>
    unfold Tree.bgStep at he
    simp at he
    obtain ⟨s', h1, rfl⟩ := he
    rw [Tree.pot_leaf, Tree.pot_leaf]
    exact Shard.proj_bg hinv (Tree.Small.leaf.1 hsm) ha h1
  | @vertex lo hi b t hle hb ht ih1 ih2 =>
    rw [Tree.Small.vertex] at hsm
    unfold Tree.bgStep at he
    split at he
    · simp at he
      obtain ⟨b', h1, rfl⟩ := he
      have := ih1 hsm.1 h1
      rw [Tree.pot_vertex, Tree.pot_vertex]; omega
    · simp at he
      obtain ⟨b', h1, rfl⟩ := he
      have := ih2 hsm.2 h1
      rw [Tree.pot_vertex, Tree.pot_vertex]; omega

theorem Tree.pot_finishAll {cfg ex lo hi t} (h : Tree.OK cfg ex lo hi t) (hsm : t.Small) {t'} (he : t.finishAll cfg = some t') :
    t'.pot ≤ t.pot := by
  induction h generalizing t' with
  | @leaf lo hi s hlo hhi hle hinv ha =>
    unfold Tree.finishAll at he
    simp at he
    obtain ⟨s', h1, rfl⟩ := he
    rw [Tree.pot_leaf, Tree.pot_leaf]
    exact Shard.proj_finish hinv (Tree.Small.leaf.1 hsm) h1
  | @vertex lo hi b t hle hb ht ih1 ih2 =>
    rw [Tree.Small.vertex] at hsm
    unfold Tree.finishAll at he
    split at he
    · rename_i b' t'' h1 h2
      simp at he; subst he
      have := ih1 hsm.1 h1
      have := ih2 hsm.2 h2
      rw [Tree.pot_vertex, Tree.pot_vertex]; omega
    · simp at he

theorem Tree.pot_remove {cfg ex lo hi t} (h : Tree.OK cfg ex lo hi t) (k : Bytes) : (t.remove cfg k).1.pot ≤ t.pot := by
  induction h with
  | @leaf lo hi s hlo hhi hle hinv ha =>
    show (Tree.leaf _).pot ≤ _
    rw [Tree.pot_leaf, Tree.pot_leaf]
    exact Shard.proj_remove hinv
  | @vertex lo hi b t hle hb ht ih1 ih2 =>
    unfold Tree.remove at *
    simp only [Tree.modify_vertex] at *
    split
    · rw [Tree.pot_vertex, Tree.pot_vertex]; omega
    · rw [Tree.pot_vertex, Tree.pot_vertex]; omega

theorem Tree.small_remove {cfg ex lo hi t} (h : Tree.OK cfg ex lo hi t) (hsm : t.Small) (k : Bytes) : (t.remove cfg k).1.Small := by
  induction h with
  | @leaf lo hi s hlo hhi hle hinv ha =>
    show (Tree.leaf _).Small
    rw [Tree.Small.leaf, Shard.small_iff] at *
    exact Nat.lt_of_le_of_lt (Shard.proj_remove hinv) hsm
  | @vertex lo hi b t hle hb ht ih1 ih2 =>
    rw [Tree.Small.vertex] at hsm
    unfold Tree.remove at *
    simp only [Tree.modify_vertex] at *
    split
    · exact Tree.Small.vertex.2 ⟨ih1 hsm.1, hsm.2⟩
    · exact Tree.Small.vertex.2 ⟨hsm.1, ih2 hsm.2⟩

end Candy
