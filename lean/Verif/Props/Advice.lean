import Verif.Model.Advice
import Verif.Props.Iter
import Verif.Props.Tree
import Verif.Props.Create
/-!
# C85: the advice of `stats()`
-/
namespace Candy.Props
open Candy.Spec

/-- `r` is the smallest power of two such that `r` shards have room for `n` pairs (29491 = 90 % of the 64 * 512 slots of a shard). -/
def EnoughShards (n r : Nat) : Prop := ∃ j, r = 2 ^ j ∧ n ≤ 29491 * 2 ^ j ∧ ∀ i, i < j → 29491 * 2 ^ i < n

theorem calcStep_max {n j : Nat} (h : calcStep n = some (2 ^ j)) (hj : j < 16) : 29491 * 2 ^ (15 - j) < n := by
  unfold calcStep at h
  dsimp only at h
  split at h
  · rw [if_neg (by decide)] at h
    simp only [Option.some.injEq] at h
    have e : Nat.log2 END_OF_SHARDS = 16 := by decide
    rw [e] at h
    have := (Nat.pow_right_inj (show 1 < 2 by decide)).1 h
    omega
  · rename_i hlt
    split at h
    · cases h
    · rename_i hne
      simp only [Option.some.injEq] at h
      have hjj := (Nat.pow_right_inj (show 1 < 2 by decide)).1 h
      have hl : END_OF_SHARDS * EXPECTED_CAPACITY / n < 2 ^ (j + 1) := by
        rw [← hjj]; exact Nat.lt_log2_self
      have hpos : 0 < n := by omega
      have h2 := (Nat.div_lt_iff_lt_mul hpos).1 hl
      have h3 : END_OF_SHARDS = 2 ^ (j + 1) * 2 ^ (15 - j) := by
        rw [← Nat.pow_add, show j + 1 + (15 - j) = 16 by omega]
      rw [h3, Nat.mul_assoc] at h2
      have := Nat.lt_of_mul_lt_mul_left h2
      rw [Nat.mul_comm]; exact this

theorem required_enough {n : Nat} (h : n ≤ 65536 * 29491) : ∃ r, calcNumShards n = some r ∧ EnoughShards n r := by
  obtain ⟨j, hj, h1, h2⟩ := calcStep_cap h
  refine ⟨2 ^ (16 - j), ?_, 16 - j, rfl, h2, fun i hi => ?_⟩
  · unfold calcNumShards
    rw [h1, Option.map_some, show END_OF_SHARDS = 2 ^ 16 by rfl, Nat.pow_div hj (by decide)]
  · have := calcStep_max h1 (by omega)
    refine Nat.lt_of_le_of_lt (Nat.mul_le_mul_left _ (Nat.pow_le_pow_right (by decide) (by omega))) this

theorem EnoughShards.mono {n m r q : Nat} (h : n ≤ m) (hr : EnoughShards n r) (hq : EnoughShards m q) : r ≤ q := by
  obtain ⟨j, rfl, _, j3⟩ := hr
  obtain ⟨i, rfl, i2, _⟩ := hq
  refine Nat.pow_le_pow_right (by decide) ?_
  rcases Nat.lt_or_ge i j with hl | hl
  · exact absurd (Nat.lt_of_lt_of_le (j3 i hl) h) (Nat.not_lt.2 i2)
  · exact hl

/-- **C85.** In every reachable store whose process has not crashed since its creation or last `clear`, with at most 65536 * 29491 pairs: `required_num_shards()` is the
smallest power of two of shards with room for the stored pairs, `should_merge_small_shards()` says whether there are more than twice as many, and
`average_entry_size()` is the mean size of the stored pairs rounded down (0 for an empty store); no subtraction underflows. `L` is any list of the stored pairs without repetition. -/
theorem C85_advice {cfg : Cfg} {es : List Event} {t : Tree} {L : List KV} (h : Reachable cfg es t) (hx : exactAfter true es = true) (hsm : t.Small)
    (hL : L.Pairwise (fun a b => a.1 ≠ b.1)) (hmem : ∀ k v, (k, v) ∈ L ↔ t.get cfg k = some v) (hcap : L.length ≤ 65536 * 29491) :
    ∃ t' st r, t.stats cfg = some (t', st) ∧ st.numRemovals ≤ st.numInserts ∧ st.wasted ≤ st.occupied ∧
      st.requiredNumShards = some r ∧ EnoughShards L.length r ∧ st.shouldMerge = some (decide (t.leaves.length > 2 * r)) ∧
      (L = [] → st.averageEntrySize = 0) ∧ (L ≠ [] → st.averageEntrySize = totalBytes L / L.length) := by
  obtain ⟨t', st, h1, _, h3, h4, h5, h6⟩ := C20_stats_exact h hx hsm
  obtain ⟨e1, e2⟩ := h6 L hL hmem
  obtain ⟨r, r1, r2⟩ := required_enough hcap
  have hr : st.requiredNumShards = some r := by unfold Stats.requiredNumShards; rw [e1, r1]
  refine ⟨t', st, r, h1, h3, h4, hr, r2, ?_, fun hl => ?_, fun hl => ?_⟩
  · unfold Stats.shouldMerge
    rw [hr, Option.map_some, h5, Nat.mul_comm r 2]
  · unfold Stats.averageEntrySize; rw [e1, hl]; rfl
  · unfold Stats.averageEntrySize
    rw [e1, e2, if_neg (by rw [List.length_eq_zero_iff]; exact hl)]

/-- **C85**, merging: when `merge_small_shards` has merged shards, at least as many are left as `required_num_shards()` now asks for, and as many as the expected
number of keys needs. -/
theorem C85_merge_leaves_enough {cfg : Cfg} {es : List Event} {t t' : Tree} {mf : Nat} {L : List KV} (h : Reachable cfg es t) (hx : exactAfter true es = true) (hsm : t.Small)
    (hspans : ∀ s ∈ t.leaves, s.lo < s.hi) (hmf : mf ≤ 14745) (hL : L.Pairwise (fun a b => a.1 ≠ b.1)) (hmem : ∀ k v, (k, v) ∈ L ↔ t.get cfg k = some v)
    (hcap : L.length ≤ 65536 * 29491) (hm : t.mergeSmall cfg mf = .ok (t', true)) :
    ∃ t'' st r e, t'.stats cfg = some (t'', st) ∧ st.requiredNumShards = some r ∧ r ≤ st.numShards ∧ EnoughShards cfg.expectedKeys e ∧ e ≤ st.numShards := by
  obtain ⟨w, _, hs, _⟩ := h.worldEx
  rw [hx] at hs
  obtain ⟨v, v1, v2, v3, v4, v5, v6⟩ := Tree.finishAll_spec hs.ok hsm
  have hvp : v.pairs.Perm L := distinct_perm v2.pairs_distinct hL (fun kv => by
    rw [v2.mem_pairs, v6 _ (inSpan_full _)]; exact (hmem kv.1 kv.2).symm)
  have hsum := sumItems v.leaves (fun s hm => ⟨v4 s hm, (v2.leaf_inv s hm).2⟩)
  have hlen : (v.leaves.map (fun s => s.getStats.numItems)).sum = L.length := hsum.trans hvp.length_eq
  have hcap' : ∀ u, t.finishAll cfg = some u → (u.leaves.map (fun s => s.getStats.numItems)).sum ≤ 65536 * 29491 := fun u hu => by
    rw [v1] at hu
    simp only [Option.some.injEq] at hu
    rw [← hu, hlen]; exact hcap
  rcases Tree.mergeSmall_spec hs.ok hspans hsm (Or.inl ⟨rfl, hmf⟩) hcap' hs.bound (hs.ok.counted hsm) with hd | ⟨u, b', e1, o1, o2, o3, _, _, e2, e5, e3, e4⟩
  · rw [hd] at hm; cases hm
  · rw [e1] at hm
    simp only [Out.ok.injEq, Prod.mk.injEq] at hm
    obtain ⟨rfl, rfl⟩ := hm
    obtain ⟨needed, n1, n2⟩ := e4 (e3.1 rfl) v v1
    rw [hlen] at n1
    obtain ⟨t'', st, s1, _, _, _, s5, s6⟩ := stats_of_sane ⟨hs.bound, o1⟩ o3
    obtain ⟨c1, _⟩ := s6 L hL (fun k v => by rw [hmem, e5])
    obtain ⟨r, r1, r2⟩ := required_enough hcap
    obtain ⟨e, x1, x2⟩ := required_enough hs.bound
    obtain ⟨nd, y1, y2⟩ := required_enough (Nat.max_le.2 ⟨hcap, hs.bound⟩)
    have : nd = needed := by rw [show max L.length cfg.expectedKeys = Nat.max L.length cfg.expectedKeys from rfl, n1] at y1; exact (Option.some.inj y1).symm
    subst this
    refine ⟨t'', st, r, e, s1, by unfold Stats.requiredNumShards; rw [c1, r1], ?_, x2, ?_⟩
    · rw [s5]; exact Nat.le_trans (EnoughShards.mono (Nat.le_max_left _ _) r2 y2) n2
    · rw [s5]; exact Nat.le_trans (EnoughShards.mono (Nat.le_max_right _ _) x2 y2) n2

/-- Not vacuous: one pair of 3 bytes. -/
example : ∃ es t t' st, Reachable demoCfg es t ∧ t.stats demoCfg = some (t', st) ∧ st.requiredNumShards = some 1 ∧ st.averageEntrySize = 3 := by
  obtain ⟨es, t, h, _, m, ht, hm⟩ := demo_ab
  have hsm : t.Small := Tree.small_of_pot (Nat.lt_of_le_of_lt ht.pot (by decide))
  obtain ⟨t', st, r, h1, _, _, h2, h3, _, _, h4⟩ := C85_advice (L := [(userKey [97], [98])]) h ht.exact hsm (by simp) (fun k v => by
    rw [ht.get, hm, List.mem_singleton, Prod.mk.injEq]
    by_cases e : k = userKey [97]
    · subst e; rw [Map.upd_same]; simp [eq_comm]
    · rw [Map.upd_other _ _ e]; simp [e, Map.empty]) (by decide)
  have hr1 : r = 1 := by
    obtain ⟨i, i1, _, i3⟩ := h3
    cases i with
    | zero => exact i1
    | succ i => exact absurd (i3 i (Nat.lt_succ_self i)) (by rw [List.length_singleton]; have := Nat.two_pow_pos i; omega)
  exact ⟨es, t, t', st, h, h1, by rw [h2, hr1], h4 (by simp)⟩

/-- A store that is split into two shards, which are then merged: at most 8 bytes per shard; keys beginning with `a` in the lower half, others in the upper half. -/
def adviceCfg : Cfg :=
  { hash := fun k => ⟨if k.head? = some 97 then 0#64 else 0x8000000000000000#64, 0#64⟩, maxShardSize := 8, minCompaction := 1000, expectedKeys := 0, maxListOps := 16 }

set_option maxRecDepth 100000 in
theorem advice_run : checkT adviceCfg [.call (.kv [97] (.set [1, 2, 3])), .call (.kv [98] (.set [4, 5, 6]))]
    (fun t => decide (t.leaves.map (fun s => (s.lo, s.hi)) = [(0, 32768), (32768, 65536)]) &&
      (match t.mergeSmall adviceCfg 14745 with | .ok (_, b) => b | _ => false)) = true := by decide +kernel

/-- Not vacuous: two shards are merged into one. -/
example : ∃ es t t', Reachable adviceCfg es t ∧ t.mergeSmall adviceCfg 14745 = .ok (t', true) ∧ ∀ s ∈ t.leaves, s.lo < s.hi := by
  obtain ⟨es, t, h1, h2⟩ := checkT_sound advice_run
  simp only [Bool.and_eq_true, decide_eq_true_eq] at h2
  obtain ⟨h2, h3⟩ := h2
  have hs : ∀ s ∈ t.leaves, s.lo < s.hi := fun s hm => by
    have : (s.lo, s.hi) ∈ t.leaves.map (fun s => (s.lo, s.hi)) := List.mem_map.2 ⟨s, hm, rfl⟩
    rw [h2] at this
    simp only [List.mem_cons, List.not_mem_nil, or_false, Prod.mk.injEq] at this
    omega
  cases hm : t.mergeSmall adviceCfg 14745 with
  | ok a =>
    rw [hm] at h3
    obtain ⟨t', b⟩ := a
    cases h3
    exact ⟨es, t, t', h1, hm, hs⟩
  | deadlock => rw [hm] at h3; cases h3
  | panic => rw [hm] at h3; cases h3
  | diverge => rw [hm] at h3; cases h3

theorem initialSpans_four : initialSpans (2 ^ 14) END_OF_SHARDS 0 = [(0, 0x4000), (0x4000, 0x8000), (0x8000, 0xc000), (0xc000, 0x10000)] := by
  show initialSpans 0x4000 (65531 + 1 + 1 + 1 + 1 + 1) 0 = _
  rw [initialSpans, if_pos (by decide), initialSpans, if_pos (by decide), initialSpans, if_pos (by decide), initialSpans, if_pos (by decide),
    initialSpans, if_neg (by decide)]

/-- **The advice is wrong** for a store created with an expected number of keys: `should_merge_small_shards()` is true for a new, empty store with 100000 expected keys
(it ignores them: src/stats.rs:59-64), and `merge_small_shards` does nothing, with every fill level. -/
theorem C85_refuted_advice : ∃ (cfg : Cfg) (t t' : Tree) (st : Stats), cfg.expectedKeys = 100000 ∧ Reachable cfg [] t ∧ t.stats cfg = some (t', st) ∧ st.shouldMerge = some true ∧
    ∀ mf, ∃ t'', t.mergeSmall cfg mf = .ok (t'', false) ∧ t''.leaves.length = t.leaves.length := by
  have hb : fourCfg.expectedKeys ≤ 65536 * 29491 := by decide
  obtain ⟨t, j, h1, h2, hj, h4, h5, h6⟩ := C49_presplit_partial hb
  obtain ⟨t0, g1, g2, g3, g4, g5, _⟩ := Tree.create_spec hb true
  rw [h1] at g1
  simp only [Option.some.injEq] at g1
  subst g1
  obtain ⟨t', st, r, s1, _, _, s4, s5, s6, _⟩ := C85_advice (L := []) h2 rfl g4 List.Pairwise.nil (fun k v => by rw [h6]; simp) (by decide)
  have hlen4 : t.leaves.length = 2 ^ (16 - j) := by
    have := congrArg List.length h4
    simpa using this
  have hj4 : 2 ≤ 16 - j := by
    rcases Nat.lt_or_ge (16 - j) 2 with hl | hl
    · exfalso
      have : 2 ^ (16 - j) ≤ 2 ^ 1 := Nat.pow_le_pow_right (by decide) (by omega)
      have h7 : (100000 : Nat) ≤ 29491 * 2 ^ (16 - j) := h5
      omega
    · exact hl
  have hr1 : r = 1 := by
    obtain ⟨i, i1, _, i3⟩ := s5
    cases i with
    | zero => exact i1
    | succ i => exact absurd (i3 i (Nat.lt_succ_self i)) (by simp)
  have hge : 2 ^ 2 ≤ t.leaves.length := by rw [hlen4]; exact Nat.pow_le_pow_right (by decide) hj4
  refine ⟨fourCfg, t, t', st, rfl, h2, s1, ?_, fun mf => ?_⟩
  · rw [s6, hr1]; simp only [Option.some.injEq, decide_eq_true_eq]; omega
  · obtain ⟨v, v1, v2, v3, v4, v5, v6⟩ := Tree.finishAll_spec g2 g4
    have hvl : v.leaves.length = t.leaves.length := by
      have := congrArg List.length v5
      simpa using this
    have hit : v.leaves.any (fun s => s.getStats.underflow) = false := g2.counted g4 v v1
    have hsum := sumItems v.leaves (fun s hm => ⟨v4 s hm, (v2.leaf_inv s hm).2⟩)
    have hnil : v.leaves.flatMap Shard.pairs = [] := List.eq_nil_iff_forall_not_mem.2 fun kv hkv => by
      have := (v2.mem_pairs (kv := kv)).1 hkv
      rw [v6 _ (inSpan_full _), h6] at this
      cases this
    rw [hnil] at hsum
    have h4le : t.leaves.length ≤ 4 := by
      have htile := initialSpans_tiling (cfg := fourCfg) (ex := true) (j := 14) (by decide) END_OF_SHARDS 0 (Nat.dvd_zero _) (by decide) (by decide)
      obtain ⟨u, e1, _, _, e4⟩ := treeify_spec htile
      have e0 : calcStep fourCfg.expectedKeys = some (2 ^ 14) := by decide
      have : Tree.create fourCfg = some u := by
        unfold Tree.create createInitialShards
        rw [e0]
        exact e1
      rw [h1] at this
      simp only [Option.some.injEq] at this
      rw [this, e4, initialSpans_four]
      exact Nat.le_refl 4
    have hn : calcNumShards (Nat.max (v.leaves.map (fun s => s.getStats.numItems)).sum fourCfg.expectedKeys) = some 4 := by
      rw [hsum]; decide
    refine ⟨v, ?_, hvl⟩
    unfold Tree.mergeSmall
    rw [v1]
    dsimp only
    rw [hit, if_neg (by simp), hn]
    dsimp only
    rw [if_pos (by omega)]

end Candy.Props
