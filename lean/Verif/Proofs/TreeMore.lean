import Verif.Proofs.Pairs
import Verif.Proofs.Term
import Verif.Proofs.Budget
/-!
# More about the shard tree: splits and background steps as seen by the list of pairs, crowded rows, consolidation
-/
namespace Candy
open Spec

/-- A background step does not change the list of pairs, not even its order. -/
theorem Tree.bgStep_pairs {cfg ex lo hi t} (h : Tree.OK cfg ex lo hi t) (hsm : t.Small) (sel : Nat) {t' : Tree} (e : t.bgStep cfg sel = some t') :
    t'.pairs = t.pairs ∧ t'.leaves.map (fun s => (s.lo, s.hi)) = t.leaves.map (fun s => (s.lo, s.hi)) := by
  induction h generalizing t' with
  | @leaf lo hi s hlo hhi hle hinv ha =>
    rw [Tree.Small.leaf] at hsm
    obtain ⟨s', h1, _, h3, h4, _, _, _, h8⟩ := s.bgStep_spec hinv hsm ha
    unfold Tree.bgStep at e
    rw [h1] at e
    simp only [Option.map_some, Option.some.injEq] at e
    subst e
    constructor
    · unfold Tree.pairs
      rw [Tree.leaves_leaf, Tree.leaves_leaf]
      simp only [List.flatMap_cons, List.flatMap_nil, List.append_nil]
      unfold Shard.pairs
      rw [List.flatMap_def, List.flatMap_def]
      exact congrArg List.flatten (List.map_congr_left (fun r hr => h8 r (List.mem_range.1 hr)))
    · simp [Tree.leaves_leaf, h3, h4]
  | @vertex lo hi b t hle hb ht ih1 ih2 =>
    rw [Tree.Small.vertex] at hsm
    unfold Tree.bgStep at e
    split at e
    · cases hb' : b.bgStep cfg sel with
      | none => rw [hb'] at e; cases e
      | some b' =>
        rw [hb'] at e
        simp only [Option.map_some, Option.some.injEq] at e
        subst e
        obtain ⟨g1, g2⟩ := ih1 hsm.1 hb'
        unfold Tree.pairs at g1 ⊢
        simp only [Tree.leaves_vertex, List.flatMap_append, List.map_append, g1, g2, and_self]
    · cases ht' : t.bgStep cfg sel with
      | none => rw [ht'] at e; cases e
      | some t' =>
        rw [ht'] at e
        simp only [Option.map_some, Option.some.injEq] at e
        subst e
        obtain ⟨g1, g2⟩ := ih2 hsm.2 ht'
        unfold Tree.pairs at g1 ⊢
        simp only [Tree.leaves_vertex, List.flatMap_append, List.map_append, g1, g2, and_self]

/-- Splitting a shard: the two halves together hold the same pairs. -/
theorem Shard.split_pairs {cfg : Cfg} {s : Shard} {ex : Bool} (h : s.Inv cfg) (hsmall : s.Small) (ha : s.AcctInv ex) (hle : s.lo ≤ s.hi) :
    ∃ b t, s.split cfg = some (b, t) ∧ b.lo = s.lo ∧ b.hi = midOf s.lo s.hi ∧ t.lo = midOf s.lo s.hi ∧ t.hi = s.hi ∧
      b.Inv cfg ∧ t.Inv cfg ∧ (b.pairs ++ t.pairs).Perm s.pairs := by
  obtain ⟨b, t, h1, h2, _, h4⟩ := s.split_tree h hsmall ha hle
  obtain ⟨bf, tf, g1, g2, g3, _⟩ := s.split_spec h hsmall ha
  rw [h1] at g1
  simp only [Option.some.injEq, Prod.mk.injEq] at g1
  obtain ⟨rfl, rfl⟩ := g1
  refine ⟨_, _, h1, rfl, rfl, rfl, rfl, quiet_inv g2, quiet_inv g3, ?_⟩
  have hd := h2.pairs_distinct
  have hp : ∀ b t : Shard, (Tree.vertex (.leaf b) (.leaf t)).pairs = b.pairs ++ t.pairs := by
    intro b t; simp [Tree.pairs, Tree.leaves_vertex, Tree.leaves_leaf]
  rw [hp] at hd
  refine distinct_perm hd (Shard.pairs_distinct h) (fun kv => ?_)
  obtain ⟨k, v⟩ := kv
  rw [List.mem_append, Shard.mem_pairs (quiet_inv g2), Shard.mem_pairs (quiet_inv g3), Shard.mem_pairs h]
  by_cases hk : inSpan s.lo s.hi (cfg.ph k).shardSel
  · have e1 := h2.get_iff hk (v := v)
    rw [h4 k hk] at e1
    rw [e1]
    simp [Tree.leaves_vertex, Tree.leaves_leaf]
  · have hm := midOf_bounds hle
    constructor
    · rintro (hv | hv)
      · have := (quiet_inv g2).val_span hv
        exact absurd ⟨this.1, Nat.lt_of_lt_of_le this.2 hm.2⟩ hk
      · have := (quiet_inv g3).val_span hv
        exact absurd ⟨Nat.le_trans hm.1 this.1, this.2⟩ hk
    · intro hv
      exact absurd (h.val_span hv) hk

/-- A row of a shard holds at most 512 pairs. -/
theorem row_capacity {cfg ex t} (h : Tree.OK cfg ex 0 END_OF_SHARDS t) (sel row : Nat) (L : List KV) (hL : DistinctKeys L)
    (hin : ∀ kv ∈ L, t.get cfg kv.1 = some kv.2 ∧ (cfg.ph kv.1).shardSel = sel ∧ (cfg.ph kv.1).rowSel = row) : L.length ≤ ROW_WIDTH := by
  cases L with
  | nil => exact Nat.zero_le _
  | cons a L =>
    have ha := hin a (by simp)
    obtain ⟨_, h2, _, _⟩ := h.find (inSpan_full (cfg.ph a.1))
    rw [ha.2.1] at h2
    have hsub : ∀ kv ∈ a :: L, kv ∈ ((t.find sel).active row).liveRow row := by
      intro kv hkv
      obtain ⟨h3, h4, h5⟩ := hin kv hkv
      have : (kv.1, kv.2) ∈ ((t.find sel).active (cfg.ph kv.1).rowSel).liveRow (cfg.ph kv.1).rowSel := by
        rw [h2.mem_row]
        unfold Tree.get at h3
        rw [h4] at h3
        exact h3
      rw [h5] at this
      exact this
    have hlen : (((t.find sel).active row).liveRow row).length ≤ ROW_WIDTH := by
      unfold MFile.liveRow
      exact Nat.le_trans (List.length_filterMap_le _ _) (by simp)
    have hnd : (a :: L).Nodup := hL.imp (fun h e => h (congrArg Prod.fst e))
    exact Nat.le_trans (List.Nodup.length_le_of_subset hnd hsub) hlen

/-- Inserting a new key into a row of which 512 keys already have the same selector never ends. -/
theorem crowded_diverges {cfg ex t} (h : Tree.OK cfg ex 0 END_OF_SHARDS t) (hsm : t.Small) {k v : Bytes} {mode : Mode} (hk : k.length < 65536)
    (hv : v.length < 65536) (habs : t.get cfg k = none) (hm : ∀ e, mode ≠ .replace e) (L : List KV) (hL : DistinctKeys L)
    (hin : ∀ kv ∈ L, t.get cfg kv.1 = some kv.2 ∧ (cfg.ph kv.1).shardSel = (cfg.ph k).shardSel ∧ (cfg.ph kv.1).rowSel = (cfg.ph k).rowSel)
    (hlen : ROW_WIDTH ≤ L.length) (n : Nat) : t.insert cfg (cfg.ph k) k v mode n = .diverge := by
  rcases Tree.insert_spec (mode := mode) hk hv n t 0 END_OF_SHARDS h hsm (inSpan_full _) with h1 | ⟨t', h1, h2, h3⟩
  · exact h1
  · exfalso
    have hnew : (insertAt (t.get cfg k) v mode).1 = some v := by
      rw [habs]
      cases mode with
      | set => rfl
      | getOrCreate => rfl
      | replace e => exact absurd rfl (hm e)
    have := row_capacity h2 (cfg.ph k).shardSel (cfg.ph k).rowSel ((k, v) :: L) ?_ ?_
    · simp at this; omega
    · refine List.pairwise_cons.2 ⟨?_, hL⟩
      intro kv hkv e
      have := (hin kv hkv).1
      simp only at e
      rw [← e, habs] at this
      cases this
    · intro kv hkv
      rcases List.mem_cons.1 hkv with rfl | hkv
      · refine ⟨?_, rfl, rfl⟩
        rw [h3 _ (inSpan_full _), hnew, Map.upd_same]
      · obtain ⟨a, b, c⟩ := hin kv hkv
        refine ⟨?_, b, c⟩
        rw [h3 _ (inSpan_full _), Map.upd_other, a]
        intro e
        rw [e, habs] at a
        cases a

end Candy

namespace Candy
open Spec

/-- With at most one shard to remove, `_merge` never waits for itself. -/
theorem mergeRec_one (cfg : Cfg) (mf : Nat) : ∀ t : Tree, t.mergeRec cfg mf 1 ≠ .deadlock ∧
    ∀ r, t.mergeRec cfg mf 1 = .ok r → r.remaining ≤ 1 ∧ (r.merged ≠ none → r.remaining = 0)
  | .leaf s => ⟨by simp [Tree.mergeRec], fun r h => by unfold Tree.mergeRec at h; cases h; exact ⟨Nat.le_refl _, fun h => absurd rfl h⟩⟩
  | .vertex b t => by
    have hl : ∀ x y : Shard, mergeLeaves cfg mf x y 1 ≠ .deadlock ∧
        ∀ r, mergeLeaves cfg mf x y 1 = .ok r → r.remaining ≤ 1 ∧ (r.merged ≠ none → r.remaining = 0) := by
      intro x y
      unfold mergeLeaves
      split
      · exact ⟨by simp, fun r h => by cases h; exact ⟨Nat.le_refl _, fun h => absurd rfl h⟩⟩
      · split
        · exact ⟨by simp, fun r h => by cases h; exact ⟨Nat.le_refl _, fun h => absurd rfl h⟩⟩
        · split
          · exact ⟨by simp, fun r h => by cases h⟩
          · exact ⟨by simp, fun r h => by cases h; exact ⟨Nat.le_refl _, fun h => absurd rfl h⟩⟩
          · exact ⟨by simp, fun r h => by cases h; exact ⟨Nat.zero_le _, fun _ => rfl⟩⟩
    have h0 : ∀ u : Tree, ∃ l, u.mergeRec cfg mf 0 = .ok ⟨l, none, 0⟩ := by
      intro u; cases u <;> exact ⟨_, rfl⟩
    obtain ⟨ib1, ib2⟩ := mergeRec_one cfg mf b
    obtain ⟨it1, it2⟩ := mergeRec_one cfg mf t
    unfold Tree.mergeRec
    cases hb : b.isLeaf with
    | some sb =>
      cases ht : t.isLeaf with
      | some st => exact hl sb st
      | none =>
        dsimp only
        cases hr : t.mergeRec cfg mf 1 with
        | panic => exact ⟨by simp [Out.bind], fun r h => by simp [Out.bind] at h⟩
        | diverge => exact ⟨by simp [Out.bind], fun r h => by simp [Out.bind] at h⟩
        | deadlock => exact absurd hr it1
        | ok r =>
          obtain ⟨g1, g2⟩ := it2 r hr
          obtain ⟨sh, m, rem⟩ := r
          cases m with
          | none => exact ⟨by simp [Out.bind], fun r h => by simp [Out.bind] at h; subst h; exact ⟨g1, fun h => absurd rfl h⟩⟩
          | some m =>
            have : rem = 0 := g2 (by simp)
            subst this
            exact ⟨by simp [Out.bind], fun r h => by simp [Out.bind] at h; subst h; exact ⟨Nat.zero_le _, fun _ => rfl⟩⟩
    | none =>
      cases ht : t.isLeaf with
      | some st =>
        dsimp only
        cases hr : b.mergeRec cfg mf 1 with
        | panic => exact ⟨by simp [Out.bind], fun r h => by simp [Out.bind] at h⟩
        | diverge => exact ⟨by simp [Out.bind], fun r h => by simp [Out.bind] at h⟩
        | deadlock => exact absurd hr ib1
        | ok r =>
          obtain ⟨g1, g2⟩ := ib2 r hr
          obtain ⟨sh, m, rem⟩ := r
          cases m with
          | none => exact ⟨by simp [Out.bind], fun r h => by simp [Out.bind] at h; subst h; exact ⟨g1, fun h => absurd rfl h⟩⟩
          | some m =>
            have : rem = 0 := g2 (by simp)
            subst this
            exact ⟨by simp [Out.bind], fun r h => by simp [Out.bind] at h; subst h; exact ⟨Nat.zero_le _, fun _ => rfl⟩⟩
      | none =>
        dsimp only
        cases hr : b.mergeRec cfg mf 1 with
        | panic => exact ⟨by simp [Out.bind], fun r h => by simp [Out.bind] at h⟩
        | diverge => exact ⟨by simp [Out.bind], fun r h => by simp [Out.bind] at h⟩
        | deadlock => exact absurd hr ib1
        | ok r =>
          obtain ⟨g1, g2⟩ := ib2 r hr
          obtain ⟨sh, m, rem⟩ := r
          have hcase : rem = 0 ∨ rem = 1 := by simp only at g1; omega
          rcases hcase with rfl | rfl
          · obtain ⟨l, hl0⟩ := h0 t
            dsimp only [Out.bind]
            rw [hl0]
            dsimp only [Out.bind]
            cases m <;> exact ⟨by simp, fun r h => by simp at h; subst h; exact ⟨Nat.zero_le _, fun _ => rfl⟩⟩
          · have hm : m = none := by
              cases m with
              | none => rfl
              | some m => exact absurd (g2 (by simp)) (by simp)
            subst hm
            dsimp only [Out.bind]
            cases hr2 : t.mergeRec cfg mf 1 with
            | panic => exact ⟨by simp, fun r h => by simp at h⟩
            | diverge => exact ⟨by simp, fun r h => by simp at h⟩
            | deadlock => exact absurd hr2 it1
            | ok r2 =>
              obtain ⟨k1, k2⟩ := it2 r2 hr2
              obtain ⟨sh2, m2, rem2⟩ := r2
              dsimp only
              cases m2 with
              | none => exact ⟨by simp, fun r h => by simp at h; subst h; exact ⟨k1, fun h => absurd rfl h⟩⟩
              | some m2 =>
                have : rem2 = 0 := k2 (by simp)
                subst this
                exact ⟨by simp, fun r h => by simp at h; subst h; exact ⟨Nat.zero_le _, fun _ => rfl⟩⟩

/-- The step of the initial shards is small enough for the expected number of keys. -/
theorem calcStep_cap {n : Nat} (h : n ≤ 65536 * 29491) : ∃ j, j ≤ 16 ∧ calcStep n = some (2 ^ j) ∧ n ≤ 29491 * 2 ^ (16 - j) := by
  unfold calcStep
  dsimp only
  split
  · refine ⟨16, Nat.le_refl _, ?_, ?_⟩
    · rw [if_neg (by decide)]; decide
    · simpa using ‹n ≤ EXPECTED_CAPACITY›
  · rename_i hlt
    have hpos : 0 < n := by omega
    have hne : END_OF_SHARDS * EXPECTED_CAPACITY / n ≠ 0 := by
      have : 1 ≤ 65536 * 29491 / n := (Nat.le_div_iff_mul_le hpos).2 (by omega)
      show 65536 * 29491 / n ≠ 0
      exact Nat.pos_iff_ne_zero.1 this
    rw [if_neg hne]
    have h16 : Nat.log2 (END_OF_SHARDS * EXPECTED_CAPACITY / n) ≤ 16 := by
      refine log2_le_16 hne ?_
      apply Nat.div_le_of_le_mul
      have : EXPECTED_CAPACITY ≤ n := by omega
      rw [Nat.mul_comm]
      exact Nat.mul_le_mul_right _ this
    refine ⟨_, h16, rfl, ?_⟩
    generalize hj : Nat.log2 (END_OF_SHARDS * EXPECTED_CAPACITY / n) = j at h16 ⊢
    have h1 : 2 ^ j ≤ END_OF_SHARDS * EXPECTED_CAPACITY / n := by rw [← hj]; exact Nat.log2_self_le hne
    have h2 : 2 ^ j * n ≤ 65536 * 29491 := Nat.le_trans (Nat.mul_le_mul_right n h1) (Nat.div_mul_le_self _ _)
    have h3 : (65536 : Nat) = 2 ^ j * 2 ^ (16 - j) := by rw [← Nat.pow_add, Nat.add_sub_cancel' h16]
    rw [h3, Nat.mul_assoc] at h2
    have := Nat.le_of_mul_le_mul_left h2 (Nat.two_pow_pos j)
    rw [Nat.mul_comm]; exact this

theorem initialSpans_eq {j : Nat} (hj : j ≤ 16) : ∀ (m i n : Nat), i + m = 2 ^ (16 - j) → m ≤ n →
    initialSpans (2 ^ j) n (i * 2 ^ j) = (List.range' i m).map (fun i => (i * 2 ^ j, (i + 1) * 2 ^ j))
  | 0, i, n, h, _ => by
    have e : i * 2 ^ j = END_OF_SHARDS := by
      have : i = 2 ^ (16 - j) := by omega
      rw [this, ← Nat.pow_add, Nat.sub_add_cancel hj]
    cases n with
    | zero => rfl
    | succ n => unfold initialSpans; rw [e, if_neg (by omega)]; rfl
  | m + 1, i, 0, _, h => by omega
  | m + 1, i, n + 1, h, hm => by
    have h65 : END_OF_SHARDS = 2 ^ (16 - j) * 2 ^ j := by rw [← Nat.pow_add, Nat.sub_add_cancel hj]
    have hlt : i * 2 ^ j < END_OF_SHARDS := by
      rw [h65]; exact Nat.mul_lt_mul_of_pos_right (by omega) (Nat.two_pow_pos j)
    unfold initialSpans
    rw [if_pos hlt]
    have e : i * 2 ^ j + 2 ^ j = (i + 1) * 2 ^ j := by rw [Nat.add_mul, Nat.one_mul]
    rw [e, initialSpans_eq hj m (i + 1) n (by omega) (by omega)]
    rfl

end Candy
