import Verif.Model.Iter
import Verif.Proofs.Calls
import Verif.Proofs.Pot
/-!
# The stored pairs of a tree, its chain of spans, statistics
-/
namespace Candy
open Spec

/-- All pairs stored in a shard, in table order. -/
def Shard.pairs (s : Shard) : List KV := (List.range NUM_ROWS).flatMap (fun r => (s.active r).liveRow r)

/-- All pairs stored in the tree's files, shard by shard. -/
def Tree.pairs (t : Tree) : List KV := t.leaves.flatMap Shard.pairs

/-- The shards are adjacent: each begins where the previous one ends. -/
inductive Chain : Nat → Nat → List Shard → Prop
  | nil (lo : Nat) : Chain lo lo []
  | cons {lo hi : Nat} {s : Shard} {l : List Shard} (hlo : s.lo = lo) (hle : s.lo ≤ s.hi) (h : Chain s.hi hi l) : Chain lo hi (s :: l)

theorem Chain.append {lo mid hi l l'} (h : Chain lo mid l) (h' : Chain mid hi l') : Chain lo hi (l ++ l') := by
  induction h with
  | nil => exact h'
  | cons a b _ ih => exact .cons a b (ih h')

theorem Chain.le {lo hi l} (h : Chain lo hi l) : lo ≤ hi := by
  induction h with
  | nil => exact Nat.le_refl _
  | cons a b _ ih => omega

theorem Chain.ge {lo hi l} (h : Chain lo hi l) : ∀ s ∈ l, lo ≤ s.lo ∧ s.lo ≤ s.hi ∧ s.hi ≤ hi := by
  induction h with
  | nil => simp
  | cons a b h ih =>
    intro s hs
    rcases List.mem_cons.1 hs with rfl | hs
    · exact ⟨by omega, b, h.le⟩
    · have := ih s hs; omega

theorem Tree.OK.chain {cfg ex lo hi t} (h : Tree.OK cfg ex lo hi t) : Chain lo hi t.leaves := by
  induction h with
  | leaf hlo hhi hle _ _ =>
    subst hlo hhi
    exact .cons rfl hle (.nil _)
  | vertex _ _ _ ih1 ih2 => exact ih1.append ih2

theorem Tree.OK.leaf_inv {cfg ex lo hi t} (h : Tree.OK cfg ex lo hi t) : ∀ s ∈ t.leaves, s.Inv cfg ∧ s.AcctInv ex := by
  induction h with
  | leaf _ _ _ a b => intro s hs; rw [Tree.leaves_leaf, List.mem_singleton] at hs; subst hs; exact ⟨a, b⟩
  | vertex _ _ _ ih1 ih2 =>
    intro s hs
    rcases List.mem_append.1 hs with hs | hs
    · exact ih1 s hs
    · exact ih2 s hs

/-- Exact counters do not underflow. -/
theorem Tree.OK.counted {cfg : Cfg} {t : Tree} (hok : Tree.OK cfg true 0 65536 t) (hsm : t.Small) :
    ∀ u, t.finishAll cfg = some u → u.leaves.any (fun s => s.getStats.underflow) = false := by
  intro u hu
  obtain ⟨v, v1, v2, _⟩ := Tree.finishAll_spec hok hsm
  rw [v1] at hu
  cases hu
  rw [List.any_eq_false]
  intro s hm
  have h := (v2.leaf_inv s hm).2.1.count.2
  have e1 : s.getStats.numRemovals = s.src.numRemovals := rfl
  have e2 : s.getStats.numInserts = s.src.numInserts := rfl
  unfold ShardStats.underflow
  rw [decide_eq_true_eq]
  omega

theorem Shard.mem_pairs {cfg s} (h : Shard.Inv cfg s) {kv : KV} : kv ∈ s.pairs ↔ s.val cfg kv.1 = some kv.2 := by
  unfold Shard.pairs
  rw [List.mem_flatMap]
  constructor
  · rintro ⟨r, hr, hkv⟩
    have hr := List.mem_range.1 hr
    obtain ⟨c, hc, hl⟩ := mem_liveRow.1 hkv
    exact h.val_eq_some.2 ⟨r, c, hr, hc, hl⟩
  · intro e
    exact ⟨_, List.mem_range.2 (cfg.ph kv.1).rowSel_lt, h.mem_row.2 e⟩

theorem Shard.pairs_distinct {cfg s} (h : Shard.Inv cfg s) : DistinctKeys s.pairs := by
  unfold Shard.pairs DistinctKeys
  rw [List.pairwise_flatMap]
  refine ⟨fun r hr => (h.active r).distinct (List.mem_range.1 hr), ?_⟩
  refine List.Pairwise.imp_of_mem ?_ List.pairwise_lt_range
  intro r r' hr hr' hlt x hx y hy e
  have hr := List.mem_range.1 hr
  have hr' := List.mem_range.1 hr'
  obtain ⟨c, hc, hl⟩ := mem_liveRow.1 hx
  obtain ⟨c', hc', hl'⟩ := mem_liveRow.1 hy
  have e1 := (h.active r).row r c x hr hc hl
  have e2 := (h.active r').row r' c' y hr' hc' hl'
  rw [e] at e1; omega

theorem Tree.OK.mem_pairs {cfg ex t} (h : Tree.OK cfg ex 0 END_OF_SHARDS t) {kv : KV} : kv ∈ t.pairs ↔ t.get cfg kv.1 = some kv.2 := by
  unfold Tree.pairs
  rw [List.mem_flatMap, h.get_iff ⟨Nat.zero_le _, (cfg.ph kv.1).shardSel_lt⟩]
  constructor
  · rintro ⟨s, hs, hkv⟩; exact ⟨s, hs, (Shard.mem_pairs (h.leaf_inv s hs).1).1 hkv⟩
  · rintro ⟨s, hs, hkv⟩; exact ⟨s, hs, (Shard.mem_pairs (h.leaf_inv s hs).1).2 hkv⟩

theorem Chain.ordered {lo hi l} (h : Chain lo hi l) : l.Pairwise (fun a b => a.hi ≤ b.lo) := by
  induction h with
  | nil => exact .nil
  | cons a b h ih => exact List.pairwise_cons.2 ⟨fun s hs => (h.ge s hs).1, ih⟩

theorem Tree.OK.pairs_distinct {cfg ex lo hi t} (h : Tree.OK cfg ex lo hi t) : DistinctKeys t.pairs := by
  unfold Tree.pairs DistinctKeys
  rw [List.pairwise_flatMap]
  refine ⟨fun s hs => Shard.pairs_distinct (h.leaf_inv s hs).1, ?_⟩
  refine List.Pairwise.imp_of_mem ?_ h.chain.ordered
  intro s s' hs hs' hle x hx y hy e
  have i := (h.leaf_inv s hs).1
  have i' := (h.leaf_inv s' hs').1
  have a := i.val_span ((Shard.mem_pairs i).1 hx)
  have b := i'.val_span ((Shard.mem_pairs i').1 hy)
  rw [e] at a; omega

/-- The shard responsible for a selector, and only it, contains the selector. -/
theorem Tree.OK.find_unique {cfg ex lo hi t} (h : Tree.OK cfg ex lo hi t) {sel : Nat} (hs : inSpan lo hi sel) {s : Shard}
    (hm : s ∈ t.leaves) (hi' : inSpan s.lo s.hi sel) : s = t.find sel := by
  induction h with
  | leaf => rw [Tree.leaves_leaf, List.mem_singleton] at hm; exact hm
  | @vertex lo hi b u hle hb ht ih1 ih2 =>
    rw [Tree.find_vertex, hb.hi_eq]
    rcases List.mem_append.1 hm with hm | hm
    · have := hb.chain.ge s hm
      have h2 := hi'.2
      rw [if_pos (by omega)]
      exact ih1 ⟨hs.1, by omega⟩ hm
    · have := ht.chain.ge s hm
      have h1 := hi'.1
      rw [if_neg (by omega)]
      exact ih2 ⟨by omega, hs.2⟩ hm

/-! ## Statistics -/

theorem Shard.pairs_weight {s : Shard} (hq : s.tgt = none) (w : KV → Nat) : (s.pairs.map w).sum = fileW w s.src := by
  have ha : ∀ r, s.active r = s.src := by intro r; unfold Shard.active; rw [hq]
  unfold Shard.pairs fileW
  have : ∀ n, (((List.range n).flatMap (fun r => (s.active r).liveRow r)).map w).sum = sumTo n (rowW w s.src) := by
    intro n
    induction n with
    | zero => simp [sumTo]
    | succ n ih =>
      rw [List.range_succ, List.flatMap_append, List.map_append, List.sum_append, ih, List.flatMap_singleton, ha, ← rowW_eq, sumTo]
  exact this _

theorem sumStats_spec {cfg : Cfg} : ∀ (l : List Shard), (∀ s ∈ l, s.tgt = none ∧ s.AcctInv true) →
    let st := sumStats (l.map Shard.getStats)
    st.numShards = l.length ∧ st.numInserts = (l.flatMap Shard.pairs).length + st.numRemovals ∧
    st.occupied = bytesOf (l.flatMap Shard.pairs) + st.wasted
  | [], _ => ⟨rfl, rfl, rfl⟩
  | s :: l, h => by
    obtain ⟨h1, h2, h3⟩ := sumStats_spec (cfg := cfg) l (fun x hx => h x (List.mem_cons_of_mem _ hx))
    obtain ⟨hq, ha, _⟩ := h s (List.mem_cons_self ..)
    obtain ⟨d, e, ⟨a1, a2⟩, a3⟩ := ha
    obtain ⟨rfl, rfl⟩ := a3 rfl
    have w1 := Shard.pairs_weight hq (fun _ => 1)
    have w2 := Shard.pairs_weight hq kvSize
    have l1 : s.pairs.length = liveCount s.src := by
      have hl : ∀ l : List KV, (l.map (fun _ => 1)).sum = l.length := by
        intro l; induction l with
        | nil => rfl
        | cons a l ih => simp only [List.map_cons, List.sum_cons, ih, List.length_cons]; omega
      rw [← hl, w1]; rfl
    have l2 : bytesOf s.pairs = liveBytes s.src := w2
    have e1 : (sumStats ((s :: l).map Shard.getStats)).numShards = (sumStats (l.map Shard.getStats)).numShards + 1 := rfl
    have e2 : (sumStats ((s :: l).map Shard.getStats)).numInserts = s.src.numInserts + (sumStats (l.map Shard.getStats)).numInserts := rfl
    have e3 : (sumStats ((s :: l).map Shard.getStats)).numRemovals = s.src.numRemovals + (sumStats (l.map Shard.getStats)).numRemovals := rfl
    have e4 : (sumStats ((s :: l).map Shard.getStats)).occupied = s.src.writeOff + (sumStats (l.map Shard.getStats)).occupied := rfl
    have e5 : (sumStats ((s :: l).map Shard.getStats)).wasted = s.src.wasted + (sumStats (l.map Shard.getStats)).wasted := rfl
    have b1 : bytesOf ((s :: l).flatMap Shard.pairs) = bytesOf s.pairs + bytesOf (l.flatMap Shard.pairs) := by
      rw [List.flatMap_cons]; unfold bytesOf; rw [List.map_append, List.sum_append]
    have b2 : ((s :: l).flatMap Shard.pairs).length = s.pairs.length + (l.flatMap Shard.pairs).length := by
      rw [List.flatMap_cons, List.length_append]
    dsimp only at *
    refine ⟨?_, ?_, ?_⟩
    · rw [e1, h1]; rfl
    · rw [e2, e3, b2]; omega
    · rw [e4, e5, b1]; omega

/-- Two lists of pairs with distinct keys and the same members have the same length and total size. -/
theorem distinct_perm {l l' : List KV} (h : DistinctKeys l) (h' : DistinctKeys l') (hm : ∀ kv, kv ∈ l ↔ kv ∈ l') : l.Perm l' := by
  have n1 : l.Nodup := List.Pairwise.imp (fun h e => h (by rw [e])) h
  have n2 : l'.Nodup := List.Pairwise.imp (fun h e => h (by rw [e])) h'
  exact (List.perm_ext_iff_of_nodup n1 n2).2 hm

end Candy
