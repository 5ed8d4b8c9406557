import Verif.Proofs.TreeMore
import Verif.Proofs.Consolidate
import Verif.Proofs.TreeRunner
import Verif.Proofs.Demo
/-!
# C07 - C09, C19, C40, C42, C49: splits, compaction, merging, the shard tree
-/
namespace Candy.Props
open Candy.Spec

/-- The bits of a key's hash that select its shard: the top 16. -/
def selectorOf (cfg : Cfg) (k : Bytes) : Nat := (cfg.ph k).shardSel

/-! ## C07 -/

/-- **C07.** Splitting any shard of any reachable store succeeds; the two halves cover exactly its range, divided at the middle; together
they hold exactly its pairs (same pairs, each as often as before, i.e. once), and each half only pairs of its own range. -/
theorem C07_split_transparent {cfg : Cfg} {es : List Event} {t : Tree} (h : Reachable cfg es t) (hsm : t.Small) {s : Shard} (hs : s ∈ t.leaves) :
    ∃ b u, s.split cfg = some (b, u) ∧ b.lo = s.lo ∧ b.hi = (s.lo + s.hi) / 2 ∧ u.lo = (s.lo + s.hi) / 2 ∧ u.hi = s.hi ∧
      (b.pairs ++ u.pairs).Perm s.pairs ∧
      (∀ kv ∈ b.pairs, s.lo ≤ selectorOf cfg kv.1 ∧ selectorOf cfg kv.1 < (s.lo + s.hi) / 2) ∧
      (∀ kv ∈ u.pairs, (s.lo + s.hi) / 2 ≤ selectorOf cfg kv.1 ∧ selectorOf cfg kv.1 < s.hi) := by
  obtain ⟨w, _, hsane, _⟩ := h.world
  obtain ⟨hi, ha⟩ := hsane.ok.leaf_inv s hs
  have hle := (hsane.ok.chain.ge s hs).2.1
  obtain ⟨b, u, h1, h2, h3, h4, h5, h6, h7, h8⟩ := Shard.split_pairs hi (hsm s hs) ha hle
  refine ⟨b, u, h1, h2, h3, h4, h5, h8, ?_, ?_⟩
  · intro kv hkv
    have := h6.val_span ((Shard.mem_pairs h6).1 hkv)
    rw [h2, h3] at this; exact this
  · intro kv hkv
    have := h7.val_span ((Shard.mem_pairs h7).1 hkv)
    rw [h4, h5] at this; exact this

/-- **C07**, seen from the call: whatever splits an insertion causes (any number, any depth `n`), afterwards the store holds the same
pairs as before, each once, except for the inserted key. -/
theorem C07_insert_keeps_others {cfg : Cfg} {es : List Event} {t t' : Tree} (h : Reachable cfg es t) (hsm : t.Small) {k v : Bytes} {mode : Mode}
    {st : InsStatus} (hk : k.length ≤ 16383) (hv : v.length ≤ 65535) {n : Nat} (hi : t.insert cfg (cfg.ph k) k v mode n = .ok (t', st)) :
    t'.pairs.Pairwise (fun a b => a.1 ≠ b.1) ∧ ∀ k' v', k' ≠ k → ((k', v') ∈ t'.pairs ↔ (k', v') ∈ t.pairs) := by
  obtain ⟨w, _, hsane, _⟩ := h.world
  rcases Tree.insert_spec (mode := mode) (by omega : k.length < 65536) (by omega : v.length < 65536) n t 0 END_OF_SHARDS hsane.ok hsm (inSpan_full _) with h1 | ⟨u, h1, h2, h3⟩
  · rw [h1] at hi; cases hi
  · rw [h1] at hi
    simp only [Out.ok.injEq, Prod.mk.injEq] at hi
    obtain ⟨rfl, _⟩ := hi
    refine ⟨h2.pairs_distinct, fun k' v' hne => ?_⟩
    rw [h2.mem_pairs, hsane.ok.mem_pairs]
    dsimp only
    rw [h3 k' (inSpan_full _), Map.upd_other _ _ hne]

/-! ## C08 -/

/-- **C08.** In every reachable store - so after any interleaving of calls and earlier steps of the background threads - the next step
of the background compaction of any shard succeeds and changes nothing that can be observed: `get` of every key, `get_by_hash`-free
contents, and even the order in which pairs are iterated are the same. -/
theorem C08_compaction_step_invisible {cfg : Cfg} {es : List Event} {t : Tree} (h : Reachable cfg es t) (hsm : t.Small) (sel : Nat) :
    ∃ t', t.bgStep cfg sel = some t' ∧ Reachable cfg es t' ∧ (∀ k, t'.get cfg k = t.get cfg k) ∧ t'.pairs = t.pairs := by
  obtain ⟨w, _, hsane, _⟩ := h.world
  obtain ⟨t', h1, h2, h3, h4⟩ := Tree.bgStep_spec hsane.ok hsm sel
  obtain ⟨t0, h5, h6⟩ := h
  refine ⟨t', h1, ⟨t0, h5, ?_⟩, fun k => h4 k (inSpan_full _), (Tree.bgStep_pairs hsane.ok hsm sel h1).1⟩
  have := h6.append (.bg sel hsm h1 (.nil t'))
  rwa [List.append_nil] at this

/-- **C08**, for calls: two stores with the same contents - for instance one in the middle of a compaction and one without - give the same
answer to a key-value call and have the same contents afterwards, whatever background steps happen during the two calls. -/
theorem C08_same_answers {cfg : Cfg} {es es' : List Event} {t t' u u' : Tree} {k : Bytes} {op : KvOp} {r r' : Res Resp} (h : Reachable cfg es t)
    (h' : Reachable cfg es' u) (hsame : ∀ k, t.get cfg k = u.get cfg k) (hc : Calls cfg t (.kv k op) r t') (hc' : Calls cfg u (.kv k op) r' u') :
    r = r' ∧ ∀ k, t'.get cfg k = u'.get cfg k := by
  have key : ∀ {es : List Event} {t t' : Tree} {r : Res Resp}, Reachable cfg es t → Calls cfg t (.kv k op) r t' →
      match kvError cfg k op with
      | some e => r = .err e ∧ t'.get cfg = t.get cfg
      | none => r = .ok (kvAnswer (t.get cfg (userKey k)) op).1 ∧ t'.get cfg = Map.upd (t.get cfg) (userKey k) (kvAnswer (t.get cfg (userKey k)) op).2 := by
    intro es t t' r h hc
    obtain ⟨w, _, hs, _⟩ := h.world
    obtain ⟨p, h1, h2⟩ := hc
    exact (wp_kvOp cfg k op _).sound (h1.sim hs.ok).2 h2
  have hg : t.get cfg = u.get cfg := funext hsame
  have h1 := key h hc
  have h2 := key h' hc'
  rw [← hg] at h2
  cases he : kvError cfg k op with
  | some e =>
    rw [he] at h1 h2
    exact ⟨h1.1.trans h2.1.symm, fun k => by rw [h1.2, h2.2]⟩
  | none =>
    rw [he] at h1 h2
    exact ⟨h1.1.trans h2.1.symm, fun k => by rw [h1.2, h2.2]⟩

/-- **C08**, the end of a compaction: waiting for all compactions succeeds; afterwards none is running, and the files hold exactly the
pairs the store held. -/
theorem C08_compaction_finishes {cfg : Cfg} {es : List Event} {t : Tree} (h : Reachable cfg es t) (hsm : t.Small) :
    ∃ t', t.finishAll cfg = some t' ∧ (∀ s ∈ t'.leaves, s.tgt = none) ∧ (∀ k, t'.get cfg k = t.get cfg k) ∧ t'.pairs.Perm t.pairs := by
  obtain ⟨w, _, hs, _⟩ := h.world
  obtain ⟨t', h1, h2, h3, h4, h5, h6⟩ := Tree.finishAll_spec hs.ok hsm
  refine ⟨t', h1, h4, fun k => h6 k (inSpan_full _), distinct_perm h2.pairs_distinct hs.ok.pairs_distinct (fun kv => ?_)⟩
  rw [h2.mem_pairs, hs.ok.mem_pairs, h6 _ (inSpan_full _)]

/-- Not vacuous: the store of the example below is in the middle of a compaction, with one row compacted. -/
def compactingCfg : Cfg := { hash := fun _ => ⟨0#64, 0#64⟩, maxShardSize := 1000, minCompaction := 1, expectedKeys := 0, maxListOps := 16 }
set_option maxRecDepth 100000 in
example : ∃ es t, Reachable compactingCfg es t ∧ decide (∃ f, (t.find 0).tgt.map (fun f => f.compactedUpTo) = some f ∧ f = 1) = true := by
  have : checkT compactingCfg [.call (.kv [97] (.set [1])), .call (.kv [97] (.set [2])), .call (.kv [98] (.set [3])), .bg 0]
      (fun t => decide ((t.find 0).tgt.map (fun f => f.compactedUpTo) = some 1)) = true := by decide +kernel
  obtain ⟨es, t, h1, h2⟩ := checkT_sound this
  refine ⟨es, t, h1, ?_⟩
  simp only [decide_eq_true_eq] at h2 ⊢
  exact ⟨1, h2, rfl⟩

/-! ## C09 -/

/-- **C09**, contents: whenever `merge_small_shards` returns, it has lost, duplicated and changed nothing. Missing: that it returns
(`C09_refuted`). The hypotheses: the counters are exact (no crash since creation or the last `clear`); every shard has a nonempty range; `max_fill_level` is below one half (asserted by the code); the number
of items does not exceed what 65536 shards hold. -/
theorem C09_merge_keeps_contents_partial {cfg : Cfg} {es : List Event} {t t' : Tree} {mf : Nat} {b : Bool} (h : Reachable cfg es t) (hx : exactAfter true es = true) (hsm : t.Small)
    (hspans : ∀ s ∈ t.leaves, s.lo < s.hi) (hmf : mf ≤ 14745)
    (hcap : ∀ u, t.finishAll cfg = some u → (u.leaves.map (fun s => s.getStats.numItems)).sum ≤ 65536 * 29491)
    (hm : t.mergeSmall cfg mf = .ok (t', b)) :
    (∀ k, t'.get cfg k = t.get cfg k) ∧ t'.pairs.Perm t.pairs ∧ t'.leaves.length ≤ t.leaves.length := by
  obtain ⟨w, _, hs, _⟩ := h.worldEx
  rw [hx] at hs
  have hok : MergeOK cfg mf t := ⟨hsm, hspans, Or.inl ⟨fun s hm => (hs.ok.leaf_inv s hm).2, hmf⟩, hcap⟩
  obtain ⟨h1, h2⟩ := merge_get hs hok hm
  refine ⟨fun k => congrFun h2 k, distinct_perm h1.ok.pairs_distinct hs.ok.pairs_distinct (fun kv => ?_), ?_⟩
  · rw [h1.ok.mem_pairs, hs.ok.mem_pairs, h2]
  · rcases Tree.mergeSmall_spec hs.ok hspans hsm (Or.inl ⟨rfl, hmf⟩) hcap hs.bound (hs.ok.counted hsm) with hd | ⟨u, b', e1, _, _, _, _, _, e2, _⟩
    · rw [hd] at hm; cases hm
    · rw [e1] at hm
      simp only [Out.ok.injEq, Prod.mk.injEq] at hm
      rw [← hm.1]; exact e2

/-- The configuration of the counterexample: at most 8 bytes per shard; keys beginning with `a` in the first quarter of the hash space, others in
the second. -/
def mergeCfg : Cfg :=
  { hash := fun k => ⟨if k.head? = some 97 then 0#64 else 0x4000000000000000#64, 0#64⟩, maxShardSize := 8, minCompaction := 1000,
    expectedKeys := 0, maxListOps := 16 }

theorem sumItems : ∀ (l : List Shard), (∀ s ∈ l, s.tgt = none ∧ s.AcctInv true) →
    (l.map (fun s => s.getStats.numItems)).sum = (l.flatMap Shard.pairs).length
  | [], _ => rfl
  | s :: l, h => by
    have h1 := sumItems l (fun x hx => h x (List.mem_cons_of_mem _ hx))
    have h2 := (sumStats_spec (cfg := mergeCfg) [s] (fun x hx => h x (by rw [List.mem_singleton.1 hx]; exact List.mem_cons_self))).2.1
    rw [List.map_cons, List.sum_cons, h1, List.flatMap_cons, List.length_append]
    have e1 : (sumStats ([s].map Shard.getStats)).numInserts = s.src.numInserts := rfl
    have e2 : (sumStats ([s].map Shard.getStats)).numRemovals = s.src.numRemovals := rfl
    have e3 : s.getStats.numItems = s.src.numInserts - s.src.numRemovals := rfl
    rw [e1, e2, List.flatMap_singleton] at h2
    omega

/-- **C09**, result: the flag tells whether the number of shards has decreased; and if shards were merged, the remaining ones are enough for the stored
pairs and for the expected number of keys (29491 per shard). -/
theorem C09_merge_flag {cfg : Cfg} {es : List Event} {t t' : Tree} {mf : Nat} {b : Bool} (h : Reachable cfg es t) (hx : exactAfter true es = true) (hsm : t.Small)
    (hspans : ∀ s ∈ t.leaves, s.lo < s.hi) (hmf : mf ≤ 14745)
    (hcap : ∀ u, t.finishAll cfg = some u → (u.leaves.map (fun s => s.getStats.numItems)).sum ≤ 65536 * 29491)
    (hm : t.mergeSmall cfg mf = .ok (t', b)) :
    (b = true ↔ t'.leaves.length < t.leaves.length) ∧
    (t'.leaves.length < t.leaves.length → t'.pairs.length ≤ 29491 * t'.leaves.length ∧ cfg.expectedKeys ≤ 29491 * t'.leaves.length) := by
  have hperm := (C09_merge_keeps_contents_partial h hx hsm hspans hmf hcap hm).2.1
  obtain ⟨w, _, hs, _⟩ := h.worldEx
  rw [hx] at hs
  rcases Tree.mergeSmall_spec hs.ok hspans hsm (Or.inl ⟨rfl, hmf⟩) hcap hs.bound (hs.ok.counted hsm) with hd | ⟨u, b', e1, _, _, _, _, _, _, _, e3, e4⟩
  · rw [hd] at hm; cases hm
  · rw [e1] at hm
    simp only [Out.ok.injEq, Prod.mk.injEq] at hm
    obtain ⟨rfl, rfl⟩ := hm
    refine ⟨e3, fun hlt => ?_⟩
    obtain ⟨v, v1, v2, v3, v4, v5, v6⟩ := Tree.finishAll_spec hs.ok hsm
    obtain ⟨needed, n1, n2⟩ := e4 hlt v v1
    have hc := hcap v v1
    obtain ⟨j, hj, g1, g2⟩ := calcStep_cap (Nat.max_le.2 ⟨hc, hs.bound⟩)
    unfold calcNumShards at n1
    rw [g1] at n1
    simp only [Option.map_some, Option.some.injEq] at n1
    have hn : 2 ^ (16 - j) = needed := by
      rw [← n1, show END_OF_SHARDS = 2 ^ 16 by rfl, Nat.pow_div hj (by decide)]
    have hmul : 29491 * needed ≤ 29491 * u.leaves.length := Nat.mul_le_mul_left _ n2
    rw [hn] at g2
    have g3 := Nat.le_trans g2 hmul
    refine ⟨Nat.le_trans ?_ g3, Nat.le_trans (Nat.le_max_right _ _) g3⟩
    refine Nat.le_trans ?_ (Nat.le_max_left _ _)
    have hvp : v.pairs.Perm t.pairs := distinct_perm v2.pairs_distinct hs.ok.pairs_distinct (fun kv => by
      rw [v2.mem_pairs, hs.ok.mem_pairs, v6 _ (inSpan_full _)])
    rw [hperm.length_eq, ← hvp.length_eq]
    exact Nat.le_of_eq (sumItems v.leaves (fun s hm => ⟨v4 s hm, (v2.leaf_inv s hm).2⟩)).symm

/-- **C09**, completion: `merge_small_shards` returns - it neither panics nor blocks - if the store has at most one shard more than its
number of items needs. In general it may block forever on a lock it holds itself (`C09_refuted`). -/
theorem C09_merge_completes_partial {cfg : Cfg} {es : List Event} {t : Tree} {mf : Nat} (h : Reachable cfg es t) (hx : exactAfter true es = true) (hsm : t.Small)
    (hspans : ∀ s ∈ t.leaves, s.lo < s.hi) (hmf : mf ≤ 14745)
    (hcap : ∀ u, t.finishAll cfg = some u → (u.leaves.map (fun s => s.getStats.numItems)).sum ≤ 65536 * 29491)
    (hone : ∀ u needed, t.finishAll cfg = some u →
      calcNumShards (Nat.max (u.leaves.map (fun s => s.getStats.numItems)).sum cfg.expectedKeys) = some needed → t.leaves.length ≤ needed + 1) :
    ∃ t' b, t.mergeSmall cfg mf = .ok (t', b) := by
  obtain ⟨w, _, hs, _⟩ := h.worldEx
  rw [hx] at hs
  rcases Tree.mergeSmall_spec hs.ok hspans hsm (Or.inl ⟨rfl, hmf⟩) hcap hs.bound (hs.ok.counted hsm) with hd | ⟨u, b', e1, _⟩
  · exfalso
    obtain ⟨u, h1, _, _, _, h5, _⟩ := Tree.finishAll_spec hs.ok hsm
    have hcnt := hs.ok.counted hsm u h1
    unfold Tree.mergeSmall at hd
    rw [h1] at hd
    dsimp only at hd
    rw [hcnt, if_neg (by simp)] at hd
    cases hn : calcNumShards (Nat.max (u.leaves.map (fun s => s.getStats.numItems)).sum cfg.expectedKeys) with
    | none => rw [hn] at hd; cases hd
    | some needed =>
      rw [hn] at hd
      dsimp only at hd
      have hlen := congrArg List.length h5
      simp only [List.length_map] at hlen
      have hle := hone u needed h1 hn
      by_cases hl : u.leaves.length ≤ needed
      · rw [if_pos hl] at hd; cases hd
      · rw [if_neg hl, show u.leaves.length - needed = 1 by omega] at hd
        have := (mergeRec_one cfg mf u).1
        cases hr : u.mergeRec cfg mf 1 with
        | deadlock => exact this hr
        | panic => rw [hr] at hd; simp [Out.bind] at hd
        | diverge => rw [hr] at hd; simp [Out.bind] at hd
        | ok r =>
          rw [hr] at hd
          dsimp only [Out.bind] at hd
          cases ht : treeify r.shards with
          | none => rw [ht] at hd; cases hd
          | some t' => rw [ht] at hd; cases hd
  · exact ⟨u, b', e1⟩

def mergeScript : List Cmd := [.call (.kv [97] (.set [1, 2, 3])), .call (.kv [98] (.set [4, 5, 6]))]

def mergeCheck (t : Tree) : Bool := match t.mergeSmall mergeCfg 14745 with | .deadlock => true | _ => false

set_option maxRecDepth 100000 in
theorem merge_run : checkT mergeCfg mergeScript mergeCheck = true := by decide +kernel

/-- **C09 is false**: there is a store (two keys, three shards) on which `merge_small_shards` never returns: it waits for a lock that it
holds itself (src/router.rs:434-437 recursing into the subtree whose lock `bottom_guard` is still held). -/
theorem C09_refuted : ∃ (cfg : Cfg) (es : List Event) (t : Tree), Reachable cfg es t ∧ t.mergeSmall cfg 14745 = .deadlock := by
  obtain ⟨es, t, h1, h2⟩ := checkT_sound merge_run
  refine ⟨mergeCfg, es, t, h1, ?_⟩
  unfold mergeCheck at h2
  cases hm : t.mergeSmall mergeCfg 14745 with
  | deadlock => rfl
  | ok a => rw [hm] at h2; cases h2
  | panic => rw [hm] at h2; cases h2
  | diverge => rw [hm] at h2; cases h2

/-! ## C19 -/

/-- **C19**, unless the hash bucket is crowded: `set` returns if, of the other stored keys, fewer than 512 have the same shard selector
and row as `k`, and the stored pairs with the same selector together with the new one fit into a shard. Missing: crowded buckets, where it
is false (`C19_refuted`). -/
theorem C19_set_returns_partial {cfg : Cfg} {es : List Event} {t : Tree} (h : Reachable cfg es t) (hsm : t.Small) {k v : Bytes}
    (hfit : kvError cfg k (.set v) = none)
    (hrow : ∀ L : List KV, L.Pairwise (fun a b => a.1 ≠ b.1) → (∀ kv ∈ L, t.get cfg kv.1 = some kv.2 ∧ kv.1 ≠ userKey k ∧
      (cfg.ph kv.1).shardSel = (cfg.ph (userKey k)).shardSel ∧ (cfg.ph kv.1).rowSel = (cfg.ph (userKey k)).rowSel) → L.length < 512)
    (hbytes : ∀ L : List KV, L.Pairwise (fun a b => a.1 ≠ b.1) → (∀ kv ∈ L, t.get cfg kv.1 = some kv.2 ∧
      (cfg.ph kv.1).shardSel = (cfg.ph (userKey k)).shardSel) →
      (L.map (fun kv => kv.1.length + kv.2.length)).sum + (k.length + 1 + v.length) ≤ cfg.maxShardSize.toNat) :
    ∃ r t', Calls cfg t (.kv k (.set v)) (.ok r) t' := by
  obtain ⟨w, _, hs, _⟩ := h.world
  have hlen : (userKey k).length = k.length + 1 := by rw [userKey_eq]; simp
  have hlim : k.length ≤ 16128 ∧ v.length ≤ 65280 ∧ k.length + 1 + v.length ≤ cfg.maxShardSize.toNat := by
    unfold kvError KvOp.value? at hfit
    dsimp only at hfit
    by_cases h1 : 16128 < k.length
    · rw [if_pos h1] at hfit; cases hfit
    · rw [if_neg h1] at hfit
      by_cases h2 : 65280 < v.length
      · rw [if_pos h2] at hfit; cases hfit
      · rw [if_neg h2] at hfit
        by_cases h3 : cfg.maxShardSize.toNat < k.length + 1 + v.length
        · rw [if_pos h3] at hfit; cases hfit
        · exact ⟨by omega, by omega, by omega⟩
  obtain ⟨l1, l2, l3⟩ := hlim
  have hc : NotCrowded cfg (t.get cfg) 0 (userKey k) v :=
    ⟨hrow, Or.inr (fun L h1 h2 => by
      have := hbytes L h1 h2
      rw [hlen]
      exact this)⟩
  have hk : (userKey k).length < 65536 := by omega
  have hv : v.length < 65536 := by omega
  obtain ⟨n, hn⟩ := Tree.insert_terminates (mode := .set) hk hv t 0 END_OF_SHARDS hs.ok hsm (inSpan_full _) hc
  rcases Tree.insert_spec (mode := .set) hk hv n t 0 END_OF_SHARDS hs.ok hsm (inSpan_full _) with h1 | ⟨t', h1, h2, h3⟩
  · exact absurd h1 hn
  · have hsz : sizeErr cfg (userKey k) v = none := by
      unfold sizeErr
      rw [hlen, if_neg (show ¬ 0x3fff < k.length + 1 by omega), if_neg (show ¬ 0xffff < v.length by omega), if_neg (by omega)]
    have hprog : ∃ f : InsStatus → Prog Resp, (Call.kv k (.set v)).prog cfg = .ins (userKey k) v .set f ∧
        ∀ cur, ∃ a, f (insertAt cur v .set).2 = .ret a := by
      show ∃ f : InsStatus → Prog Resp, ((((ensureSizes k v).bind (fun _ => setRaw (userKey k) v))).bind _) = _ ∧ _
      unfold ensureSizes
      rw [if_neg (show ¬ MAX_KEY_SIZE < k.length from Nat.not_lt.2 l1), if_neg (show ¬ MAX_VALUE_SIZE < v.length from Nat.not_lt.2 l2)]
      refine ⟨_, rfl, fun cur => ?_⟩
      cases cur <;> exact ⟨_, rfl⟩
    obtain ⟨f, e1, e2⟩ := hprog
    obtain ⟨a, ha⟩ := e2 (t.get cfg (userKey k))
    refine ⟨a, t', .ret a, ?_, rfl⟩
    rw [e1]
    refine .step hsm (.ins _ _ _ _ _ _ _ _ hsz h1) ?_
    rw [ha]
    exact .refl _ _

/-- Not vacuous: the conditions hold in the store of `demo_ab` for a second key with the same hash. -/
example : ∃ es t r t', Reachable demoCfg es t ∧ t.userGet demoCfg [97] = some [98] ∧ Calls demoCfg t (.kv [99] (.set [100])) (.ok r) t' := by
  obtain ⟨es, t, h, hget, m, ht, hm⟩ := demo_ab
  have hsm : t.Small := Tree.small_of_pot (Nat.lt_of_le_of_lt ht.pot (by decide))
  have hfew := ht.few
  rw [← ht.get] at hfew
  obtain ⟨r, t', hc⟩ := C19_set_returns_partial h hsm (k := [99]) (v := [100]) (by decide)
    (fun L h1 h2 => Nat.lt_of_le_of_lt (hfew L h1 (fun kv hkv => (h2 kv hkv).1)).1 (by decide))
    (fun L h1 h2 => by
      have := (hfew L h1 (fun kv hkv => (h2 kv hkv).1)).2
      unfold bytesOf at this
      have h3 : (L.map (fun kv => kv.1.length + kv.2.length)).sum ≤ 3 := this
      have : demoCfg.maxShardSize.toNat = 67108864 := by decide
      simp only [List.length_cons, List.length_nil]; omega)
  exact ⟨es, t, r, t', h, hget, hc⟩

/-- The `i`-th key of the counterexample. -/
def crowdKey (i : Nat) : Bytes := [UInt8.ofNat (i / 256), UInt8.ofNat i]

theorem crowdKey_inj {i j : Nat} (hi : i < 65536) (hj : j < 65536) (h : crowdKey i = crowdKey j) : i = j := by
  unfold crowdKey at h
  simp only [List.cons.injEq, and_true] at h
  have h1 := congrArg UInt8.toNat h.1
  have h2 := congrArg UInt8.toNat h.2
  simp only [UInt8.toNat_ofNat'] at h1 h2
  omega

/-- A store with `n` keys that all have the same hash. -/
theorem crowd : ∀ n, n ≤ 511 → ∃ es t m, Tiny demoCfg es t m n (3 * n) ∧ (∀ i, i < n → m (userKey (crowdKey i)) = some []) ∧
    (∀ i, n ≤ i → i < 65536 → m (userKey (crowdKey i)) = none)
  | 0, _ => by
    obtain ⟨t0, h0⟩ := tiny_new (cfg := demoCfg) (by decide)
    exact ⟨[], t0, _, h0, fun i hi => by omega, fun i _ _ => rfl⟩
  | n + 1, hn => by
    obtain ⟨es, t, m, h1, h2, h3⟩ := crowd n (by omega)
    have hmax : demoCfg.maxShardSize.toNat = 67108864 := by decide
    obtain ⟨t1, _, h4⟩ := h1.kv (crowdKey n) (.set []) 3 (by intro v hv; simp [KvOp.value?] at hv; subst hv; simp [crowdKey]) (by omega) (by omega)
      (by unfold kvError KvOp.value?; simp only [crowdKey, List.length_cons, List.length_nil, hmax]; decide)
    refine ⟨_, t1, _, h4, ?_, ?_⟩
    · intro i hi
      by_cases e : i = n
      · subst e; rw [Map.upd_same]; rfl
      · rw [Map.upd_other _ _ (fun x => e (crowdKey_inj (by omega) (by omega) (userKey_inj x)))]
        exact h2 i (by omega)
    · intro i hi hi'
      rw [Map.upd_other _ _ (fun x => absurd (crowdKey_inj hi' (by omega) (userKey_inj x)) (by omega))]
      exact h3 i (by omega) hi'

/-- A call that cannot make its only storage access never finishes. -/
theorem never_returns {cfg : Cfg} {ex : Bool} {k v : Bytes} {mode : Mode} {f : InsStatus → Prog Resp} {m : Map} (hsz : sizeErr cfg k v = none)
    (hdiv : ∀ t : Tree, Tree.OK cfg ex 0 END_OF_SHARDS t → t.Small → t.get cfg = m → ∀ n, t.insert cfg (cfg.ph k) k v mode n = .diverge)
    {t t' : Tree} {p p' : Prog Resp} (h : CExec cfg Tree.Small t p t' p') : p = .ins k v mode f → Tree.OK cfg ex 0 END_OF_SHARDS t → t.get cfg = m →
    p'.result = none := by
  induction h with
  | refl t p => intro hp _ _; rw [hp]; rfl
  | step hok h _ _ =>
    intro hp h1 h2
    subst hp
    cases h with
    | insErr _ _ _ _ e hs => rw [hsz] at hs; cases hs
    | ins _ _ _ _ _ st n hs hi => rw [hdiv _ h1 hok h2 n] at hi; cases hi
  | bg sel hok h _ ih =>
    intro hp h1 h2
    obtain ⟨g1, g2⟩ := bg_get h1 hok h
    exact ih hp g1 (g2.trans h2)

/-- **C19 is false**: there is a store with 512 keys (of 2 bytes, with empty values) on which `set` of a further key never returns: all 513
keys have the same shard selector and row, and splitting does not separate them. -/
theorem C19_refuted : ∃ (cfg : Cfg) (es : List Event) (t : Tree) (k v : Bytes), Reachable cfg es t ∧ kvError cfg k (.set v) = none ∧
    t.userGet cfg k = none ∧ ∀ r t', ¬ Calls cfg t (.kv k (.set v)) r t' := by
  obtain ⟨es, t, m, h1, h2, h3⟩ := crowd 511 (Nat.le_refl _)
  have hmax : demoCfg.maxShardSize.toNat = 67108864 := by decide
  have hsm : t.Small := Tree.small_of_pot (Nat.lt_of_le_of_lt h1.pot (by decide))
  have hfew := h1.few
  rw [← h1.get] at hfew
  have herr : ∀ i, kvError demoCfg (crowdKey i) (.set []) = none := by
    intro i; unfold kvError KvOp.value?; simp only [crowdKey, List.length_cons, List.length_nil, hmax]; decide
  obtain ⟨r, t1, hc⟩ := C19_set_returns_partial h1.reach hsm (k := crowdKey 511) (v := []) (herr 511)
    (fun L g1 g2 => Nat.lt_of_le_of_lt (hfew L g1 (fun kv hkv => (g2 kv hkv).1)).1 (by decide))
    (fun L g1 g2 => by
      have := (hfew L g1 (fun kv hkv => (g2 kv hkv).1)).2
      have h3 : (L.map (fun kv => kv.1.length + kv.2.length)).sum ≤ 3 * 511 := this
      simp only [crowdKey, List.length_cons, List.length_nil]; omega)
  have hreach := h1.reach.call hc (by simp)
  obtain ⟨w0, _, hs0, _⟩ := h1.reach.world
  obtain ⟨w, _, hs, _⟩ := hreach.world
  have hget : t1.get demoCfg = Map.upd m (userKey (crowdKey 511)) (some []) := by
    obtain ⟨p, g1, g2⟩ := hc
    have := (wp_kvOp demoCfg (crowdKey 511) (.set []) _).sound (g1.sim hs0.ok).2 g2
    rw [herr 511] at this
    rw [this.2, h1.get]; rfl
  have hin : ∀ i, i < 512 → t1.get demoCfg (userKey (crowdKey i)) = some [] := by
    intro i hi
    rw [hget]
    by_cases e : i = 511
    · subst e; rw [Map.upd_same]
    · rw [Map.upd_other _ _ (fun x => e (crowdKey_inj (by omega) (by omega) (userKey_inj x)))]
      exact h2 i (by omega)
  have hout : t1.get demoCfg (userKey (crowdKey 512)) = none := by
    rw [hget, Map.upd_other _ _ (fun x => absurd (crowdKey_inj (by omega) (by omega) (userKey_inj x)) (by omega))]
    exact h3 512 (by omega) (by omega)
  refine ⟨demoCfg, _, t1, crowdKey 512, [], hreach, herr 512, hout, ?_⟩
  rintro r' t' ⟨p, g1, g2⟩
  have hph : ∀ k k' : Bytes, demoCfg.ph k = demoCfg.ph k' := fun k k' => by unfold Cfg.ph; rfl
  have hprog : ∃ f : InsStatus → Prog Resp, (Call.kv (crowdKey 512) (.set [])).prog demoCfg = .ins (userKey (crowdKey 512)) [] .set f := ⟨_, rfl⟩
  obtain ⟨f, hf⟩ := hprog
  have hlen : (userKey (crowdKey 512)).length = 3 := by rw [userKey_eq]; simp [crowdKey]
  have := never_returns (ex := false) (m := t1.get demoCfg) (f := f) (by
      unfold sizeErr; rw [hlen, hmax]; decide)
    (fun u hu hus hum n => crowded_diverges hu hus (by omega) (by simp) (by rw [hum]; exact hout) (by simp)
      ((List.range 512).map (fun i => (userKey (crowdKey i), ([] : Bytes)))) (by
        rw [DistinctKeys, List.pairwise_map]
        refine (List.nodup_range (n := 512)).imp_of_mem ?_
        intro a b ha hb hab e
        rw [List.mem_range] at ha hb
        exact hab (crowdKey_inj (by omega) (by omega) (userKey_inj e))) (by
        intro kv hkv
        rw [List.mem_map] at hkv
        obtain ⟨i, hi, rfl⟩ := hkv
        rw [List.mem_range] at hi
        refine ⟨by rw [hum]; exact hin i hi, ?_, ?_⟩ <;> rw [hph]) (by rw [List.length_map, List.length_range]; exact Nat.le_refl _) n)
    g1 hf hs.ok rfl
  rw [this] at g2
  cases g2

/-! ## C40 -/

/-- Consecutive ranges from `lo` to `hi`. -/
inductive Consecutive : Nat → Nat → List (Nat × Nat) → Prop
  | nil (n : Nat) : Consecutive n n []
  | cons {lo mid hi : Nat} {l : List (Nat × Nat)} (h : lo ≤ mid) (hr : Consecutive mid hi l) : Consecutive lo hi ((lo, mid) :: l)

theorem Consecutive.of_chain {lo hi : Nat} {l : List Shard} (h : Chain lo hi l) : Consecutive lo hi (l.map (fun s => (s.lo, s.hi))) := by
  induction h with
  | nil => exact .nil _
  | cons hlo hle hr ih =>
    subst hlo
    exact .cons hle ih

/-- **C40.** In every reachable store the ranges of the shards, from left to right, partition the selector space; an access to selector `sel`
goes to the shard whose range contains it, and this is the only one; every stored pair is in the shard whose range contains its
selector. -/
theorem C40_ranges_partition {cfg : Cfg} {es : List Event} {t : Tree} (h : Reachable cfg es t) :
    Consecutive 0 65536 (t.leaves.map (fun s => (s.lo, s.hi))) ∧
    (∀ sel, sel < 65536 → t.find sel ∈ t.leaves ∧ (t.find sel).lo ≤ sel ∧ sel < (t.find sel).hi ∧
      ∀ s ∈ t.leaves, s.lo ≤ sel → sel < s.hi → s = t.find sel) ∧
    (∀ s ∈ t.leaves, ∀ kv ∈ s.pairs, s.lo ≤ selectorOf cfg kv.1 ∧ selectorOf cfg kv.1 < s.hi) := by
  obtain ⟨w, _, hs, _⟩ := h.world
  refine ⟨Consecutive.of_chain hs.ok.chain, fun sel hsel => ?_, fun s hm kv hkv => ?_⟩
  · obtain ⟨h1, _, _, h4⟩ := hs.ok.find (sel := sel) ⟨Nat.zero_le _, hsel⟩
    exact ⟨h4, h1.1, h1.2, fun s hm a b => hs.ok.find_unique ⟨Nat.zero_le _, hsel⟩ hm ⟨a, b⟩⟩
  · have := (hs.ok.leaf_inv s hm).1
    exact this.val_span ((Shard.mem_pairs this).1 hkv)

/-- Not vacuous: the store of `C09_refuted` has three shards. -/
example : ∃ es t, Reachable mergeCfg es t ∧ t.leaves.map (fun s => (s.lo, s.hi)) ≠ [(0, 65536)] := by
  obtain ⟨es, t, h1, h2⟩ := checkT_sound merge_run
  refine ⟨es, t, h1, fun e => ?_⟩
  obtain ⟨w, _, hs, _⟩ := h1.world
  have hlen : t.leaves.length = 1 := by have := congrArg List.length e; simpa using this
  unfold mergeCheck Tree.mergeSmall at h2
  cases hf : t.finishAll mergeCfg with
  | none => rw [hf] at h2; cases h2
  | some u =>
    rw [hf] at h2
    dsimp only at h2
    by_cases hb : (u.leaves.any fun s => s.getStats.underflow) = true
    · rw [if_pos hb] at h2; cases h2
    rw [if_neg hb] at h2
    have hul : u.leaves.length = 1 := by
      cases t with
      | leaf s =>
        unfold Tree.finishAll at hf
        cases hs' : s.finish mergeCfg with
        | none => rw [hs'] at hf; cases hf
        | some s' => rw [hs'] at hf; cases hf; rfl
      | vertex b c =>
        have : ∀ x : Tree, 1 ≤ x.leaves.length := by
          intro x; induction x with
          | leaf s => simp [Tree.leaves]
          | vertex b c ih1 ih2 => simp [Tree.leaves]; omega
        have a1 := this b; have a2 := this c
        simp [Tree.leaves] at hlen; omega
    cases hn : calcNumShards (Nat.max (u.leaves.map (fun s => s.getStats.numItems)).sum mergeCfg.expectedKeys) with
    | none => rw [hn] at h2; cases h2
    | some needed =>
      rw [hn] at h2
      dsimp only at h2
      by_cases hz : u.leaves.length ≤ needed
      · rw [if_pos hz] at h2; cases h2
      · rw [if_neg hz] at h2
        have h0 : needed = 0 := by omega
        subst h0
        rw [hul] at h2
        have := (mergeRec_one mergeCfg 14745 u).1
        cases hr : u.mergeRec mergeCfg 14745 (1 - 0) with
        | deadlock => exact this hr
        | panic => rw [hr] at h2; cases h2
        | diverge => rw [hr] at h2; cases h2
        | ok r =>
          rw [hr] at h2
          dsimp only [Out.bind] at h2
          cases ht : treeify r.shards with
          | none => rw [ht] at h2; cases h2
          | some t' => rw [ht] at h2; cases h2

/-! ## C42 -/

/-- **C42.** For any collection of ranges, each nonempty, any two of which are nested or disjoint: consolidation keeps ranges that follow
each other without overlap, neither invents nor forgets a range, and removes only ranges contained in a kept one (so what was covered
stays covered). -/
theorem C42_consolidate (l : List (Nat × Nat)) (hne : ∀ a ∈ l, a.1 < a.2)
    (hnest : ∀ a ∈ l, ∀ b ∈ l, (b.1 ≤ a.1 ∧ a.2 ≤ b.2) ∨ (a.1 ≤ b.1 ∧ b.2 ≤ a.2) ∨ a.2 ≤ b.1 ∨ b.2 ≤ a.1) :
    let r := consolidate l
    (r.1 ++ r.2).Perm l ∧ r.1.Pairwise (fun a b => a.2 ≤ b.1) ∧ (∀ x ∈ r.2, ∃ y ∈ r.1, y.1 ≤ x.1 ∧ x.2 ≤ y.2) ∧
    ∀ sel, (∃ a ∈ l, a.1 ≤ sel ∧ sel < a.2) ↔ ∃ a ∈ r.1, a.1 ≤ sel ∧ sel < a.2 := by
  obtain ⟨h1, h2⟩ := consolidate_perm l
  refine ⟨h1, consolidate_disjoint l hne hnest, h2, fun sel => ?_⟩
  constructor
  · rintro ⟨a, ha, hs⟩
    rcases List.mem_append.1 (h1.mem_iff.2 ha) with hk | hr
    · exact ⟨a, hk, hs⟩
    · obtain ⟨y, hy, hw⟩ := h2 a hr
      exact ⟨y, hy, Nat.le_trans hw.1 hs.1, Nat.lt_of_lt_of_le hs.2 hw.2⟩
  · rintro ⟨a, ha, hs⟩
    exact ⟨a, h1.mem_iff.1 (List.mem_append.2 (Or.inl ha)), hs⟩

/-- Not vacuous: the files left by an interrupted split and an interrupted merge. -/
example : consolidate [(0, 100), (100, 200), (50, 100), (0, 50), (200, 300), (100, 300)] =
    ([(0, 100), (100, 300)], [(0, 50), (50, 100), (100, 200), (200, 300)]) := by
  simp [consolidate, List.mergeSort, List.MergeSort.Internal.splitInTwo, List.merge, spanLe, consolidateLoop]

/-! ## C49 -/

/-- **C49.** For every expected number of keys up to 65536 shards' worth, a new store consists of `2 ^ (16 - j)` shards of equal ranges
of `2 ^ j` selectors, enough for the expected keys (29491 = 90 % of the 64 * 512 slots each); the tree over them is well formed, and
the store is empty. -/
theorem C49_presplit_partial {cfg : Cfg} (h : cfg.expectedKeys ≤ 65536 * 29491) :
    ∃ t j, Tree.create cfg = some t ∧ Reachable cfg [] t ∧ j ≤ 16 ∧
      t.leaves.map (fun s => (s.lo, s.hi)) = (List.range (2 ^ (16 - j))).map (fun i => (i * 2 ^ j, (i + 1) * 2 ^ j)) ∧
      cfg.expectedKeys ≤ 29491 * 2 ^ (16 - j) ∧ ∀ k, t.get cfg k = none := by
  obtain ⟨j, hj, hstep, hcap⟩ := calcStep_cap h
  obtain ⟨t, h1, _, _, _, _, _, _, h8⟩ := Tree.create_spec h true
  refine ⟨t, j, h1, ⟨t, h1, .nil t⟩, hj, ?_, hcap, h8⟩
  have htile := initialSpans_tiling (cfg := cfg) (ex := true) hj END_OF_SHARDS 0 (Nat.dvd_zero _) (by decide) (by decide)
  obtain ⟨t', e1, _, _, e4⟩ := treeify_spec htile
  have : Tree.create cfg = some t' := by
    unfold Tree.create createInitialShards
    rw [hstep]
    exact e1
  rw [h1] at this
  simp only [Option.some.injEq] at this
  subst this
  rw [e4, List.map_map]
  have e := initialSpans_eq hj (2 ^ (16 - j)) 0 END_OF_SHARDS (by omega) (by
    show 2 ^ (16 - j) ≤ 2 ^ 16
    exact Nat.pow_le_pow_right (by decide) (by omega))
  rw [Nat.zero_mul] at e
  rw [e, List.map_map, ← List.range_eq_range']
  rfl

/-- **C49 is false beyond that**: creating a store for more than 65536 * 29491 keys (about 1.9 * 10^9) panics (`0u32.ilog2()`). -/
theorem C49_refuted {cfg : Cfg} (h : 65536 * 29491 < cfg.expectedKeys) : Tree.create cfg = none := by
  unfold Tree.create createInitialShards
  rw [calcStep_none h]
  rfl

/-- Not vacuous: 100000 keys give four shards. -/
example : (calcStep 100000).map (fun s => 65536 / s) = some 4 := by decide

end Candy.Props
