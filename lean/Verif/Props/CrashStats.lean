import Verif.Props.Create
import Verif.Props.Tree
import Verif.Props.Iter
import Verif.Props.ErrorDir
/-!
# C82: the statistics after a crash
-/
namespace Candy.Props
open Candy.Spec

/-- The sums of the counters of the shards, with slack. -/
theorem sumStats_bytes : ∀ (l : List Shard), (∀ s ∈ l, s.tgt = none ∧ s.AcctInv false) →
    bytesOf (l.flatMap Shard.pairs) + (sumStats (l.map Shard.getStats)).wasted ≤ (sumStats (l.map Shard.getStats)).occupied ∧
      (sumStats (l.map Shard.getStats)).numShards = l.length
  | [], _ => ⟨Nat.le_refl _, rfl⟩
  | s :: l, h => by
    obtain ⟨h1, h2⟩ := sumStats_bytes l (fun x hx => h x (List.mem_cons_of_mem _ hx))
    obtain ⟨hq, ha, _⟩ := h s (List.mem_cons_self ..)
    obtain ⟨d, e, ⟨a1, _⟩, _⟩ := ha
    have w2 : bytesOf s.pairs = liveBytes s.src := Shard.pairs_weight hq kvSize
    have e1 : (sumStats ((s :: l).map Shard.getStats)).numShards = (sumStats (l.map Shard.getStats)).numShards + 1 := rfl
    have e4 : (sumStats ((s :: l).map Shard.getStats)).occupied = s.src.writeOff + (sumStats (l.map Shard.getStats)).occupied := rfl
    have e5 : (sumStats ((s :: l).map Shard.getStats)).wasted = s.src.wasted + (sumStats (l.map Shard.getStats)).wasted := rfl
    have b1 : bytesOf ((s :: l).flatMap Shard.pairs) = bytesOf s.pairs + bytesOf (l.flatMap Shard.pairs) := by
      rw [List.flatMap_cons]; unfold bytesOf; rw [List.map_append, List.sum_append]
    rw [e1, e4, e5, b1, h2, List.length_cons]
    exact ⟨by omega, rfl⟩

/-- **C82** (partial: the sizes only, see `C82_refuted` for the number of entries). After any history, with crashes anywhere: `stats()` succeeds and changes nothing,
the number of shards is right, and `data_bytes()` does not underflow and is at least the size of the stored pairs - it may be more, since the bytes of an unfinished write are
counted until the next compaction. -/
theorem C82_data_bytes_partial {cfg : Cfg} {es : List Event} {t : Tree} (h : Reachable cfg es t) (hsm : t.Small) :
    ∃ t' st, t.stats cfg = some (t', st) ∧ t'.get cfg = t.get cfg ∧ st.wasted ≤ st.occupied ∧ st.numShards = t.leaves.length ∧
      ∀ L : List KV, L.Pairwise (fun a b => a.1 ≠ b.1) → (∀ k v, (k, v) ∈ L ↔ t.get cfg k = some v) → totalBytes L ≤ st.dataBytes := by
  obtain ⟨w, _, hs, _⟩ := h.world
  obtain ⟨t', h1, h2, h3, h4, h5, h6⟩ := Tree.finishAll_spec hs.ok hsm
  have hg : t'.get cfg = t.get cfg := funext fun k => h6 k (inSpan_full _)
  obtain ⟨e1, e2⟩ := sumStats_bytes t'.leaves (fun s hm => ⟨h4 s hm, (h2.leaf_inv s hm).2⟩)
  refine ⟨t', _, by unfold Tree.stats; rw [h1]; rfl, hg, by omega, ?_, fun L hL hmem => ?_⟩
  · have := congrArg List.length h5
    simp only [List.length_map] at this
    rw [e2, this]
  · have hp : L.Perm t'.pairs := distinct_perm hL h2.pairs_distinct (fun kv => by
      rw [h2.mem_pairs, hg]; exact hmem kv.1 kv.2)
    unfold Stats.dataBytes
    have : totalBytes L = bytesOf t'.pairs := (hp.map _).sum_nat
    rw [this]
    show bytesOf (t'.leaves.flatMap Shard.pairs) ≤ _
    omega

/-! ## The number of entries -/

/-- Opening a directory that holds one shard file. -/
theorem openStore_one (cfg : Cfg) (clearBad : Bool) (f : MFile) :
    ∃ ops, openStore cfg clearBad [(⟨.shard, 0, 65536⟩, .good f)] = (ops, .ok (.leaf ⟨0, 65536, f, none⟩)) := by
  have hs : scanDir [(⟨.shard, 0, 65536⟩, .good f)] = ([], some [(0, 65536)]) := by simp [scanDir, END_OF_SHARDS]
  have hcons : consolidate [(0, 65536)] = ([(0, 65536)], []) := by
    simp [consolidate, consolidateLoop]
  have hl : ∃ ops, load cfg clearBad [(⟨.shard, 0, 65536⟩, .good f)] = (ops, .ok [⟨0, 65536, f, none⟩]) := by
    unfold load
    rw [hs]
    dsimp only
    rw [hcons]
    exact ⟨_, rfl⟩
  obtain ⟨ops, hl⟩ := hl
  have ht : treeify [⟨0, 65536, f, none⟩] = some (.leaf ⟨0, 65536, f, none⟩) := by
    have hp : isPow2 65536 = true := by decide +kernel
    simp [treeify, sortedByStart, Tree.len, Tree.lo, Tree.hi, treeLoop, END_OF_SHARDS, hp]
  refine ⟨ops, ?_⟩
  unfold openStore
  rw [hl]
  dsimp only
  rw [ht]

theorem one_run (n : FName) : ∀ (ps : List Prim) (f : MFile), Dir.run [(n, .good f)] (onFile n ps) = some [(n, .good (f.run ps))] := by
  intro ps
  induction ps with
  | nil => intro f; rfl
  | cons p ps ih =>
    intro f
    have : FOp.app [(n, .good f)] (.prim n p) = some [(n, .good (p.app f))] := by simp [FOp.app, Dir.find, Dir.put, Dir.del]
    show (match FOp.app [(n, .good f)] (.prim n p) with | none => none | some d' => Dir.run d' (onFile n ps)) = _
    rw [this]
    exact ih _

theorem one_sized {f : MFile} (h : f.writeOff < 4294967296) : Dir.Sized [(⟨.shard, 0, 65536⟩, .good f)] := by
  intro a b g hg
  simp only [Dir.find, FName.mk.injEq, reduceCtorEq, false_and, if_false, true_and, Option.map_none] at hg ⊢
  split at hg
  · simp only [Option.some.injEq, DFile.good.injEq] at hg
    subst hg
    exact small_of rfl h
  · cases hg

theorem remove_prog (cfg : Cfg) (k : Bytes) : ∃ c : Option Bytes → Prog Resp, (Call.kv k .remove).prog cfg = .rem (userKey k) c ∧
    ∀ o, (c o).result = some (.ok (.val o)) := ⟨_, rfl, fun _ => rfl⟩

theorem set_prog (cfg : Cfg) {k v : Bytes} (hf : Fits cfg k v) : sizeErr cfg (userKey k) v = none ∧
    ∃ c : InsStatus → Prog Resp, (Call.kv k (.set v)).prog cfg = .ins (userKey k) v .set c ∧ (c .added).result = some (.ok (.setStatus .createdNew)) := by
  obtain ⟨hk, hv, hm⟩ := hf
  refine ⟨?_, ?_⟩
  · unfold sizeErr userKey USER_NS
    have e1 : MAX_TOTAL_KEY_SIZE = 16383 := rfl
    have e2 : MAX_TOTAL_VALUE_SIZE = 65535 := rfl
    rw [List.length_append, List.length_singleton, e1, e2, if_neg (by omega), if_neg (by omega), if_neg (by omega)]
  · have hens : ensureSizes k v = .ret () := by
      unfold ensureSizes
      have e1 : MAX_KEY_SIZE = 16128 := rfl
      have e2 : MAX_VALUE_SIZE = 65280 := rfl
      rw [e1, e2, if_neg (by omega), if_neg (by omega)]
    unfold Call.prog
    dsimp only
    unfold KvOp.prog kvSet
    dsimp only
    rw [hens]
    exact ⟨_, rfl, rfl⟩

theorem onFile_prefix (n : FName) (ps : List Prim) (i : Nat) (l : List FOp) : ∃ rest, onFile n ps ++ l = onFile n (ps.take i) ++ rest := by
  refine ⟨onFile n (ps.drop i) ++ l, ?_⟩
  unfold onFile
  rw [← List.append_assoc, ← List.map_append, List.take_append_drop]

/-- The process dies after `i` stores to the only file, in the middle of a `set`. -/
theorem dies_set {cfg : Cfg} {s s1 : Shard} {k v : Bytes} {st : InsStatus} (i : Nat) (hf : Fits cfg k v) (h0 : s.lo = 0) (h1 : s.hi = 65536) (hq : s.tgt = none)
    (hoff : s.src.writeOff < 4294967296) (hi : (Tree.leaf s).insert cfg (cfg.ph (userKey k)) (userKey k) v .set 1 = .ok (.leaf s1, st)) (hn : s1.lo < s1.hi) :
    Dies cfg (.leaf s) (some (.kv k (.set v)))
      [(⟨.shard, 0, 65536⟩, .good (s.src.run ((s.insertPlan cfg (cfg.ph (userKey k)) (userKey k) v .set).1.take i)))] := by
  obtain ⟨hz, c, hc, _⟩ := set_prog cfg hf
  have hsm : Tree.Small (.leaf s) := by intro x hx; simp only [Tree.leaves, List.mem_singleton] at hx; subst hx; exact small_of hq hoff
  refine .call (.refl _ _) hsm (by intro x hx; simp only [Tree.leaves, List.mem_singleton] at hx; subst hx; rw [h0, h1]; decide) ⟨filesOf [s], _,
    filesOf_dirOf [s] (by simp), ?_, .refl _⟩
  rw [hc]
  refine .ins _ _ _ c 1 _ st _ _ hz hi (by intro x hx; simp only [Tree.leaves, List.mem_singleton] at hx; subst hx; exact hn) ?_
  have e : filesOf [s] = [(⟨.shard, 0, 65536⟩, .good s.src)] := by
    simp only [filesOf, hq, Shard.srcName, h0, h1]
  have ea : s.activeName (cfg.ph (userKey k)).rowSel = ⟨.shard, 0, 65536⟩ := by
    unfold Shard.activeName; rw [hq]; simp only [Shard.srcName, h0, h1]
  have ho : ∃ rest, (Tree.leaf s).insertOps cfg (cfg.ph (userKey k)) (userKey k) v .set 1 =
      onFile ⟨.shard, 0, 65536⟩ ((s.insertPlan cfg (cfg.ph (userKey k)) (userKey k) v .set).1.take i) ++ rest := by
    unfold Tree.insertOps Shard.insertOps
    dsimp only
    rw [ea]
    rw [List.append_assoc]
    exact onFile_prefix _ _ _ _
  obtain ⟨rest, ho⟩ := ho
  rw [ho, e]
  exact crash_prefix (one_run _ _ _)

/-- The process dies after `i` stores to the only file, in the middle of a `remove`. -/
theorem dies_remove {cfg : Cfg} {s : Shard} {k : Bytes} (i : Nat) (h0 : s.lo = 0) (h1 : s.hi = 65536) (hq : s.tgt = none)
    (hoff : s.src.writeOff < 4294967296) :
    Dies cfg (.leaf s) (some (.kv k .remove)) [(⟨.shard, 0, 65536⟩, .good (s.src.run ((s.removePlan (cfg.ph (userKey k)) (userKey k)).1.take i)))] := by
  obtain ⟨c, hc, _⟩ := remove_prog cfg k
  have hsm : Tree.Small (.leaf s) := by intro x hx; simp only [Tree.leaves, List.mem_singleton] at hx; subst hx; exact small_of hq hoff
  refine .call (.refl _ _) hsm (by intro x hx; simp only [Tree.leaves, List.mem_singleton] at hx; subst hx; rw [h0, h1]; decide) ⟨filesOf [s], _,
    filesOf_dirOf [s] (by simp), ?_, .refl _⟩
  rw [hc]
  refine .rem _ c _ _ ?_
  have e : filesOf [s] = [(⟨.shard, 0, 65536⟩, .good s.src)] := by
    simp only [filesOf, hq, Shard.srcName, h0, h1]
  have ea : s.activeName (cfg.ph (userKey k)).rowSel = ⟨.shard, 0, 65536⟩ := by
    unfold Shard.activeName; rw [hq]; simp only [Shard.srcName, h0, h1]
  have ho : ∃ rest, (Tree.leaf s).removeOps cfg (userKey k) =
      onFile ⟨.shard, 0, 65536⟩ ((s.removePlan (cfg.ph (userKey k)) (userKey k)).1.take i) ++ rest := by
    have : (Tree.leaf s).removeOps cfg (userKey k) = s.removeOps (cfg.ph (userKey k)) (userKey k) := rfl
    rw [this]
    unfold Shard.removeOps
    rw [ea]
    refine ⟨onFile ⟨.shard, 0, 65536⟩ ((s.removePlan (cfg.ph (userKey k)) (userKey k)).1.drop i), ?_⟩
    unfold onFile
    rw [← List.map_append, List.take_append_drop]
  obtain ⟨rest, ho⟩ := ho
  rw [ho, e]
  exact crash_prefix (one_run _ _ _)

/-- A `set` of a new key cut off before the last of its five stores, reopening, and a `remove`. -/
def underflowCheck : Bool :=
  let k := userKey [97]
  let ph := runCfg.ph k
  match Tree.create runCfg with
  | some (.leaf s0) =>
    match (Tree.leaf s0).insert runCfg ph k [1] .set 1 with
    | .ok (.leaf s1, .added) =>
      let f := s0.src.run ((s0.insertPlan runCfg ph k [1] .set).1.take 4)
      let t := Tree.leaf ⟨0, 65536, f, none⟩
      s0.tgt.isNone && decide (s0.lo = 0) && decide (s0.hi = 65536) && decide (s0.src.writeOff < 4294967296) && decide (s1.lo < s1.hi) &&
        decide (f.writeOff < 4294967296) && decide ((t.remove runCfg k).2 = some [1]) &&
        (match t.remove runCfg k with
         | (.leaf s2, _) => s2.tgt.isNone && decide (s2.src.numInserts < s2.src.numRemovals)
         | _ => false)
    | _ => false
  | _ => false

/-- **C82 is false**, the number of entries may underflow: the process dies inside a `set`, after the entry has become visible and before it is counted (src/shard.rs:1018-1024). After
reopening the key is there; once it has been removed, there are more removals than insertions: `Stats::num_entries` subtracts with overflow (src/stats.rs:52-54), and
`merge_small_shards` panics (src/shard.rs:332-334). -/
theorem C82_refuted_underflow : ∃ (t u : Tree) (st : Stats), Reachable runCfg [.crash (some (.kv [97] (.set [1]))), .call (.kv [97] .remove) (.ok (.val (some [1])))] t ∧
    t.stats runCfg = some (u, st) ∧ st.numInserts < st.numRemovals ∧ ∀ maxFill, t.mergeSmall runCfg maxFill = .panic := by
  have hc : underflowCheck = true := by decide +kernel
  unfold underflowCheck at hc
  dsimp only at hc
  split at hc
  · rename_i s0 e0
    split at hc
    · rename_i s1 e1
      simp only [Bool.and_eq_true, decide_eq_true_eq, Option.isNone_iff_eq_none] at hc
      obtain ⟨⟨⟨⟨⟨⟨⟨c1, c2⟩, c3⟩, c4⟩, c5⟩, c6⟩, c7⟩, c8⟩ := hc
      split at c8
      · rename_i s2 o e2
        simp only [Bool.and_eq_true, decide_eq_true_eq, Option.isNone_iff_eq_none] at c8
        have hd := dies_set (k := [97]) (v := [1]) 4 ⟨by decide, by decide, by decide⟩ c2 c3 c1 c4 e1 c5
        obtain ⟨ops, ho⟩ := openStore_one runCfg true (s0.src.run ((s0.insertPlan runCfg (runCfg.ph (userKey [97])) (userKey [97]) [1] .set).1.take 4))
        obtain ⟨c, hp, hr⟩ := remove_prog runCfg [97]
        have hf : (Tree.leaf s2).finishAll runCfg = some (.leaf s2) := by simp [Tree.finishAll, Shard.finish, c8.1]
        refine ⟨.leaf s2, .leaf s2, sumStats [s2.getStats], ⟨_, e0, .crash hd (.done (one_sized c6) ho) (.call (.step (p' := c (some [1])) ?_ ?_ (.refl _ _)) (hr _) (by simp) (.nil _))⟩,
          by unfold Tree.stats; rw [hf]; rfl, ?_, fun mf => ?_⟩
        · intro x hx; simp only [Tree.leaves, List.mem_singleton] at hx; subst hx; exact small_of rfl c6
        · have := CStep.rem (cfg := runCfg) (Tree.leaf ⟨0, 65536, s0.src.run ((s0.insertPlan runCfg (runCfg.ph (userKey [97])) (userKey [97]) [1] .set).1.take 4), none⟩)
            (userKey [97]) c
          rw [c7, e2, ← hp] at this
          exact this
        · show s2.src.numInserts + 0 < s2.src.numRemovals + 0
          omega
        · unfold Tree.mergeSmall
          rw [hf]
          dsimp only
          have : (Tree.leaf s2).leaves.any (fun s => s.getStats.underflow) = true := by
            rw [List.any_eq_true]
            exact ⟨s2, by simp [Tree.leaves], decide_eq_true c8.2⟩
          rw [if_pos this]
      · cases c8
    · cases hc
  · cases hc

/-- A `set`, and a `remove` cut off after the first of its three stores. -/
def overcountCheck : Bool :=
  let k := userKey [97]
  let ph := runCfg.ph k
  match Tree.create runCfg with
  | some (.leaf s0) =>
    match (Tree.leaf s0).insert runCfg ph k [1] .set 1 with
    | .ok (.leaf s1, .added) =>
      let f := s1.src.run ((s1.removePlan ph k).1.take 1)
      s0.tgt.isNone && decide (s0.src.writeOff < 4294967296) && s1.tgt.isNone && decide (s1.lo = 0) && decide (s1.hi = 65536) && decide (s1.src.writeOff < 4294967296) &&
        decide (f.writeOff < 4294967296) && (Tree.leaf ⟨0, 65536, f, none⟩).pairs.isEmpty && decide (f.numInserts = 1) && decide (f.numRemovals = 0)
    | _ => false
  | _ => false

/-- **C82 is false**, the number of entries may stay too high: the process dies inside a `remove`, after the entry has vanished and before that is counted (src/shard.rs:1057-1059): the key
is gone, and the store counts one entry. -/
theorem C82_refuted_overcount : ∃ (t u : Tree) (st : Stats), Reachable runCfg [.call (.kv [97] (.set [1])) (.ok (.setStatus .createdNew)), .crash (some (.kv [97] .remove))] t ∧
    t.Small ∧ t.stats runCfg = some (u, st) ∧ st.numEntries = 1 ∧ t.pairs = [] := by
  have hc : overcountCheck = true := by decide +kernel
  unfold overcountCheck at hc
  dsimp only at hc
  split at hc
  · rename_i s0 e0
    split at hc
    · rename_i s1 e1
      simp only [Bool.and_eq_true, decide_eq_true_eq, Option.isNone_iff_eq_none] at hc
      obtain ⟨⟨⟨⟨⟨⟨⟨⟨⟨c1, c2⟩, c3⟩, c4⟩, c5⟩, c6⟩, c7⟩, c8⟩, c9⟩, c10⟩ := hc
      have hd := dies_remove (cfg := runCfg) (k := [97]) 1 c4 c5 c3 c6
      obtain ⟨ops, ho⟩ := openStore_one runCfg true (s1.src.run ((s1.removePlan (runCfg.ph (userKey [97])) (userKey [97])).1.take 1))
      obtain ⟨hz, c, hp, hr⟩ := set_prog runCfg (k := [97]) (v := [1]) ⟨by decide, by decide, by decide⟩
      have hrun : Reachable runCfg [.call (.kv [97] (.set [1])) (.ok (.setStatus .createdNew)), .crash (some (.kv [97] .remove))]
          (.leaf ⟨0, 65536, s1.src.run ((s1.removePlan (runCfg.ph (userKey [97])) (userKey [97])).1.take 1), none⟩) := by
        refine ⟨_, e0, .call (.step (p' := c .added) ?_ ?_ (.refl _ _)) hr (by simp) (.crash hd (.done (one_sized c7) ho) (.nil _))⟩
        · intro x hx; simp only [Tree.leaves, List.mem_singleton] at hx; subst hx; exact small_of c1 c2
        · rw [hp]; exact .ins _ _ _ _ _ c _ 1 hz e1
      refine ⟨_, _, _, hrun, by intro x hx; simp only [Tree.leaves, List.mem_singleton] at hx; subst hx; exact small_of rfl c7, rfl, ?_, ?_⟩
      · show (_ + 0) - (_ + 0) = 1
        show (s1.src.run _).numInserts + 0 - ((s1.src.run _).numRemovals + 0) = 1
        rw [c9, c10]
      · exact List.isEmpty_iff.1 c8
    · cases hc
  · cases hc

/-- The hypotheses of `C82_data_bytes_partial` are met after a crash inside a call. -/
example : ∃ es t, Reachable runCfg es t ∧ es.length = 2 ∧ t.Small ∧ ∃ t' st, t.stats runCfg = some (t', st) ∧ st.numShards = t.leaves.length := by
  obtain ⟨t, _, _, h, hs, _⟩ := C82_refuted_overcount
  obtain ⟨t', st, e, _, _, e2, _⟩ := C82_data_bytes_partial h hs
  exact ⟨_, t, h, rfl, hs, t', st, e, e2⟩

end Candy.Props
