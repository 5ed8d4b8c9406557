import Verif.Model.MergeRace
import Verif.Props.Tree
import Verif.Proofs.TreeRunner
/-!
# C52: merge_small_shards concurrent with writers
-/
namespace Candy.Props

/-- `mergeLocked` is what `merge_small_shards` does once it has decided to. -/
theorem mergeSmall_eq (cfg : Cfg) (mf : Nat) (t : Tree) : t.mergeSmall cfg mf = match t.finishAll cfg with
    | none => .panic
    | some t => if t.leaves.any (fun s => s.getStats.underflow) then .panic else match calcNumShards (Nat.max (t.leaves.map (fun s => s.getStats.numItems)).sum cfg.expectedKeys) with
      | none => .panic
      | some needed => if t.leaves.length ≤ needed then .ok (t, false)
        else (t.mergeLocked cfg mf (t.leaves.length - needed)).bind (fun t' => .ok (t', t'.leaves.length != t.leaves.length)) := by
  unfold Tree.mergeSmall Tree.mergeLocked
  cases t.finishAll cfg with
  | none => rfl
  | some t =>
    dsimp only
    split
    · rfl
    cases calcNumShards (Nat.max (t.leaves.map (fun s => s.getStats.numItems)).sum cfg.expectedKeys) with
    | none => rfl
    | some needed =>
      dsimp only
      split
      · rfl
      · cases t.mergeRec cfg mf (t.leaves.length - needed) with
        | ok r =>
          simp only [Out.bind]
          cases treeify r.shards <;> rfl
        | _ => rfl

/-- **C52** (partial: no compaction is running when `merge_small_shards` gets the root lock; see also C09). Whatever calls other threads
have made since the items were counted - `es` is the whole history up to the moment the lock is taken, `n` the number of shards to remove
that was computed from the outdated counts - the merge loses, changes and adds nothing, if it returns. -/
theorem C52_merge_partial {cfg : Cfg} {es : List Event} {t t' : Tree} {mf n : Nat} (h : Reachable cfg es t) (hx : exactAfter true es = true) (hsm : t.Small)
    (hspans : ∀ s ∈ t.leaves, s.lo < s.hi) (hq : ∀ s ∈ t.leaves, s.tgt = none) (hmf : mf ≤ 14745)
    (hm : t.mergeLocked cfg mf n = .ok t') : (∀ k, t'.get cfg k = t.get cfg k) ∧ t'.pairs.Perm t.pairs := by
  obtain ⟨w, _, hs, _⟩ := h.worldEx
  rw [hx] at hs
  unfold Tree.mergeLocked at hm
  rcases Tree.mergeRec_spec (maxFill := mf) t n 0 65536 hs.ok hq hspans dyadic_full ((Tree.Quiet.small_iff hq).1 hsm) (.inl ⟨rfl, hmf⟩) with hd | ⟨r, e1, hM⟩
  · rw [hd] at hm; cases hm
  · rw [e1] at hm
    simp only [Out.bind] at hm
    obtain ⟨u, e2, hu, hun, e4⟩ := treeify_spec hM.tiling
    rw [e2] at hm
    simp only [Out.ok.injEq] at hm
    subst hm
    have hg : ∀ k, u.get cfg k = t.get cfg k := by
      intro k
      apply option_ext_some
      intro v
      rw [hu.get_iff (inSpan_full _), hs.ok.get_iff (inSpan_full _)]
      have := hM.holds k v
      unfold Holds at this
      rw [e4]
      exact this
    refine ⟨hg, distinct_perm hu.pairs_distinct hs.ok.pairs_distinct (fun kv => ?_)⟩
    rw [hu.mem_pairs, hs.ok.mem_pairs, hg]

/-- Two keys in two shards, one of them overwritten after the split; no compaction. -/
def quietScript : List Cmd := [.call (.kv [97] (.set [1, 2, 3])), .call (.kv [98] (.set [4, 5, 6]))]

def quietCfg : Cfg :=
  { hash := fun k => ⟨if k.head? = some 97 then 0#64 else 0x8000000000000000#64, 0#64⟩, maxShardSize := 8, minCompaction := 1000,
    expectedKeys := 0, maxListOps := 16 }

def quietCheck (t : Tree) : Bool :=
  decide (∀ s ∈ t.leaves, s.lo < s.hi) && t.leaves.all (fun s => s.tgt.isNone) && t.leaves.all (fun s => decide (s.src.writeOff < 1000)) && decide (t.leaves.length = 2) &&
  (match t.mergeLocked quietCfg 14745 1 with | .ok t' => decide (t'.leaves.length = 1) | _ => false)

set_option maxRecDepth 100000 in
theorem quiet_run : checkT quietCfg quietScript quietCheck = true := by decide +kernel

/-- Not vacuous: two shards are merged into one. -/
example : ∃ es t t', Reachable quietCfg es t ∧ (∀ s ∈ t.leaves, s.lo < s.hi) ∧ (∀ s ∈ t.leaves, s.tgt = none) ∧ t.Small ∧
    t.mergeLocked quietCfg 14745 1 = .ok t' ∧ t.leaves.length = 2 ∧ t'.leaves.length = 1 := by
  obtain ⟨es, t, h1, h2⟩ := checkT_sound quiet_run
  unfold quietCheck at h2
  cases hm : t.mergeLocked quietCfg 14745 1 with
  | ok t' =>
    rw [hm] at h2
    simp only [Bool.and_eq_true, decide_eq_true_eq, List.all_eq_true, Option.isNone_iff_eq_none] at h2
    have hq : ∀ s ∈ t.leaves, s.tgt = none := h2.1.1.1.2
    exact ⟨es, t, t', h1, h2.1.1.1.1, hq, (Tree.Quiet.small_iff hq).2 (fun s hs => Nat.lt_trans (h2.1.1.2 s hs) (by decide)), hm, h2.1.2, h2.2⟩
  | _ => rw [hm] at h2; simp at h2

/-! ## C52 is false -/

/-- The second thread runs alone until it leaves the loop. -/
def aloneRun (cfg : Cfg) (src : MFile) : Nat → Bool → MFile → Option MFile
  | 0, _, _ => none
  | n + 1, first, tgt => bif Nat.ble NUM_ROWS tgt.compactedUpTo then some tgt else (compactRow cfg first src tgt).bind (aloneRun cfg src n false)

theorem aloneRun_sound {cfg : Cfg} {src : MFile} {a : CompPc} (n : Nat) : ∀ (first : Bool) (tgt tgt' : MFile),
    aloneRun cfg src n first tgt = some tgt' → TwoComp cfg src tgt a (.atLoad first) tgt' a .done ∧ NUM_ROWS ≤ tgt'.compactedUpTo := by
  induction n with
  | zero => intro first tgt tgt' h; cases h
  | succ n ih =>
    intro first tgt tgt' h
    unfold aloneRun at h
    cases hb : Nat.ble NUM_ROWS tgt.compactedUpTo with
    | true =>
      rw [hb] at h
      cases h
      have := Nat.le_of_ble_eq_true hb
      exact ⟨.merge (.stop this) (.nil _ _ _), this⟩
    | false =>
      rw [hb] at h
      have hlt : tgt.compactedUpTo < NUM_ROWS := Nat.lt_of_not_le (fun hle => by rw [Nat.ble_eq_true_of_le hle] at hb; cases hb)
      simp only [cond_false] at h
      cases hc : compactRow cfg first src tgt with
      | none => rw [hc] at h; cases h
      | some t1 =>
        rw [hc] at h
        obtain ⟨h1, h2⟩ := ih _ _ _ h
        unfold compactRow compactRowPrims at hc
        cases hp : copyPrims cfg first tgt.compactedUpTo tgt 0 (src.liveRow tgt.compactedUpTo) with
        | none => rw [hp] at hc; cases hc
        | some ps =>
          rw [hp] at hc
          simp only [Option.map_some, Option.some.injEq] at hc
          subst hc
          exact ⟨.merge (.load hlt) (.merge (.copy hp) h1), h2⟩

theorem TwoComp.snoc_bg {cfg : Cfg} {src : MFile} {t t1 t2 : MFile} {a b a1 b1 a2 : CompPc} (h : TwoComp cfg src t a b t1 a1 b1)
    (hs : CompStep cfg src t1 a1 t2 a2) : TwoComp cfg src t a b t2 a2 b1 := by
  induction h with
  | nil => exact .bg hs (.nil _ _ _)
  | bg h _ ih => exact .bg h (ih hs)
  | merge h _ ih => exact .merge h (ih hs)

/-- The two threads both load the first row, both copy it, then the second runs to the end. -/
def raceRun (cfg : Cfg) (src tg : MFile) : Option MFile :=
  if tg.compactedUpTo < NUM_ROWS then
    match copyPrims cfg true tg.compactedUpTo tg 0 (src.liveRow tg.compactedUpTo) with
    | none => none
    | some ps =>
      match copyPrims cfg true tg.compactedUpTo (tg.run (ps ++ [.addCompacted])) 0 (src.liveRow tg.compactedUpTo) with
      | none => none
      | some qs => aloneRun cfg src 65 false ((tg.run (ps ++ [.addCompacted])).run (qs ++ [.addCompacted]))
  else none

set_option maxRecDepth 20000 in
theorem raceRun_sound {cfg : Cfg} {src tg tg' : MFile} (h : raceRun cfg src tg = some tg') :
    TwoComp cfg src tg (.atLoad true) (.atLoad true) tg' .done .done := by
  unfold raceRun at h
  split at h
  · rename_i hlt
    cases hp : copyPrims cfg true tg.compactedUpTo tg 0 (src.liveRow tg.compactedUpTo) with
    | none => rw [hp] at h; cases h
    | some ps =>
      rw [hp] at h
      dsimp only at h
      cases hq : copyPrims cfg true tg.compactedUpTo (tg.run (ps ++ [.addCompacted])) 0 (src.liveRow tg.compactedUpTo) with
      | none => rw [hq] at h; cases h
      | some qs =>
        rw [hq] at h
        obtain ⟨h1, h2⟩ := aloneRun_sound (a := .atLoad false) _ _ _ _ h
        exact TwoComp.snoc_bg (.bg (.load hlt) (.merge (.load hlt) (.bg (.copy hp) (.merge (.copy hq) h1)))) (.stop h2)
  · cases h

/-- Keys starting with `a` hash into the lower half of the shards; those starting with `b` and the others into the upper half, into different rows. -/
def raceCfg : Cfg :=
  { hash := fun k => ⟨if k.head? = some 97 then 1#64 else if k.head? = some 98 then 0x8000000100000001#64 else 0x8000000200000001#64, 0#64⟩,
    maxShardSize := 60, minCompaction := 1, expectedKeys := 0, maxListOps := 16 }

/-- Three keys are set, which splits the only shard; then one key is removed and set again, which starts a compaction. -/
def raceScript : List Cmd :=
  [.call (.kv [97] (.set (List.replicate 20 1))), .call (.kv [98] (.set (List.replicate 20 2))), .call (.kv [99] (.set (List.replicate 20 3))),
   .call (.kv [99] .remove), .call (.kv [99] (.set (List.replicate 20 4)))]

def raceCheck (t : Tree) : Bool :=
  match t with
  | .vertex (.leaf b) (.leaf s) =>
    match s.tgt with
    | none => false
    | some tg =>
      match raceRun raceCfg s.src tg, (Tree.vertex (.leaf b) (.leaf s)).mergeRec raceCfg 0 1 with
      | some tg', .ok r =>
        decide (r.shards.length = 2) && decide (calcNumShards 3 = some 1) &&
        decide ((Tree.vertex (.leaf b) (.leaf s)).userGet raceCfg [98] = some (List.replicate 20 2)) &&
        decide ((Tree.vertex (.leaf b) (.leaf ⟨s.lo, s.hi, tg', none⟩)).userGet raceCfg [98] = none)
      | _, _ => false
  | _ => false

set_option maxRecDepth 100000 in
theorem race_run : checkT raceCfg raceScript raceCheck = true := by decide +kernel

/-- **C52 is false.** `merge_small_shards(0.00001)` on a store of two shards (it needs one), while a compaction that another thread's `set` has
started is running: the bottom shard has more items than `max_fill` = 0 allows, so `_merge` merges nothing and does not wait for the compaction
of the top shard `s` (src/router.rs:412-414); `load` then opens `s` and compacts it a second time, into the same target. There is a schedule of
the two threads after which both have finished, and the target - which is the shard from now on - lacks the key `b`, that was in the store before
and that no call has removed. -/
theorem C52_refuted : ∃ (cfg : Cfg) (es : List Event) (b s : Shard) (tg tg' : MFile) (r : MergeOut) (k v : Bytes),
    Reachable cfg es (.vertex (.leaf b) (.leaf s)) ∧ s.tgt = some tg ∧
    (Tree.vertex (.leaf b) (.leaf s)).mergeRec cfg 0 1 = .ok r ∧ r.shards.length = 2 ∧
    TwoComp cfg s.src tg (.atLoad true) (.atLoad true) tg' .done .done ∧
    (Tree.vertex (.leaf b) (.leaf s)).userGet cfg k = some v ∧
    (Tree.vertex (.leaf b) (.leaf ⟨s.lo, s.hi, tg', none⟩)).userGet cfg k = none := by
  obtain ⟨es, t, h1, h2⟩ := checkT_sound race_run
  unfold raceCheck at h2
  split at h2
  · rename_i b s
    split at h2
    · cases h2
    · rename_i tg htg
      split at h2
      · rename_i tg' r hr hm
        simp only [Bool.and_eq_true, decide_eq_true_eq] at h2
        exact ⟨raceCfg, es, b, s, tg, tg', r, [98], List.replicate 20 2, h1, htg, hm, h2.1.1.1, raceRun_sound hr, h2.1.2, h2.2⟩
      · cases h2
  · cases h2

end Candy.Props
