import Verif.Proofs.BgRunner
import Verif.Props.Kv
/-!
# C77: background compactions that fail
-/
namespace Candy
open Spec

theorem Tree.Shape.of_scrub {lo hi : Nat} {t : Tree} (h : Tree.Shape lo hi t.scrub) : Tree.Shape lo hi t := by
  induction t generalizing lo hi with
  | leaf s => cases h with | leaf hlo hhi hle => exact .leaf hlo hhi hle
  | vertex x y ih1 ih2 => cases h with | vertex hle hb ht => exact .vertex hle (ih1 hb) (ih2 ht)

theorem Tree.graft_hi {lo hi : Nat} {t : Tree} (h : Tree.Shape lo hi t) {sel : Nat} (hs : inSpan lo hi sel) {b u : Shard}
    (hhi : u.hi = (t.find sel).hi) : (t.graft sel b u).hi = t.hi := by
  induction h with
  | leaf h1 h2 hle => exact hhi
  | @vertex lo hi x y hle hx hy ih1 ih2 =>
    have hxe := hx.hi_eq
    show Tree.hi (if sel < x.hi then .vertex (x.graft sel b u) y else .vertex x (y.graft sel b u)) = _
    rw [Tree.find_vertex] at hhi
    by_cases e : sel < x.hi
    · rw [if_pos e]; rfl
    · rw [if_neg e] at hhi ⊢
      exact ih2 ⟨by omega, hs.2⟩ hhi

/-- Replacing a leaf by two that cover its span leaves the other shards where they are. -/
theorem Tree.Shape.graft_find {lo hi : Nat} {t : Tree} (h : Tree.Shape lo hi t) {sel : Nat} (hs : inSpan lo hi sel) {b u : Shard}
    (hhi : u.hi = (t.find sel).hi) {sel' : Nat} (hs' : inSpan lo hi sel')
    (hn : ¬ inSpan (t.find sel).lo (t.find sel).hi sel') : (t.graft sel b u).find sel' = t.find sel' := by
  induction h with
  | leaf h1 h2 hle => subst h1 h2; exact absurd hs' hn
  | @vertex lo hi x y hle hx hy ih1 ih2 =>
    have hm := midOf_bounds hle
    have hxe := hx.hi_eq
    show Tree.find (if sel < x.hi then .vertex (x.graft sel b u) y else .vertex x (y.graft sel b u)) sel' = _
    rw [Tree.find_vertex] at hhi hn
    by_cases e : sel < x.hi
    · rw [if_pos e] at hhi hn ⊢
      have hsp : inSpan lo (midOf lo hi) sel := ⟨hs.1, hxe ▸ e⟩
      have hgh : (x.graft sel b u).hi = x.hi := Tree.graft_hi hx hsp hhi
      rw [Tree.find_vertex, Tree.find_vertex, hgh]
      by_cases e' : sel' < x.hi
      · rw [if_pos e', if_pos e']
        exact (ih1 hsp hhi ⟨hs'.1, hxe ▸ e'⟩ hn)
      · rw [if_neg e', if_neg e']
    · rw [if_neg e] at hhi hn ⊢
      have hsp : inSpan (midOf lo hi) hi sel := ⟨by omega, hs.2⟩
      rw [Tree.find_vertex, Tree.find_vertex]
      by_cases e' : sel' < x.hi
      · rw [if_pos e', if_pos e']
      · rw [if_neg e', if_neg e']
        exact (ih2 hsp hhi ⟨by omega, hs'.2⟩ hn)

end Candy

namespace Candy.Props
open Candy.Spec

/-- **C77.** When background compactions fail with I/O errors - at any point, any number of them - the store goes on answering like an ideal map, and a call that is given
the error of a compaction has happened or not; also when the store is then closed and opened, or dies, if the compactions failed between two rows
(`safe = true`, see `BRun`). -/
theorem C77_failed_compactions_partial {cfg : Cfg} {es : List BEvent} {S : BState} (h : BReachable cfg true es S) :
    LikeIdealMap cfg Map.empty (es.map BEvent.asIfDied) := by
  obtain ⟨w, h1, _⟩ := h.world
  exact specRun_likeIdealMap h1

/-- The same for all the APIs. -/
theorem C77_failed_compactions_world_partial {cfg : Cfg} {es : List BEvent} {S : BState} (h : BReachable cfg true es S) :
    ∃ w, SpecRun cfg World.new (es.map BEvent.asIfDied) w ∧ (∀ k, S.tree.userGet cfg k = w.kv k) := by
  obtain ⟨w, h1, _, h2⟩ := h.world
  exact ⟨w, h1, h2.kv⟩

/-- **C77**, the moment of the failure: no value changes. -/
theorem C77_failure_changes_nothing {cfg : Cfg} {es : List BEvent} {S S' : BState} (h : BReachable cfg true es S) (hb : BgStep cfg S S') (k : Bytes) :
    S'.tree.userGet cfg k = S.tree.userGet cfg k := by
  obtain ⟨w, _, h1, _⟩ := h.world
  unfold Tree.userGet
  rw [(hb.spec h1).2]

/-- Keys are placed in shards by their first byte, and all in row 0. -/
def byteCfg (maxShard minComp : UInt32) : Cfg :=
  { hash := fun b => ⟨(BitVec.ofNat 64 (b.headD 0).toNat <<< 56) ||| (BitVec.ofNat 64 (b.headD 0).toNat + 1#64), 0#64⟩, maxShardSize := maxShard, minCompaction := minComp,
    expectedKeys := 0, maxListOps := 16 }

theorem light_quiet {t : Tree} (h : t.lightB = true) (hq : t.leaves.all (fun s => s.tgt.isNone) = true) : t.Small := by
  intro s hs
  have h1 := List.all_eq_true.1 h s hs
  have h2 := List.all_eq_true.1 hq s hs
  simp only [Bool.and_eq_true, decide_eq_true_eq] at h1
  rw [Option.isNone_iff_eq_none] at h2
  exact ⟨by omega, fun t ht => by rw [h2] at ht; cases ht⟩

/-- What is checked of the directory left when the store has been closed. -/
def reopensTo (cfg : Cfg) (k v : Bytes) (S : BState) : Bool :=
  match S.tree with
  | .leaf s => decide (s.place ∈ S.dead) && decide (s.lo < s.hi) && (match openStore cfg false (filesOf [s]) with
    | (_, .ok t') => decide (t'.userGet cfg k = some v)
    | _ => false)
  | .vertex _ _ => false

theorem reopensTo_sound {cfg : Cfg} {k v : Bytes} {S : BState} (hok : S.OK cfg) (hl : S.tree.lightB = true) (h : reopensTo cfg k v S = true) :
    ∃ S', BRun cfg false S [.done .reopen] S' ∧ S'.tree.userGet cfg k = some v := by
  have hsm := hok.small hl
  unfold reopensTo at h
  obtain ⟨t, dead, unread⟩ := S
  cases t with
  | vertex => cases h
  | leaf s =>
    simp only [Bool.and_eq_true, decide_eq_true_eq] at h
    obtain ⟨⟨h1, h2⟩, h3⟩ := h
    cases ho : openStore cfg false (filesOf [s]) with
    | mk ops r =>
      rw [ho] at h3
      cases r with
      | err => cases h3
      | panic => cases h3
      | ok t' =>
        simp only [decide_eq_true_eq] at h3
        have hd : DirOf (filesOf [s]) (Tree.leaf s).leaves := filesOf_dirOf [s] (List.pairwise_singleton _ _)
        refine ⟨⟨t', [], []⟩, .reopen (u := .leaf s) (d := filesOf [s]) (clearBad := false) hsm ?_ (fun e => by cases e) ?_ hd (.done (hd.sized hsm) ho) (.nil _), h3⟩
        · intro x hx
          have : x = s := List.mem_singleton.1 hx
          subst this; exact h2
        · show (if s.place ∈ dead then _ else _) = _
          rw [if_pos h1]

/-- Removed keys come back: the store runs normally (`BReachable … true`, so C77 applies so far), a compaction fails in the middle of a row, a key of the row is removed, and the
store is closed and opened: the key is back, since the compaction is resumed in a file that still has it. -/
theorem C77_refuted_reopen : ∃ (cfg : Cfg) (es : List BEvent) (S S' : BState) (k v : Bytes), BReachable cfg true es S ∧ S.tree.userGet cfg k = none ∧
    BRun cfg false S [.done .reopen] S' ∧ S'.tree.userGet cfg k = some v := by
  obtain ⟨es, S, h1, h2, h3⟩ := checkB_sound (cfg := byteCfg 67108864 1) (cs := [.call (.kv [97] (.set [1])), .call (.kv [97] (.set [2])), .call (.kv [97] (.set [3])), .fail 0,
      .call (.kv [97] .remove)]) (chk := fun _ S => decide (S.tree.userGet (byteCfg 67108864 1) [97] = none) && S.tree.lightB && reopensTo (byteCfg 67108864 1) [97] [3] S) (by decide +kernel)
  simp only [Bool.and_eq_true, decide_eq_true_eq] at h3
  obtain ⟨⟨h3, h4⟩, h5⟩ := h3
  obtain ⟨S', h6, h7⟩ := reopensTo_sound h2 h4 h5
  exact ⟨_, es, S, S', [97], [3], h1 true, h3, h6, h7⟩

/-- What is checked of a merge. -/
def mergesTo (cfg : Cfg) (maxFill : Nat) (k v : Bytes) (S : BState) : Bool :=
  (S.tree.dropDead S.dead).lightB && (S.tree.dropDead S.dead).leaves.all (fun s => s.tgt.isNone) && S.unread.isEmpty &&
  (S.tree.dropDead S.dead).leaves.all (fun s => decide (s.lo < s.hi)) && decide (((S.tree.dropDead S.dead).leaves.map Shard.proj).sum < 4294967296) &&
  (match (S.tree.dropDead S.dead).finishAll cfg with
    | some t' => decide ((t'.leaves.map (fun s => s.getStats.numItems)).sum ≤ 65536 * 29491)
    | none => false) &&
  (match (S.tree.dropDead S.dead).mergeSmall cfg maxFill with
    | .ok (t', b) => b && t'.leaves.all (fun s => !decide (s.place ∈ S.dead)) && decide (t'.userGet cfg k = some v)
    | _ => false)

theorem mergesTo_sound {cfg : Cfg} {maxFill : Nat} {k v : Bytes} {S : BState} (h : mergesTo cfg maxFill k v S = true) :
    ∃ S', BRun cfg false S [.done (.merge true)] S' ∧ S'.tree.userGet cfg k = some v := by
  unfold mergesTo at h
  simp only [Bool.and_eq_true] at h
  obtain ⟨⟨⟨⟨⟨⟨h1, h2⟩, h3⟩, h4⟩, h5⟩, h6⟩, h7⟩ := h
  cases hm : (S.tree.dropDead S.dead).mergeSmall cfg maxFill with
  | ok x =>
    obtain ⟨t', b⟩ := x
    rw [hm] at h7
    simp only [Bool.and_eq_true, decide_eq_true_eq] at h7
    obtain ⟨⟨rfl, h8⟩, h9⟩ := h7
    refine ⟨⟨t', [], []⟩, .merge (maxFill := maxFill) (fun e => by cases e) (List.isEmpty_iff.1 h3) ⟨light_quiet h1 h2, fun s hs => by simpa using List.all_eq_true.1 h4 s hs,
      Or.inr (of_decide_eq_true h5), fun t2 e => ?_⟩ hm (fun s hs => by simpa using List.all_eq_true.1 h8 s hs) (.nil _), h9⟩
    rw [e] at h6
    exact of_decide_eq_true h6
  | panic => rw [hm] at h7; cases h7
  | diverge => rw [hm] at h7; cases h7
  | deadlock => rw [hm] at h7; cases h7

/-- Acknowledged writes are lost: a compaction fails after row 0, a key of that row is set (in the new file), `merge_small_shards` returns the error, and when it is called
again, it merges the shard's old file: the key has its old value. -/
theorem C77_refuted_merge : ∃ (cfg : Cfg) (es : List BEvent) (S S' : BState) (k v v' : Bytes), BReachable cfg true es S ∧ S.tree.userGet cfg k = some v ∧
    BRun cfg false S [.done (.merge true)] S' ∧ S'.tree.userGet cfg k = some v' ∧ v' ≠ v := by
  obtain ⟨es, S, h1, h2, h3⟩ := checkB_sound (cfg := byteCfg 9 5) (cs := [.call (.kv [1] (.set [1])), .call (.kv [255] (.set [1])), .call (.kv [255] (.set [2])), .call (.kv [255] (.set [3])),
      .call (.kv [1] (.set [2])), .call (.kv [1] (.set [3])), .call (.kv [1] (.set [4])), .work 0, .fail 0, .call (.kv [1] (.set [5])), .mergeFail (0, 32768)])
    (chk := fun _ S => decide (S.tree.userGet (byteCfg 9 5) [1] = some [5]) && mergesTo (byteCfg 9 5) 100 [1] [4] S) (by decide +kernel)
  simp only [Bool.and_eq_true, decide_eq_true_eq] at h3
  obtain ⟨S', h6, h7⟩ := mergesTo_sound h3.2
  exact ⟨_, es, S, S', [1], [5], [4], h1 true, h3.1, h6, h7, by decide⟩

/-- Not vacuous: a compaction fails after its first row; the store goes on serving and accepting writes. -/
example : ∃ (es : List BEvent) (S : BState), BReachable (byteCfg 67108864 1) true es S ∧ S.dead ≠ [] ∧ S.tree.userGet (byteCfg 67108864 1) [97] = some [4] ∧
    S.tree.userGet (byteCfg 67108864 1) [98] = some [7] := by
  obtain ⟨es, S, h1, h2, h3⟩ := checkB_sound (cfg := byteCfg 67108864 1) (cs := [.call (.kv [97] (.set [1])), .call (.kv [97] (.set [2])), .call (.kv [97] (.set [3])), .work 0, .fail 0,
      .call (.kv [97] (.set [4])), .call (.kv [98] (.set [7]))])
    (chk := fun _ S => !S.dead.isEmpty && decide (S.tree.userGet (byteCfg 67108864 1) [97] = some [4]) && decide (S.tree.userGet (byteCfg 67108864 1) [98] = some [7])) (by decide +kernel)
  simp only [Bool.and_eq_true, decide_eq_true_eq] at h3
  exact ⟨es, S, h1 true, by intro e; rw [e] at h3; exact absurd h3.1.1 (by decide), h3.1.2, h3.2⟩

/-- **C77**, where a shard whose compaction has failed is split all the same (which forgets what was written to the target of the
compaction): the keys of all the other shards keep their values. -/
theorem C77_split_elsewhere {cfg : Cfg} {es : List BEvent} {S : BState} (h : BReachable cfg true es S) {sel : Nat} (hs : sel < 65536) {b t : Shard}
    (hsp : Shard.split cfg { S.tree.find sel with tgt := none } = some (b, t)) {k : Bytes}
    (hk : ¬ inSpan (S.tree.find sel).lo (S.tree.find sel).hi (cfg.ph (userKey k)).shardSel) :
    (S.tree.graft sel b t).userGet cfg k = S.tree.userGet cfg k := by
  obtain ⟨w, _, h1, _⟩ := h.world
  have hsh := h1.sane.ok.shape.of_scrub
  have hhi : t.hi = (S.tree.find sel).hi := by
    unfold Shard.split Shard.finish at hsp
    dsimp only at hsp
    split at hsp
    · cases hsp; rfl
    · cases hsp
  unfold Tree.userGet Tree.get
  rw [hsh.graft_find ⟨Nat.zero_le _, hs⟩ hhi (inSpan_full _) hk]

def elsewhereCheck (S : BState) : Bool :=
  decide (S.dead ≠ []) && decide (S.tree.userGet (byteCfg 9 5) [255] = some [3]) && (Shard.split (byteCfg 9 5) { S.tree.find 256 with tgt := none }).isSome &&
  decide ((S.tree.find 256).place ∈ S.dead) && decide ((S.tree.find 256).hi ≤ 65280)

/-- Not vacuous: two shards, of which the first one's compaction has failed; the first is split, and a key of the second is read. -/
example : ∃ (es : List BEvent) (S : BState) (b t : Shard), BReachable (byteCfg 9 5) true es S ∧ (S.tree.find 256).place ∈ S.dead ∧
    Shard.split (byteCfg 9 5) { S.tree.find 256 with tgt := none } = some (b, t) ∧ (S.tree.graft 256 b t).userGet (byteCfg 9 5) [255] = some [3] := by
  obtain ⟨es, S, h1, h2, h3⟩ := checkB_sound (cfg := byteCfg 9 5) (cs := [.call (.kv [1] (.set [1])), .call (.kv [255] (.set [1])), .call (.kv [255] (.set [2])), .call (.kv [255] (.set [3])),
      .call (.kv [1] (.set [2])), .call (.kv [1] (.set [3])), .call (.kv [1] (.set [4])), .work 0, .fail 0, .call (.kv [1] (.set [5]))])
    (chk := fun _ S => elsewhereCheck S) (by decide +kernel)
  unfold elsewhereCheck at h3
  simp only [Bool.and_eq_true, decide_eq_true_eq, Option.isSome_iff_exists] at h3
  obtain ⟨⟨⟨⟨_, h4⟩, ⟨b, t⟩, h5⟩, h6⟩, h7⟩ := h3
  refine ⟨es, S, b, t, h1 true, h6, h5, ?_⟩
  rw [C77_split_elsewhere (h1 true) (by decide) h5 (fun h => ?_), h4]
  have e : ((byteCfg 9 5).ph (userKey [255])).shardSel = 65280 := by decide +kernel
  rw [e] at h
  have := h.2
  omega

end Candy.Props
