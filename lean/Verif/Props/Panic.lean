import Verif.Props.Lists
import Verif.Props.Queues
import Verif.Props.Tree
import Verif.Props.Isolation
/-!
# C55: panics

A failed assertion, an `unreachable!`, an arithmetic underflow or an impossible conversion is an explicit outcome of the model: `none` or
`.panic`. (Overflow checks are those of a debug build; in a release build the counters wrap around instead.)
-/
namespace Candy.Props
open Candy.Spec

/-! ## The shards -/

/-- **C55**, shards: in no state in which the store can be - between calls or in the middle of a call `c` - can an insertion of a pair within the limits,
a step of a background compaction, or waiting for the compactions (as `stats`, `merge_small_shards` and closing do) fail an assertion. The files
are below 4 GiB. -/
theorem C55_shards {cfg : Cfg} {es : List Event} {t t' : Tree} {c : Call} {p : Prog Resp} (h : Reachable cfg es t)
    (hx : CExec cfg Tree.Small t (c.prog cfg) t' p) (hsm : t'.Small) :
    (∀ k v mode n, sizeErr cfg k v = none → t'.insert cfg (cfg.ph k) k v mode n ≠ .panic) ∧
    (∀ sel, t'.bgStep cfg sel ≠ none) ∧ t'.finishAll cfg ≠ none := by
  obtain ⟨w, _, hs, _⟩ := h.world
  obtain ⟨ho, _⟩ := hx.sim hs.ok
  refine ⟨fun k v mode n hse hp => ?_, fun sel hp => ?_, fun hp => ?_⟩
  · have hk : k.length < 65536 := by
      unfold sizeErr at hse
      split at hse
      · cases hse
      · rename_i hk; simp only [MAX_TOTAL_KEY_SIZE] at hk; omega
    have hv : v.length < 65536 := by
      unfold sizeErr at hse
      split at hse
      · cases hse
      · split at hse
        · cases hse
        · rename_i hv; simp only [MAX_TOTAL_VALUE_SIZE] at hv; omega
    rcases Tree.insert_spec (mode := mode) hk hv n t' 0 END_OF_SHARDS ho hsm (inSpan_full _) with hd | ⟨u, hu, _⟩
    · rw [hd] at hp; cases hp
    · rw [hu] at hp; cases hp
  · obtain ⟨u, hu, _⟩ := Tree.bgStep_spec ho hsm sel
    rw [hu] at hp; cases hp
  · obtain ⟨u, hu, _⟩ := Tree.finishAll_spec ho hsm
    rw [hu] at hp; cases hp

/-- **C55**, statistics and merging: without crashes the subtractions in `stats` do not underflow, and `merge_small_shards` does not panic. -/
theorem C55_stats_merge {cfg : Cfg} {es : List Event} {t u : Tree} {mf : Nat} (h : Reachable cfg es t) (hx : exactAfter true es = true) (hsm : t.Small)
    (hu : t.finishAll cfg = some u) :
    (∀ s ∈ u.leaves, s.getStats.numRemovals ≤ s.getStats.numInserts ∧ s.getStats.wasted ≤ s.getStats.writeOff) ∧
    ((∀ s ∈ t.leaves, s.lo < s.hi) → mf ≤ 14745 → (u.leaves.map (fun s => s.getStats.numItems)).sum ≤ 65536 * 29491 → t.mergeSmall cfg mf ≠ .panic) := by
  obtain ⟨w, _, hs, _⟩ := h.worldEx
  rw [hx] at hs
  refine ⟨?_, fun hn hmf hcap => ?_⟩
  · obtain ⟨v, v1, v2, v3, v4, v5, v6⟩ := Tree.finishAll_spec hs.ok hsm
    rw [v1] at hu
    cases hu
    intro s hm
    obtain ⟨d, e, ⟨h1, h2⟩, h3⟩ := (v2.leaf_inv s hm).2.1
    obtain ⟨rfl, rfl⟩ := h3 rfl
    have e1 : s.getStats.numRemovals = s.src.numRemovals := rfl
    have e2 : s.getStats.numInserts = s.src.numInserts := rfl
    have e3 : s.getStats.wasted = s.src.wasted := rfl
    have e4 : s.getStats.writeOff = s.src.writeOff := rfl
    omega
  · rcases Tree.mergeSmall_spec hs.ok hn hsm (Or.inl ⟨rfl, hmf⟩) (fun x hx => by rw [hu] at hx; cases hx; exact hcap) hs.bound (hs.ok.counted hsm) with hd | ⟨y, b', e1, _⟩
    · rw [hd]; exact fun e => by cases e
    · rw [e1]; exact fun e => by cases e

theorem checkT_small {cfg : Cfg} {cs : List Cmd} {chk : Tree → Bool} (h : checkT cfg cs chk = true) :
    ∃ es t, Reachable cfg es t ∧ t.Small ∧ chk t = true := by
  unfold checkT at h
  cases hc : Tree.create cfg with
  | none => rw [hc] at h; cases h
  | some t0 =>
    rw [hc] at h
    dsimp only at h
    cases hr : runT cfg cs 0 t0 with
    | none => rw [hr] at h; cases h
    | some x =>
      obtain ⟨n, t, es⟩ := x
      rw [hr] at h
      simp only [Bool.and_eq_true, decide_eq_true_eq] at h
      have hb := runT_sound cs _ _ hr
      exact ⟨es, t, Reachable.of_budget hc hb h.1, Tree.small_of_pot (Nat.lt_of_le_of_lt (hb.pot_le hc h.1) h.1), h.2⟩

set_option maxRecDepth 100000 in
/-- Not vacuous: a store in the middle of a compaction, at the beginning of a call. -/
example : ∃ es t, Reachable compactingCfg es t ∧ CExec compactingCfg Tree.Small t ((Call.kv [97] .get).prog compactingCfg) t ((Call.kv [97] .get).prog compactingCfg) ∧
    t.Small ∧ (t.find 0).tgt.isSome = true := by
  obtain ⟨es, t, h1, h2, h3⟩ := checkT_small (show checkT compactingCfg [.call (.kv [97] (.set [1])), .call (.kv [97] (.set [2])), .call (.kv [98] (.set [3])), .bg 0]
      (fun t => (t.find 0).tgt.isSome) = true by decide +kernel)
  exact ⟨es, t, h1, .refl _ _, h2, h3⟩

/-! ## The calls -/

/-- **C55**, key-value calls, typed or not: no call panics, whatever the history (crashes included). -/
theorem C55_kv {cfg : Cfg} {es : List Event} {t t' : Tree} {k : Bytes} {op : KvOp} (h : Reachable cfg es t) :
    ¬ Calls cfg t (.kv k op) .panic t' ∧ ¬ Calls cfg t (.typed k op) .panic t' := by
  constructor
  all_goals
    intro hc
    obtain ⟨w, w', _, _, hst, _⟩ := h.step hc (by simp)
    obtain ⟨m', h1, _⟩ := hst
    unfold kvStep at h1
    split at h1
    · cases h1.1
    · cases h1.1

/-- **C55**, list calls: no call panics, on a list whose hash no other list in use has, and inside whose removals the process has not died. -/
theorem C55_list {cfg : Cfg} {es : List Event} {t t' : Tree} {lk : Bytes} {op : LOp} (h : Reachable cfg es t) (hn : Orderly cfg lk es) :
    ¬ Calls cfg t (.list lk op) .panic t' := by
  intro hc
  obtain ⟨s, a1, _⟩ := list_state lk h hn
  obtain ⟨s', h1, _⟩ := a1.step hc (by simp)
  exact h1

/-- **C55**, queue calls: no call but `remove_from_queue` panics, as long as `remove_from_queue` has not been used on the queue. -/
theorem C55_queue_partial {cfg : Cfg} {es : List Event} {t t' : Tree} {qk : Bytes} {op : QOp} (h : Reachable cfg es t) (hn : NoQRemove qk es)
    (hop : ∀ i, op ≠ .remove i) : ¬ Calls cfg t (.queue qk op) .panic t' := by
  intro hc
  obtain ⟨s, a1, _⟩ := queue_state qk h hn
  have hpre : qPre s op := by
    cases op with
    | remove i => exact absurd rfl (hop i)
    | _ => trivial
  obtain ⟨s', h1, _⟩ := a1.step hc (by simp) hpre
  exact h1

/-- **C55 is false**: `extend_queue` fails because its second element is too long, but has stored the first; `remove_from_queue` finds that
one and counts it off a queue of length 0 (src/queues.rs:276; in a release build the length becomes 2^64 - 1). -/
theorem C55_refuted : ∃ es t t', Reachable smallCfg es t ∧ Calls smallCfg t (.queue [81] (.remove 9223372036854775808)) .panic t' := by
  obtain ⟨t, t', h1, h2⟩ := checkHist_append (cfg := smallCfg)
    (cs := [(.queue [81] (.extend [[1], List.replicate 256 0]), .err .cannotFit)])
    (ds := [(.queue [81] (.remove 9223372036854775808), .panic)]) (by decide +kernel)
  obtain ⟨t1, h3, _⟩ := h2.cons_call
  exact ⟨_, t, t1, h1, h3⟩

/-- ... and with `remove_from_queue` only, no failed call: removing the only element of a queue leaves it with an inverted range; the next
element pushed is not seen, survives the queue, and is counted off the next, still empty, queue. -/
theorem C55_refuted_remove : ∃ es t t', Reachable runCfg es t ∧ Calls runCfg t (.queue [81] (.remove 9223372036854775808)) .panic t' ∧
    (∀ c r, Event.call c r ∈ es → ∃ a, r = .ok a) := by
  obtain ⟨t, t', h1, h2⟩ := checkHist_append (cfg := runCfg)
    (cs := [(.queue [81] (.push .tail [1]), .ok (.num 9223372036854775808)), (.queue [81] (.remove 9223372036854775808), .ok (.val (some [1]))),
      (.queue [81] (.push .tail [2]), .ok (.num 9223372036854775808)), (.queue [81] (.pop .head), .ok (.elem none)),
      (.queue [81] (.extend []), .ok (.range (9223372036854775808, 9223372036854775808)))])
    (ds := [(.queue [81] (.remove 9223372036854775808), .panic)]) (by decide +kernel)
  obtain ⟨t1, h3, _⟩ := h2.cons_call
  refine ⟨_, t, t1, h1, h3, ?_⟩
  intro c r hm
  simp only [hist, List.map_cons, List.map_nil, List.mem_cons, Event.call.injEq, List.not_mem_nil, or_false] at hm
  rcases hm with ⟨_, rfl⟩ | ⟨_, rfl⟩ | ⟨_, rfl⟩ | ⟨_, rfl⟩ | ⟨_, rfl⟩ <;> exact ⟨_, rfl⟩

/-- ... and lists whose keys have the same hash: items of the first are counted off the second. -/
theorem C55_refuted_clash : ∃ es t t', Reachable clashCfg es t ∧ Calls clashCfg t (.list [77] (.remove [101])) .panic t' := by
  obtain ⟨t, t', h1, h2⟩ := checkHist_append (cfg := clashCfg)
    (cs := [(.list [76] (.set [97] [1]), .ok (.setStatus .createdNew)), (.list [76] (.set [98] [2]), .ok (.setStatus .createdNew)),
       (.list [76] (.set [99] [3]), .ok (.setStatus .createdNew)), (.list [77] (.set [100] [4]), .ok (.setStatus .createdNew)),
       (.list [77] (.set [101] [5]), .ok (.setStatus .createdNew)), (.list [77] (.remove [99]), .ok (.val (some [3]))),
       (.list [77] (.remove [98]), .ok (.val (some [2])))])
    (ds := [(.list [77] (.remove [101]), .panic)]) (by decide +kernel)
  obtain ⟨t1, h3, _⟩ := h2.cons_call
  exact ⟨_, t, t1, h1, h3⟩

end Candy.Props
