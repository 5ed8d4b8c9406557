import Verif.Props.Iter
import Verif.Props.Fine
import Verif.Proofs.IterConc
/-!
# C16: iterating over the store while other threads work
-/
namespace Candy.Props
open Candy.Spec

/-- **C16**, what holds without restriction: whatever other threads and compactions do between the reads of the iteration, every pair it returns was in the store at some moment
of the iteration (`get` would have returned it then). `P` may be any property that the store has at all moments of the iteration; for example, a key that
is absent all the time is never returned. -/
theorem C16_only_present {cfg : Cfg} {bs : List Block} {t : Tree} (h : ReachableC cfg bs t) {tr0 : List CEvent} {s : CState} (h0 : ConcRun cfg (CState.idle t) tr0 s)
    {P : Tree → Prop} {kvs : List KV} {tr : List CEvent} {s' : CState} (hi : IterRun cfg P s (It.new false) kvs tr s') :
    ∀ kv ∈ kvs, ∃ t', P t' ∧ t'.userGet cfg kv.1 = some kv.2 :=
  hi.sound (h0.abstract (show Tree.OK cfg _ 0 END_OF_SHARDS (CState.idle t).tree from h.sane.ok)).1 posOK_zero rfl

/-- **C16** (partial). An iteration over the store begins at any moment `s` of a concurrent execution, and goes on while other threads make calls of any kind. Key `k` is present at every
moment of the iteration (its value may change), its shard is not split, and the row of the table in which it is stored is not copied by a compaction. Then the iteration returns `k` exactly once, with a value that
it had at some moment of the iteration. (Other shards may be split and compacted, and other rows of this shard compacted.)

Missing to C16: that the shard may be split and the row compacted. That is false, see `C16_refuted` and `C16_refuted_twice`. -/
theorem C16_present_partial {cfg : Cfg} {bs : List Block} {t : Tree} (h : ReachableC cfg bs t) {tr0 : List CEvent} {s : CState} (h0 : ConcRun cfg (CState.idle t) tr0 s)
    {k : Bytes} {home : Nat × Bool} {P : Tree → Prop} (hP : ∀ t, P t → t.home cfg k = home ∧ t.userGet cfg k ≠ none) {kvs : List KV} {tr : List CEvent} {s' : CState}
    (hi : IterRun cfg P s (It.new false) kvs tr s') :
    ∃ v t', P t' ∧ t'.userGet cfg k = some v ∧ kvs.filter (fun kv => decide (kv.1 = k)) = [(k, v)] := by
  have hok := (h0.abstract (show Tree.OK cfg _ 0 END_OF_SHARDS (CState.idle t).tree from h.sane.ok)).1
  obtain ⟨g1, g2, g3, g4⟩ := hok.find (inSpan_full (cfg.ph (userKey k)))
  have hp : P s.tree := by cases hi <;> assumption
  cases hv : s.tree.userGet cfg k with
  | none => exact absurd hv (hP _ hp).2
  | some v =>
    obtain ⟨r, c, hr, hc, hl⟩ := g2.val_eq_some.1 (show (s.tree.find (cfg.ph (userKey k)).shardSel).val cfg (userKey k) = some v from hv)
    refine ((IterRun.once hP hi hr hc) hok posOK_zero rfl ⟨v, hl⟩).1 ?_
    by_cases e : 0 < (s.tree.find (cfg.ph (userKey k)).shardSel).lo
    · exact .inl e
    · exact .inr ⟨⟨by show _ ≤ 0; omega, by show 0 < _; have := g1.2; omega⟩, by show 0 * ROW_WIDTH + 0 ≤ _; rw [Nat.zero_mul]; exact Nat.zero_le _⟩

/-- **C16** (partial), for a key that no call changes: at the beginning of the iteration `k` has the value `v`, and no call that may change it is in progress or begun during the iteration. While its shard is not split and its row
not copied by a compaction, the iteration returns the pair `(k, v)` exactly once, and no other pair of `k`, whatever is done to other keys, lists and queues. -/
theorem C16_untouched_partial {cfg : Cfg} {bs : List Block} {t : Tree} (h : ReachableC cfg bs t) {tr0 : List CEvent} {s : CState} (h0 : ConcRun cfg (CState.idle t) tr0 s)
    {k v : Bytes} (hv : s.tree.userGet cfg k = some v) (hpend : ∀ i c p, s.thr i = some (c, p) → ¬ c.changesKey k) {home : Nat × Bool} {kvs : List KV} {tr : List CEvent} {s' : CState}
    (hi : IterRun cfg (fun t => t.home cfg k = home) s (It.new false) kvs tr s') (htr : ∀ i c, CEvent.inv i c ∈ tr → ¬ c.changesKey k) :
    kvs.filter (fun kv => decide (kv.1 = k)) = [(k, v)] := by
  have hok0 : Tree.OK cfg _ 0 END_OF_SHARDS (CState.idle t).tree := h.sane.ok
  have hko : KeepOff k s := h0.keepOff hok0 (fun i c p e => by cases e)
  have hi' := hi.keeps (h0.abstract hok0).1 hko hpend htr hv
  obtain ⟨v', t', ⟨_, h2⟩, h3, h4⟩ := C16_present_partial h h0 (k := k) (home := home) (fun t ht => ⟨ht.1, by rw [ht.2]; simp⟩) hi'
  rw [h2] at h3
  cases h3
  exact h4

/-! ### Not vacuous

The keys 97 and 98 are in the store. The iteration returns 97; then another thread sets 97, 98 being untouched; then the iteration goes on. -/

def tickScript : List Cmd := [.call (.kv [97] (.set [1])), .call (.kv [98] (.set [2]))]

/-- `set(97, 9)` on the tree. -/
def tickSet (t : Tree) : Tree := match t.insert iterCfg (iterCfg.ph (userKey [97])) (userKey [97]) [9] .set 3 with
  | .ok r => r.1
  | _ => t

def tickCheck (t : Tree) : Bool :=
  (match t.insert iterCfg (iterCfg.ph (userKey [97])) (userKey [97]) [9] .set 3 with | .ok (_, .replaced [1]) => true | _ => false) &&
  decide ((It.step t (It.new false)).2 = some ([97], [1]) ∧ (It.step t (It.new false)).1.sel = 0 ∧ t.userGet iterCfg [98] = some [2] ∧
    t.home iterCfg [98] = (0, false) ∧ (tickSet t).home iterCfg [98] = (0, false) ∧ ((tickSet t).find 0).lo = 0) &&
  t.leaves.all (fun s => s.tgt.isNone && decide (s.src.writeOff < 4294967296))

set_option maxRecDepth 100000 in
theorem tick_run : checkT2 iterCfg tickScript [] (fun t _ => tickCheck t) = true := by decide +kernel

theorem tick_moves {t : Tree} (h : tickCheck t = true) : t.Small ∧ ∃ s1 s2 s3, CMove iterCfg (CState.idle t) [.inv 0 (.kv [97] (.set [9]))] s1 ∧ s1.tree = t ∧
    CMove iterCfg s1 [] s2 ∧ s2.tree = tickSet t ∧ CMove iterCfg s2 [.ret 0 (.kv [97] (.set [9])) (.ok (.setStatus (.prevValue [1])))] s3 ∧ s3.tree = tickSet t := by
  unfold tickCheck at h
  simp only [Bool.and_eq_true] at h
  obtain ⟨⟨h1, _⟩, h3⟩ := h
  have hsm : t.Small := by
    intro s hs
    have := List.all_eq_true.1 h3 s hs
    simp only [Bool.and_eq_true, decide_eq_true_eq, Option.isNone_iff_eq_none] at this
    exact ⟨this.2, fun t' e => by rw [this.1] at e; cases e⟩
  refine ⟨hsm, ?_⟩
  cases hi : t.insert iterCfg (iterCfg.ph (userKey [97])) (userKey [97]) [9] .set 3 with
  | ok r =>
    obtain ⟨t1, st⟩ := r
    have hts : tickSet t = t1 := by unfold tickSet; rw [hi]
    rw [hi] at h1
    have hst : st = .replaced [1] := by
      cases st with
      | replaced v =>
        by_cases e : v = [1]
        · rw [e]
        · exfalso
          revert h1
          split
          · rename_i hh; cases hh; exact absurd rfl e
          · simp
      | _ => cases h1
    subst hst
    rw [hts]
    refine ⟨_, _, _, .inv 0 (.kv [97] (.set [9])) rfl, rfl, .raw (setN_same _ _ _) rfl hsm (.ins _ _ _ _ _ _ _ _ (by decide) hi), rfl, .ret (p := .ret (.setStatus (.prevValue [1]))) rfl rfl (by simp), rfl⟩
  | panic => rw [hi] at h1; cases h1
  | diverge => rw [hi] at h1; cases h1
  | deadlock => rw [hi] at h1; cases h1

example : ∃ es t kvs s', ReachableC iterCfg [.seq es] t ∧ t.userGet iterCfg [98] = some [2] ∧
    IterRun iterCfg (fun t => t.home iterCfg [98] = (0, false)) (CState.idle t) (It.new false) (([97], [1]) :: kvs)
      [.inv 0 (.kv [97] (.set [9])), .ret 0 (.kv [97] (.set [9])) (.ok (.setStatus (.prevValue [1])))] s' := by
  obtain ⟨es, t, es', t', h1, h2, h3, t0, n, n', _, _, h4⟩ := checkT2_sound tick_run
  obtain ⟨hsm, s1, s2, s3, m1, e1, m2, e2, m3, e3⟩ := tick_moves h3
  unfold tickCheck at h3
  simp only [Bool.and_eq_true, decide_eq_true_eq] at h3
  obtain ⟨⟨_, g1, g2, g3, g4, g5, g6⟩, _⟩ := h3
  have hr : ReachableC iterCfg [.seq es] t := by
    obtain ⟨t0, a, b⟩ := h1
    exact ⟨t0, a, .seq b (.nil _)⟩
  have hok : Tree.OK iterCfg _ 0 END_OF_SHARDS (CState.idle t).tree := hr.sane.ok
  have hok3 := m3.ok (m2.ok (m1.ok hok))
  have hit := It.OK.new hok false
  have hst := It.step_spec hok hit
  cases hrest : It.rest (CState.idle t).tree (It.new false) with
  | nil => rw [hrest] at hst; rw [show (CState.idle t).tree = t from rfl, g1] at hst; cases hst.1
  | cons kv l =>
    rw [hrest] at hst
    obtain ⟨it', f1, f2, f3, f4, f5⟩ := hst
    rw [show (CState.idle t).tree = t from rfl] at f1
    have hkv : kv = ([97], [1]) := by rw [f1] at g1; cases g1; rfl
    rw [f1] at g2
    dsimp only at g2
    have hit3 : It.OK s3.tree it' := ⟨f3.pos, f3.sel, fun _ => by rw [g2, e3, g6]⟩
    have hfin := It.collect_ticks (P := fun t => t.home iterCfg [98] = (0, false)) hok3 (show s3.tree.home iterCfg [98] = (0, false) by rw [e3]; exact g5) _ it' hit3 (Nat.lt_succ_self _)
    have hm := IterRun.move (P := fun t => t.home iterCfg [98] = (0, false)) g4 m1 (.move (by show s1.tree.home iterCfg [98] = _; rw [e1]; exact g4) m2
      (.move (by show s2.tree.home iterCfg [98] = _; rw [e2]; exact g5) m3 hfin))
    have := It.next_ticks (s := CState.idle t) g4 _ _ hit.pos it' (some kv) f1 hm
    rw [hkv] at this
    exact ⟨es, t, _, s3, hr, g3, this⟩

/-! ### Splitting -/

/-- The configuration of the counterexample: the first byte of the key is the selector's high byte; shards of 8 bytes. -/
def twiceCfg : Cfg := { hash := fun k => ⟨BitVec.ofNat 64 ((k.headD 0).toNat * 2 ^ 56), 0#64⟩, maxShardSize := 8, minCompaction := 100, expectedKeys := 0, maxListOps := 16 }

def twiceScript1 : List Cmd := [.call (.kv [200] (.set [1])), .call (.kv [98] (.set [2]))]
def twiceScript2 : List Cmd := [.call (.kv [99] (.set [3]))]

def twiceCheck (t t' : Tree) : Bool :=
  let r1 := It.step t (It.new false)
  let r2 := It.step t' r1.1
  let r3 := It.step t' r2.1
  decide (r1.2 = some ([200], [1]) ∧ r2.2 = some ([99], [3]) ∧ r3.2 = some ([200], [1]) ∧ (It.step t' r3.1).2 = none ∧
    t.userGet twiceCfg [200] = some [1] ∧ t'.userGet twiceCfg [200] = some [1] ∧ t.userGet twiceCfg [98] = some [2] ∧ t'.userGet twiceCfg [98] = some [2])

set_option maxRecDepth 100000 in
theorem twice_run : checkT2 twiceCfg twiceScript1 twiceScript2 twiceCheck = true := by decide +kernel

theorem runT_one {cfg : Cfg} {c : Call} {n : Nat} {t : Tree} {n' : Nat} {t' : Tree} {es : List Event} (h : runT cfg [.call c] n t = some (n', t', es)) :
    ∃ r, es = [.call c r] := by
  unfold runT at h
  cases he : (c.prog cfg).execT cfg n t with
  | none => rw [he] at h; cases h
  | some x =>
    obtain ⟨n1, t1, r⟩ := x
    rw [he] at h
    cases r with
    | exhausted => cases h
    | ok a => unfold runT at h; cases h; exact ⟨_, rfl⟩
    | err a => unfold runT at h; cases h; exact ⟨_, rfl⟩
    | panic => unfold runT at h; cases h; exact ⟨_, rfl⟩

/-- **C16 is false**, also for splits: there is a reachable store with the keys 98 and 200, and an iteration of it during which the key 99 is set, which splits the shard. The iteration returns key 200 twice and
key 98 never, although both were there all the time with the same value and no call touched them. (The split makes the shard of 98 dense, so its entry moves behind the
iterator, and the entry of 200 to a new shard, before the iterator.) -/
theorem C16_refuted_twice : ∃ (cfg : Cfg) (es0 : List Event) (t : Tree) (kvs : List KV) (es : List Event) (t' : Tree),
    Reachable cfg es0 t ∧ Iteration cfg t (It.new false) kvs es t' ∧
    ∃ k v k' v', t.userGet cfg k = some v ∧ t'.userGet cfg k = some v ∧ Untouched k es ∧ kvs.filter (fun kv => decide (kv.1 = k)) = [(k, v), (k, v)] ∧
      t.userGet cfg k' = some v' ∧ t'.userGet cfg k' = some v' ∧ Untouched k' es ∧ kvs.filter (fun kv => decide (kv.1 = k')) = [] := by
  obtain ⟨es, t, es', t', h1, h2, h3, t0, n, n', _, _, h4⟩ := checkT2_sound twice_run
  unfold twiceCheck at h3
  simp only [decide_eq_true_eq] at h3
  obtain ⟨g1, g2, g3, g4, g5, g6, g7, g8⟩ := h3
  have pe : ∀ x : It × Option KV, x = (x.1, x.2) := fun x => rfl
  obtain ⟨r, he⟩ := runT_one h4
  have hun : ∀ k : Bytes, k ≠ [99] → Untouched k es' := by
    intro k hk e hm
    rw [he, List.mem_singleton] at hm
    subst hm
    refine ⟨fun op ho => ?_, by simp⟩
    simp only [Event.begun, Option.some.injEq, Call.kv.injEq] at ho
    exact hk ho.1.symm
  refine ⟨twiceCfg, es, t, [([200], [1]), ([99], [3]), ([200], [1])], es', t', h1, ?_, [200], [1], [98], [2], g5, g6, hun _ (by decide), by decide, g7, g8, hun _ (by decide), by decide⟩
  refine .next ((pe _).trans (by rw [g1])) ?_
  have := Iteration.change (es' := []) h2 (.next ((pe _).trans (by rw [g2])) (.next ((pe _).trans (by rw [g3])) (.done ((pe _).trans (by rw [g4])))))
  rw [List.append_nil] at this
  exact this

end Candy.Props
