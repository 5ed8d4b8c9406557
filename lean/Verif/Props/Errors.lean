import Verif.Proofs.Errors
import Verif.Proofs.TreeRunner
import Verif.Proofs.Runner
import Verif.Props.Kv
import Verif.Props.Panic
/-!
# C76: calls that return an I/O error
-/
namespace Candy.Props
open Candy.Spec

/-- **C76.** In every history in which calls may return I/O errors - any system call made by a call may fail, any number of times - a
failed key-value call has happened or not, and otherwise the store goes on answering like an ideal map, also after it is closed and
opened, and after a crash between calls: nothing that was acknowledged is lost, and no key other than that of the failed call changes. -/
theorem C76_failed_calls {cfg : Cfg} {es : List EEvent} {t : Tree} (h : EReachable cfg es t) :
    LikeIdealMap cfg Map.empty (es.map EEvent.asIfDied) := by
  obtain ⟨w, h1, _⟩ := h.world
  exact specRun_likeIdealMap h1

/-- The same for all the APIs: the answers are those of the ideal store of `Spec.World`, in which a call that failed has the effects a call
may have in which the process died (`Spec.World.crash`; what that means for lists and queues is C30 and C59). -/
theorem C76_failed_calls_world {cfg : Cfg} {es : List EEvent} {t : Tree} (h : EReachable cfg es t) :
    ∃ w, SpecRun cfg World.new (es.map EEvent.asIfDied) w ∧ (∀ k, t.userGet cfg k = w.kv k) := by
  obtain ⟨w, h1, _, h2⟩ := h.world
  exact ⟨w, h1, h2.kv⟩

theorem failed_kv {cfg : Cfg} {es : List EEvent} {t t' : Tree} {k : Bytes} {op : KvOp} {x : Bool} (h : EReachable cfg es t)
    (hf : CallFails cfg t (.kv k op) t' x) :
    (∀ k', t'.userGet cfg k' = t.userGet cfg k') ∨
      (t'.userGet cfg k = (kvAnswer (t.userGet cfg k) op).2 ∧ ∀ k', k' ≠ k → t'.userGet cfg k' = t.userGet cfg k') := by
  obtain ⟨w, _, hs, hm⟩ := h.world
  obtain ⟨_, p', h2⟩ := hf.sim hs.ok
  obtain ⟨w', h3, h4⟩ := call_crash _ hm h2
  obtain ⟨m', h5, rfl⟩ := h3
  rcases h5 with rfl | ⟨_, rfl⟩
  · exact Or.inl fun k' => (h4.kv k').trans (hm.kv k').symm
  · refine Or.inr ⟨?_, fun k' hk' => ?_⟩
    · have := h4.kv k
      dsimp only at this
      rw [Map.upd_same, ← hm.kv k] at this
      exact this
    · have := h4.kv k'
      dsimp only at this
      rw [Map.upd_other _ _ hk', ← hm.kv k'] at this
      exact this

/-- **C76**, for `set`: after a `set` that returned an I/O error the key has its old value or the new one. -/
theorem C76_failed_set {cfg : Cfg} {es : List EEvent} {t t' : Tree} {k v : Bytes} {x : Bool} (h : EReachable cfg es t)
    (hf : CallFails cfg t (.kv k (.set v)) t' x) :
    (t'.userGet cfg k = t.userGet cfg k ∨ t'.userGet cfg k = some v) ∧ ∀ k', k' ≠ k → t'.userGet cfg k' = t.userGet cfg k' := by
  rcases failed_kv h hf with h | h
  · exact ⟨Or.inl (h k), fun k' _ => h k'⟩
  · exact ⟨Or.inr h.1, h.2⟩

/-- **C76**, for `remove`: the key has its old value or is gone. -/
theorem C76_failed_remove {cfg : Cfg} {es : List EEvent} {t t' : Tree} {k : Bytes} {x : Bool} (h : EReachable cfg es t)
    (hf : CallFails cfg t (.kv k .remove) t' x) :
    (t'.userGet cfg k = t.userGet cfg k ∨ t'.userGet cfg k = none) ∧ ∀ k', k' ≠ k → t'.userGet cfg k' = t.userGet cfg k' := by
  rcases failed_kv h hf with h | h
  · exact ⟨Or.inl (h k), fun k' _ => h k'⟩
  · refine ⟨Or.inr ?_, h.2⟩
    rw [h.1]; cases t.userGet cfg k <;> rfl

/-- **C76**, for reads: a `get` that returned an I/O error changed nothing. -/
theorem C76_failed_get {cfg : Cfg} {es : List EEvent} {t t' : Tree} {k : Bytes} {x : Bool} (h : EReachable cfg es t)
    (hf : CallFails cfg t (.kv k .get) t' x) (k' : Bytes) : t'.userGet cfg k' = t.userGet cfg k' := by
  rcases failed_kv h hf with h | h
  · exact h k'
  · by_cases e : k' = k
    · subst e; exact h.1
    · exact h.2 k' e

/-- **C76**, remains: after failed calls the store, when it has been closed, can be opened, whatever remains of failed `split`s and compactions that could not
begin lie around (`LeftDir`); they are deleted, and the contents are those from before. -/
theorem C76_reopens {cfg : Cfg} {es : List EEvent} {t : Tree} (h : EReachable cfg es t) (hsm : t.Small) (hn : ∀ s ∈ t.leaves, s.lo < s.hi) :
    ∃ u, t.finishAll cfg = some u ∧ ∀ (clearBad : Bool) (d : Dir), LeftDir d u.leaves → d.Sized →
      ∃ ops d' t', openStore cfg clearBad d = (ops, .ok t') ∧ d.run ops = some d' ∧ DirOf d' t'.leaves ∧ ∀ k, t'.userGet cfg k = t.userGet cfg k := by
  obtain ⟨w, _, hs, _⟩ := h.world
  obtain ⟨u, e', uok, usm, uq, uspan, uval⟩ := Tree.finishAll_spec hs.ok hsm
  refine ⟨u, e', fun clearBad d hd hz => ?_⟩
  have un : u.NonDegenerate := by
    intro s hs
    have : (s.lo, s.hi) ∈ u.leaves.map (fun s => (s.lo, s.hi)) := List.mem_map.2 ⟨s, hs, rfl⟩
    rw [uspan, List.mem_map] at this
    obtain ⟨x, hx, hxe⟩ := this
    have := hn x hx
    simp only [Prod.mk.injEq] at hxe
    omega
  obtain ⟨ops, d', t', h1, h2, h3, _, _, _, _, h4, _⟩ := (hd.recov uok un).openStore (clearBad := clearBad) hz
  refine ⟨ops, d', t', h1, h2, h3, fun k => ?_⟩
  unfold Tree.userGet
  rw [h4]
  exact uval _ ⟨Nat.zero_le _, (cfg.ph _).shardSel_lt⟩

/-- `LeftDir` is what failed operations leave: a `split` of one of the shards that fails at any point before its last system call, which deletes the file
of the shard (`dropLast`), and the creation of the file of a compaction, failing at any point. -/
theorem C76_remains {cfg : Cfg} {es : List EEvent} {t : Tree} (h : EReachable cfg es t) (hn : ∀ s ∈ t.leaves, s.lo < s.hi) {d d' : Dir}
    (hd : LeftDir d t.leaves) {s : Shard} (hs : s ∈ t.leaves) (hq : s.tgt = none)
    (hc : (s.lo + 1 < s.hi ∧ Dir.Crash d (s.splitOps cfg).dropLast d') ∨ Dir.Crash d (createOps s.tgtName) d') : LeftDir d' t.leaves := by
  obtain ⟨w, _, hsane, _⟩ := h.world
  have ht := (hsane.ok.tiling hn dyadic_full).tiles
  rcases hc with ⟨h1, h2⟩ | h2
  · exact hd.split ht hs hq h1 h2
  · refine hd.begin (fun a ha b hb e => ?_) hs hq h2
    simp only [Shard.tgtName, FName.mk.injEq, true_and] at e
    have hb' := ht.mem hb
    exact inR.apart ht ha hb (n := b.tgtName) ⟨by show a.lo ≤ b.lo; omega, hb'.2.1, by show b.hi ≤ a.hi; omega⟩ ⟨Nat.le_refl _, hb'.2.1, Nat.le_refl _⟩

/-! ## Failed calls exist -/

theorem EReachable.of_reachable {cfg : Cfg} {es : List Event} {t : Tree} (h : Reachable cfg es t) : EReachable cfg (es.map .done) t := by
  obtain ⟨t0, h1, h2⟩ := h
  refine ⟨t0, false, h1, ?_⟩
  have := ERun.clean h2 (.nil t false)
  rwa [List.append_nil] at this

theorem set_fails {cfg : Cfg} {t t' : Tree} {k v : Bytes} {x : Bool} (hf : Fits cfg k v) (hs : t.Small)
    (h : InsFails cfg (cfg.ph (userKey k)) (userKey k) v .set t t' x) : CallFails cfg t (.kv k (.set v)) t' x := by
  obtain ⟨hk, hv, hm⟩ := hf
  have hz : sizeErr cfg (userKey k) v = none := by
    unfold sizeErr userKey USER_NS
    have e1 : MAX_TOTAL_KEY_SIZE = 16383 := rfl
    have e2 : MAX_TOTAL_VALUE_SIZE = 65535 := rfl
    rw [List.length_append, List.length_singleton, e1, e2, if_neg (by omega), if_neg (by omega), if_neg (by omega)]
  have hens : ensureSizes k v = .ret () := by
    unfold ensureSizes
    have e1 : MAX_KEY_SIZE = 16128 := rfl
    have e2 : MAX_VALUE_SIZE = 65280 := rfl
    rw [e1, e2, if_neg (by omega), if_neg (by omega)]
  have hp : ∃ c : InsStatus → Prog Resp, (Call.kv k (.set v)).prog cfg = .ins (userKey k) v .set c := by
    unfold Call.prog
    dsimp only
    unfold KvOp.prog kvSet
    dsimp only
    rw [hens]
    exact ⟨_, rfl⟩
  obtain ⟨c, hc⟩ := hp
  refine ⟨t, _, .refl _ _, hs, ?_⟩
  rw [hc]
  exact .ins c hz h

/-- A configuration in which a compaction is due as soon as one byte is wasted. -/
def eagerCfg : Cfg := { runCfg with minCompaction := 1 }

def leafWith (chk : Shard → Bool) : Tree → Bool
  | .leaf s => chk s
  | .vertex _ _ => false

/-- An error does not mean that the call had no effect: a `set` may return an error although it has stored the value (here: the file of the
compaction that is due cannot be created, because the disk is full). -/
theorem C76_refuted : ∃ (cfg : Cfg) (es : List EEvent) (t t' : Tree) (k old v : Bytes), EReachable cfg es t ∧ CallFails cfg t (.kv k (.set v)) t' true ∧
    t.userGet cfg k = some old ∧ t'.userGet cfg k = some v ∧ old ≠ v := by
  obtain ⟨es, t, h1, h2, h3⟩ := checkT_small (cfg := eagerCfg) (cs := [.call (.kv [97] (.set [1])), .call (.kv [97] (.set [2]))])
    (chk := leafWith fun s => (s.insertPlan eagerCfg (eagerCfg.ph (userKey [97])) (userKey [97]) [3] .set).2.2.isSome &&
      decide ((Tree.leaf s).userGet eagerCfg [97] = some [2]) &&
      decide ((Tree.leaf (s.runActive (eagerCfg.ph (userKey [97])).rowSel (s.insertPlan eagerCfg (eagerCfg.ph (userKey [97])) (userKey [97]) [3] .set).1)).userGet
        eagerCfg [97] = some [3])) (by decide +kernel)
  cases t with
  | vertex => cases h3
  | leaf s =>
    simp only [leafWith, Bool.and_eq_true, decide_eq_true_eq] at h3
    obtain ⟨⟨h3, h4⟩, h5⟩ := h3
    obtain ⟨off, h6⟩ := Option.isSome_iff_exists.1 h3
    exact ⟨eagerCfg, _, _, _, [97], [2], [3], EReachable.of_reachable h1, set_fails ⟨by decide, by decide, by decide⟩ h2 (.begin h6), h4, h5, by decide⟩

/-- Not vacuous: a `set` whose write fails, having written anything in the area allocated for it; the key keeps its value. -/
example : ∃ (es : List EEvent) (t t' : Tree), EReachable eagerCfg es t ∧ CallFails eagerCfg t (.kv [97] (.set [3])) t' false ∧
    t.userGet eagerCfg [97] = some [2] ∧ t'.userGet eagerCfg [97] = some [2] := by
  obtain ⟨es, t, h1, h2, h3⟩ := checkT_small (cfg := eagerCfg) (cs := [.call (.kv [97] (.set [1])), .call (.kv [97] (.set [2]))])
    (chk := leafWith fun s => !(s.insertPlan eagerCfg (eagerCfg.ph (userKey [97])) (userKey [97]) [3] .set).1.isEmpty &&
      decide ((Tree.leaf s).userGet eagerCfg [97] = some [2]) &&
      decide ((Tree.leaf (s.setActive (eagerCfg.ph (userKey [97])).rowSel
        { s.active (eagerCfg.ph (userKey [97])).rowSel with writeOff := (s.active (eagerCfg.ph (userKey [97])).rowSel).writeOff + 3 })).userGet
        eagerCfg [97] = some [2])) (by decide +kernel)
  cases t with
  | vertex => cases h3
  | leaf s =>
    simp only [leafWith, Bool.and_eq_true, decide_eq_true_eq] at h3
    obtain ⟨⟨h3, h4⟩, h5⟩ := h3
    exact ⟨_, _, _, EReachable.of_reachable h1, set_fails ⟨by decide, by decide, by decide⟩ h2 (.write (by intro e; rw [e] at h3; cases h3) ⟨_, fun _ _ => rfl, rfl⟩), h4, h5⟩

/-- Shards of at most 9 bytes. -/
def narrowCfg : Cfg := { runCfg with maxShardSize := 9 }

/-- Not vacuous: a `set` that needs a split, which fails; the key stays absent, and the other keeps its value. -/
example : ∃ (es : List EEvent) (t t' : Tree), EReachable narrowCfg es t ∧ CallFails narrowCfg t (.kv [98] (.set [3, 3, 3])) t' true ∧
    t'.userGet narrowCfg [97] = some [1, 2, 3] ∧ t'.userGet narrowCfg [98] = none := by
  obtain ⟨es, t, h1, h2, h3⟩ := checkT_small (cfg := narrowCfg) (cs := [.call (.kv [97] (.set [1, 2, 3]))])
    (chk := leafWith fun s => decide ((s.insert narrowCfg (narrowCfg.ph (userKey [98])) (userKey [98]) [3, 3, 3] .set).2 = .splitNeeded) &&
      (match (s.insert narrowCfg (narrowCfg.ph (userKey [98])) (userKey [98]) [3, 3, 3] .set).1.finish narrowCfg with
       | none => false
       | some s' => decide ((Tree.leaf s').userGet narrowCfg [97] = some [1, 2, 3]) && decide ((Tree.leaf s').userGet narrowCfg [98] = none)))
    (by decide +kernel)
  cases t with
  | vertex => cases h3
  | leaf s =>
    simp only [leafWith, Bool.and_eq_true, decide_eq_true_eq] at h3
    obtain ⟨h3, h4⟩ := h3
    cases hf : (s.insert narrowCfg (narrowCfg.ph (userKey [98])) (userKey [98]) [3, 3, 3] .set).1.finish narrowCfg with
    | none => rw [hf] at h4; cases h4
    | some s' =>
      rw [hf] at h4
      simp only [Bool.and_eq_true, decide_eq_true_eq] at h4
      exact ⟨_, _, _, EReachable.of_reachable h1, set_fails ⟨by decide, by decide, by decide⟩ h2 (.split (Prod.ext rfl h3) hf), h4.1, h4.2⟩

/-- A directory with remains: a temporary file, a half left by a failed `split`, and the file of a compaction that could not begin. -/
example (src : MFile) : LeftDir [(⟨.shard, 0, 65536⟩, .good src), (⟨.bottom, 0, 32768⟩, .zero), (⟨.shard, 0, 32768⟩, .good MFile.empty), (⟨.compact, 0, 65536⟩, .blank)]
    [⟨0, 65536, src, none⟩] where
  nodup := by simp
  src := by intro s hs; simp only [List.mem_singleton] at hs; subst hs; rfl
  tgt := by intro s hs; simp only [List.mem_singleton] at hs; subst hs; exact Or.inr ⟨rfl, Or.inr (Or.inl rfl)⟩
  shards := by
    intro a b h
    simp only [Dir.find, FName.mk.injEq, true_and, reduceCtorEq, false_and, if_false] at h
    by_cases e : 0 = a ∧ 65536 = b
    · exact ⟨by omega, _, List.mem_singleton.2 rfl, by show 0 ≤ a; omega, by show b ≤ 65536; omega⟩
    · by_cases e' : 0 = a ∧ 32768 = b
      · exact ⟨by omega, _, List.mem_singleton.2 rfl, by show 0 ≤ a; omega, by show b ≤ 65536; omega⟩
      · rw [if_neg e, if_neg e'] at h; exact absurd rfl h
  compacts := by
    intro a b h
    simp only [Dir.find, FName.mk.injEq, true_and, reduceCtorEq, false_and, if_false] at h
    by_cases e : 0 = a ∧ 65536 = b
    · exact ⟨_, List.mem_singleton.2 rfl, e⟩
    · rw [if_neg e] at h; exact absurd rfl h

end Candy.Props
