import Verif.Proofs.LitterHist
import Verif.Proofs.CrashRunner
import Verif.Props.Errors
/-!
# C76: I/O errors, crashes and reopening, in one directory
-/
namespace Candy.Props
open Candy.Spec

/-- **C76**, with the directory: calls may fail with I/O errors at any system call, what they leave in the directory stays there while other calls work, shards are
compacted, split and merged over it, the process may die at any point of any of this, any number of times, and the store is opened again on what lies there:
a failed key-value call has happened or not, and otherwise the store goes on answering like an ideal map. -/
theorem C76_failed_calls_dir {cfg : Cfg} {es : List EEvent} {t : Tree} {d : Dir} (h : DReachable cfg es t d) :
    LikeIdealMap cfg Map.empty (es.map EEvent.asIfDied) := by
  obtain ⟨w, h1, _⟩ := h.inv
  exact specRun_likeIdealMap h1

/-- The same for all the APIs. -/
theorem C76_failed_calls_dir_world {cfg : Cfg} {es : List EEvent} {t : Tree} {d : Dir} (h : DReachable cfg es t d) :
    ∃ w, SpecRun cfg World.new (es.map EEvent.asIfDied) w ∧ (∀ k, t.userGet cfg k = w.kv k) := by
  obtain ⟨w, h1, _, _, h2⟩ := h.inv
  exact ⟨w, h1, h2.kv⟩

/-- **C76**, opening: whatever lies in the directory after such a history, opening the store - after closing it, or after the process was killed between two
calls - succeeds, runs without meeting a missing file, gives the contents from before, and clears the directory: what is left are the files of the
shards, and perhaps files of compactions without contents. -/
theorem C76_always_opens {cfg : Cfg} {es : List EEvent} {t : Tree} {d d1 : Dir} (h : DReachable cfg es t d) (hsm : t.Small)
    (hd : d1 = d ∨ ∃ u, t.finishAll cfg = some u ∧ d.run (t.finishOps cfg) = some d1) (hz : d1.Sized) (clearBad : Bool) :
    ∃ ops d' t', openStore cfg clearBad d1 = (ops, .ok t') ∧ d1.run ops = some d' ∧ (∀ k, t'.userGet cfg k = t.userGet cfg k) ∧
      ∀ n x, d'.find n = some x → (∃ s ∈ t'.leaves, n = s.srcName ∨ n = s.tgtName) ∨ (n.kind = .compact ∧ x.asFile = MFile.empty) := by
  obtain ⟨w, _, hs, hl, _⟩ := h.inv
  have key : RecJ cfg d1 (t.get cfg) := by
    rcases hd with rfl | ⟨u, hu, hr⟩
    · exact hl.recJ hs.ok
    · obtain ⟨u', e', uok, usm, uq, uspan, uval⟩ := Tree.finishAll_spec hs.ok hsm
      rw [hu] at e'; simp only [Option.some.injEq] at e'; subst e'
      have ug : u.get cfg = t.get cfg := funext fun k => uval k ⟨Nat.zero_le _, (cfg.ph k).shardSel_lt⟩
      rw [← ug]
      exact LTree.recJ ((RawStep.close hu).littered hl hs hsm hr) uok
  obtain ⟨ops, d', t', h1, h2, h3, _, _, _, _, h4, _⟩ := key.openStore (clearBad := clearBad) hz
  exact ⟨ops, d', t', h1, h2, fun k => by unfold Tree.userGet; rw [h4], fun n x hx => h3.files hx⟩

/-- **C76**, no operation meets a missing file because of what lies in the directory: the system calls of every insertion, removal, step of a compaction, merge and of
closing succeed (unless the system fails them). -/
theorem C76_steps_run {cfg : Cfg} {es : List EEvent} {t t' : Tree} {d : Dir} {ops : List FOp} (h : DReachable cfg es t d) (hsm : t.Small)
    (hst : RawStep cfg t ops t') : ∃ d', d.run ops = some d' := by
  obtain ⟨w, _, hs, hl, _⟩ := h.inv
  obtain ⟨d', h1, _⟩ := hst.litter hl hs hsm
  exact ⟨d', h1⟩

/-! ## Such histories exist -/

theorem small_of {s : Shard} (h : s.tgt = none) (h' : s.src.writeOff < 4294967296) : s.Small := ⟨h', fun t e => by rw [h] at e; cases e⟩

theorem _root_.Candy.DirOf.ins {cfg : Cfg} {ex : Bool} {t t' : Tree} {d : Dir} {k v : Bytes} {mode : Mode} {n : Nat} {st : InsStatus} (hd : DirOf d t.leaves)
    (hs : Sane cfg ex t) (hsm : t.Small) (hn : t.NonDegenerate) (hz : sizeErr cfg k v = none) (h : t.insert cfg (cfg.ph k) k v mode n = .ok (t', st))
    (hn' : t'.NonDegenerate) : ∃ d', d.run (t.insertOps cfg (cfg.ph k) k v mode n) = some d' ∧ DirOf d' t'.leaves ∧ Sane cfg ex t' := by
  obtain ⟨d', h1, h2⟩ := (RawStep.ins hz h hn').files hd hs hsm hn
  exact ⟨d', h1, h2, hs.bound, ((CStep.ins (cfg := cfg) (α := Unit) t t' k v mode (fun _ => .ret ()) st n hz h).sim hs.ok hsm).1⟩

/-- A `set` that returns. -/
theorem _root_.Candy.DRun.set {cfg : Cfg} {t t1 t' : Tree} {d d1 d' : Dir} {es : List EEvent} {k v : Bytes} {n : Nat} {st : InsStatus} (hf : Fits cfg k v) (hs : t.Small)
    (h : t.insert cfg (cfg.ph (userKey k)) (userKey k) v .set n = .ok (t1, st)) (hn : t1.NonDegenerate)
    (hd : d.run (t.insertOps cfg (cfg.ph (userKey k)) (userKey k) v .set n) = some d1) (hst : st = .added ∨ ∃ o, st = .replaced o)
    (rest : DRun cfg t1 d1 es t' d') : ∃ r, DRun cfg t d (.done (.call (.kv k (.set v)) r) :: es) t' d' := by
  obtain ⟨hk, hv, hm⟩ := hf
  have hz : sizeErr cfg (userKey k) v = none := by
    unfold sizeErr userKey USER_NS
    have e1 : MAX_TOTAL_KEY_SIZE = 16383 := rfl
    have e2 : MAX_TOTAL_VALUE_SIZE = 65535 := rfl
    rw [List.length_append, List.length_singleton, e1, e2, if_neg (by omega), if_neg (by omega), if_neg (by omega)]
  have hens : ensureSizes k v = .ret () := by
    unfold ensureSizes
    have e1 : MAX_KEY_SIZE = 16128 := rfl
    have e2 : MAX_VALUE_SIZE = 65280 := rfl
    rw [e1, e2, if_neg (by omega), if_neg (by omega)]
  have hp : ∃ c : InsStatus → Prog Resp, (Call.kv k (.set v)).prog cfg = .ins (userKey k) v .set c ∧ ∃ r, (c st).result = some r ∧ r ≠ .exhausted := by
    unfold Call.prog
    dsimp only
    unfold KvOp.prog kvSet
    dsimp only
    rw [hens]
    rcases hst with rfl | ⟨o, rfl⟩
    · exact ⟨_, rfl, _, rfl, by simp⟩
    · exact ⟨_, rfl, _, rfl, by simp⟩
  obtain ⟨c, hc, r, hr, hne⟩ := hp
  refine ⟨r, .call (.step hs (p' := c st) ?_ hd (.refl _ _ _)) hr hne rest⟩
  rw [hc]
  exact .ins t t1 _ _ _ c st n hz h hn

theorem set_failsD {cfg : Cfg} {t t' : Tree} {d d' : Dir} {k v : Bytes} (hf : Fits cfg k v)
    (h : InsFailsD cfg (cfg.ph (userKey k)) (userKey k) v .set t d t' d') : OpFailsD cfg t d ((Call.kv k (.set v)).prog cfg) t' d' := by
  obtain ⟨hk, hv, hm⟩ := hf
  have hz : sizeErr cfg (userKey k) v = none := by
    unfold sizeErr userKey USER_NS
    have e1 : MAX_TOTAL_KEY_SIZE = 16383 := rfl
    have e2 : MAX_TOTAL_VALUE_SIZE = 65535 := rfl
    rw [List.length_append, List.length_singleton, e1, e2, if_neg (by omega), if_neg (by omega), if_neg (by omega)]
  have hens : ensureSizes k v = .ret () := by
    unfold ensureSizes
    have e1 : MAX_KEY_SIZE = 16128 := rfl
    have e2 : MAX_VALUE_SIZE = 65280 := rfl
    rw [e1, e2, if_neg (by omega), if_neg (by omega)]
  have hp : ∃ c : InsStatus → Prog Resp, (Call.kv k (.set v)).prog cfg = .ins (userKey k) v .set c := by
    unfold Call.prog
    dsimp only
    unfold KvOp.prog kvSet
    dsimp only
    rw [hens]
    exact ⟨_, rfl⟩
  obtain ⟨c, hc⟩ := hp
  rw [hc]
  exact .ins c hz h

/-- The next `set` of the same key needs a compaction. -/
def dueCheck : Bool :=
  let k := userKey [97]
  let ph := eagerCfg.ph k
  match Tree.create eagerCfg with
  | some (.leaf s0) =>
    match (Tree.leaf s0).insert eagerCfg ph k [1] .set 1 with
    | .ok (.leaf s1, .added) =>
      match (Tree.leaf s1).insert eagerCfg ph k [2] .set 1 with
      | .ok (.leaf s2, .replaced _) =>
        s1.tgt.isNone && decide (s1.src.writeOff < 4294967296) && decide (s1.lo < s1.hi) && s2.tgt.isNone && decide (s2.src.writeOff < 4294967296) &&
          decide (s2.lo < s2.hi) && (s2.insertPlan eagerCfg ph k [3] .set).2.2.isSome &&
          (match (s2.insertPlan eagerCfg ph k [3] .set).2.1 with | .replaced _ => true | _ => false) &&
          (match (s2.insertPlan eagerCfg ph k [3] .set).2.2 with
           | some off => !(decide ((s2.runActive ph.rowSel (s2.insertPlan eagerCfg ph k [3] .set).1).src.writeOff < off)) &&
              (s2.runActive ph.rowSel (s2.insertPlan eagerCfg ph k [3] .set).1).tgt.isNone &&
              decide ((s2.runActive ph.rowSel (s2.insertPlan eagerCfg ph k [3] .set).1).src.writeOff < 4294967296)
           | none => false) &&
          decide ((Tree.leaf (s2.runActive ph.rowSel (s2.insertPlan eagerCfg ph k [3] .set).1)).userGet eagerCfg [97] = some [3])
      | _ => false
    | _ => false
  | _ => false

example : dueCheck = true := by decide +kernel

theorem dirRun_append (a b : List FOp) : ∀ d : Dir, d.run (a ++ b) = (d.run a).bind fun d' => d'.run b := by
  induction a with
  | nil => intro d; rfl
  | cons o a ih =>
    intro d
    rw [List.cons_append, Dir.run, Dir.run]
    cases o.app d with
    | none => rfl
    | some d' => exact ih d'

/-- What is left if the file of a compaction is created, without its contents. -/
theorem begin_left {d d4 : Dir} {s4 : Shard} {ps : List FOp} (hd : DirOf d4 [s4]) (hr : d.run (ps ++ createOps s4.tgtName) = some d4)
    (ht : s4.tgt = some MFile.empty) (hs : s4.Small) :
    ∃ d1, d.run ps = some d1 ∧ Dir.Crash d1 (createOps s4.tgtName) (d1.put s4.tgtName .zero) ∧ (d1.put s4.tgtName .zero).Sized := by
  rw [dirRun_append] at hr
  cases h1 : d.run ps with
  | none => rw [h1] at hr; cases hr
  | some d1 =>
    rw [h1] at hr
    refine ⟨d1, rfl, .step (d' := d1.put s4.tgtName .zero) rfl (.stop _ _), ?_⟩
    have h2 : ∀ n, n ≠ s4.tgtName → d4.find n = d1.find n := by
      intro n hn
      have e : d4 = ((d1.put s4.tgtName .zero).put s4.tgtName .blank).put s4.tgtName (.good MFile.empty) := by
        have : d1.run (createOps s4.tgtName) = some d4 := hr
        simp [createOps, Dir.run, FOp.app, Dir.find_put] at this
        exact this.symm
      rw [e]
      simp [Dir.find_put, hn]
    intro a b f hf
    have hn : (⟨.shard, a, b⟩ : FName) ≠ s4.tgtName := by simp [Shard.tgtName]
    rw [Dir.find_put, if_neg hn, ← h2 _ hn] at hf
    obtain ⟨s, g1, g2⟩ := hd.only ⟨.shard, a, b⟩ (by rw [hf]; simp)
    simp only [List.mem_singleton] at g1; subst g1
    have e : a = s.lo ∧ b = s.hi := by
      rcases g2 with g2 | g2
      · simp only [Shard.srcName, FName.mk.injEq, true_and] at g2; exact g2
      · simp [Shard.tgtName] at g2
    obtain ⟨rfl, rfl⟩ := e
    have e1 : d4.find s.srcName = some (.good s.src) := (hd.files s (by simp)).1
    have e2 : d4.find s.srcName = some (.good f) := hf
    rw [e1] at e2
    simp only [Option.some.injEq, DFile.good.injEq] at e2
    subst e2
    have e3 : ((d1.put s.tgtName .zero).find ⟨.compact, s.lo, s.hi⟩).map DFile.asFile = s.tgt := by
      have : (⟨.compact, s.lo, s.hi⟩ : FName) = s.tgtName := rfl
      rw [this, Dir.find_put, if_pos rfl, ht]
      rfl
    rw [e3]
    exact hs

/-- Not vacuous: two `set`s; a third one stores its value and fails when it creates the file of the compaction that is due, leaving it without contents; the process
dies, and the store is opened again on what lies there: it has the third value. -/
example : ∃ (r1 r2 : Res Resp) (t : Tree) (d : Dir), DReachable eagerCfg [.done (.call (.kv [97] (.set [1])) r1), .done (.call (.kv [97] (.set [2])) r2),
    .failed (.kv [97] (.set [3])), .done (.crash none)] t d ∧ t.userGet eagerCfg [97] = some [3] := by
  have hc : dueCheck = true := by decide +kernel
  have hf : ∀ x, Fits eagerCfg [97] [x] := fun x => ⟨by decide, by simp, by show 3 ≤ _; decide⟩
  have hz : ∀ x, sizeErr eagerCfg (userKey [97]) [x] = none := fun x => rfl
  unfold dueCheck at hc
  dsimp only at hc
  split at hc
  · rename_i s0 e0
    split at hc
    · rename_i s1 e1
      split at hc
      · rename_i s2 o e2
        simp only [Bool.and_eq_true, decide_eq_true_eq] at hc
        obtain ⟨⟨⟨⟨⟨⟨⟨⟨⟨c1, c2⟩, c3⟩, c4⟩, c5⟩, c6⟩, c7⟩, c12⟩, c8⟩, c9⟩ := hc
        obtain ⟨off, c7⟩ := Option.isSome_iff_exists.1 c7
        rw [c7] at c8
        simp only [Bool.and_eq_true, decide_eq_true_eq, Bool.not_eq_true', decide_eq_false_iff_not] at c8
        obtain ⟨⟨c8, c10⟩, c11⟩ := c8
        have q1 := Option.isNone_iff_eq_none.1 c1
        have q2 := Option.isNone_iff_eq_none.1 c4
        have q3 := Option.isNone_iff_eq_none.1 c10
        obtain ⟨tc, b1, b2, b3, b4, _⟩ := Tree.create_spec (cfg := eagerCfg) (by decide) false
        rw [e0] at b1
        simp only [Option.some.injEq] at b1
        subst b1
        obtain ⟨ops, d0, o1, o2, o3⟩ := openStore_new e0 true
        have hs0 : Sane eagerCfg false (.leaf s0) := ⟨by decide, b2⟩
        have n1 : Tree.NonDegenerate (.leaf s1) := by intro s hs; simp only [Tree.leaves, List.mem_singleton] at hs; subst hs; exact c3
        have n2 : Tree.NonDegenerate (.leaf s2) := by intro s hs; simp only [Tree.leaves, List.mem_singleton] at hs; subst hs; exact c6
        have m1 : Tree.Small (.leaf s1) := by intro s hs; simp only [Tree.leaves, List.mem_singleton] at hs; subst hs; exact small_of q1 c2
        have m2 : Tree.Small (.leaf s2) := by intro s hs; simp only [Tree.leaves, List.mem_singleton] at hs; subst hs; exact small_of q2 c5
        obtain ⟨d1, r1, o4, hs1⟩ := o3.ins hs0 b4 b3 (hz 1) e1 n1
        obtain ⟨d2, r2, o5, hs2⟩ := o4.ins hs1 m1 n1 (hz 2) e2 n2
        generalize hs3 : s2.runActive (eagerCfg.ph (userKey [97])).rowSel (s2.insertPlan eagerCfg (eagerCfg.ph (userKey [97])) (userKey [97]) [3] .set).1 = s3
          at c8 q3 c9 c11
        have m3 : Tree.Small (.leaf s3) := by intro s hs; simp only [Tree.leaves, List.mem_singleton] at hs; subst hs; exact small_of q3 c11
        obtain ⟨s4, e4⟩ : ∃ s4, s4 = s3.beginCompaction off := ⟨_, rfl⟩
        have e5 : s4 = { s3 with tgt := some MFile.empty } := by rw [e4, Shard.beginCompaction, if_neg c8, q3]
        have e6 : ∃ x, s2.insert eagerCfg (eagerCfg.ph (userKey [97])) (userKey [97]) [3] .set = (s4, .replaced x) := by
          cases hst : (s2.insertPlan eagerCfg (eagerCfg.ph (userKey [97])) (userKey [97]) [3] .set).2.1 <;> rw [hst] at c12 <;> try cases c12
          refine ⟨_, Prod.ext ?_ hst⟩
          unfold Shard.insert
          dsimp only
          rw [c7, hs3, e4]
        obtain ⟨x, e6⟩ := e6
        have e7 : (Tree.leaf s2).insert eagerCfg (eagerCfg.ph (userKey [97])) (userKey [97]) [3] .set 1 = .ok (.leaf s4, .replaced x) := by
          unfold Tree.insert
          rw [e6]
        have l3 : s3.lo = s2.lo ∧ s3.hi = s2.hi := by rw [← hs3]; unfold Shard.runActive; rw [q2]; exact ⟨rfl, rfl⟩
        have n4 : Tree.NonDegenerate (.leaf s4) := by
          intro s hs; simp only [Tree.leaves, List.mem_singleton] at hs; subst hs; rw [e5]; show s3.lo < s3.hi; rw [l3.1, l3.2]; exact c6
        obtain ⟨d4, r4, o6, hs4⟩ := o5.ins hs2 m2 n2 (hz 3) e7 n4
        have e8 : (Tree.leaf s2).insertOps eagerCfg (eagerCfg.ph (userKey [97])) (userKey [97]) [3] .set 1 =
            onFile (s2.activeName (eagerCfg.ph (userKey [97])).rowSel) (s2.insertPlan eagerCfg (eagerCfg.ph (userKey [97])) (userKey [97]) [3] .set).1 ++
              createOps s4.tgtName := by
          unfold Tree.insertOps
          rw [e6]
          unfold Shard.insertOps
          dsimp only
          rw [c7, hs3]
          dsimp only
          unfold Shard.beginOps
          rw [if_neg c8, q3, e5]
          simp [Shard.tgtName]
        rw [e8] at r4
        have m4 : s4.Small := by
          have h := (InsFails.spec (k := userKey [97]) (v := [3]) (mode := .set) (by decide) (by decide) (.begin c7) 0 END_OF_SHARDS hs2.ok m2 (inSpan_full _)).1
          rw [hs3] at h
          cases h with
          | leaf _ _ _ _ ha => rw [e4]; exact Shard.beginCompaction_small ha (small_of q3 c11) off
        obtain ⟨d3, r3, r5, z3⟩ := begin_left o6 r4 (by rw [e5]) m4
        have hfail : OpFailsD eagerCfg (.leaf s2) d2 ((Call.kv [97] (.set [3])).prog eagerCfg) (.leaf s3) (d3.put s4.tgtName .zero) := by
          refine set_failsD (hf 3) ?_
          rw [← hs3]
          refine .begin c7 r3 ?_
          rw [hs3]
          have : s3.beginOps off = createOps s4.tgtName := by
            unfold Shard.beginOps
            rw [if_neg c8, q3, e5]
            rfl
          rw [this]; exact r5
        have pre : ∀ {es : List EEvent} {t : Tree} {d : Dir}, DRun eagerCfg (.leaf s3) (d3.put s4.tgtName .zero) es t d → ∃ x1 x2,
            DReachable eagerCfg (.done (.call (.kv [97] (.set [1])) x1) :: .done (.call (.kv [97] (.set [2])) x2) :: .failed (.kv [97] (.set [3])) :: es) t d := by
          intro es t d h
          obtain ⟨x2, h2⟩ := DRun.set (hf 2) m1 e2 n2 r2 (Or.inr ⟨_, rfl⟩) (.failed (.refl _ _ _) m2 hfail h)
          obtain ⟨x1, h1⟩ := DRun.set (hf 1) b4 e1 n1 r1 (Or.inl rfl) h2
          exact ⟨x1, x2, true, ops, _, d0, o1, o2, h1⟩
        obtain ⟨_, _, h1⟩ := pre (.nil _ _)
        obtain ⟨w, _, hsane, hl, _⟩ := h1.inv
        obtain ⟨ops', d', t, g1, g2, g3, _, _, _, _, g4, _⟩ := (hl.recJ hsane.ok).openStore (clearBad := true) z3
        obtain ⟨x1, x2, h2⟩ := pre (.crashIdle m3 (.refl _) (.done z3 g1 g2) (.nil _ _))
        exact ⟨x1, x2, t, d', h2, by unfold Tree.userGet; rw [g4]; exact c9⟩
      · cases hc
    · cases hc
  · cases hc

end Candy.Props
