import Verif.Proofs.CrashRunner
import Verif.Props.Fine
/-!
# C65: the process is killed while threads are at work
-/
namespace Candy.Props
open Candy.Spec

/-- **C65**. After any life of the store, threads make calls of any kind, whose memory accesses alternate in any way that the code's locks allow with those of the
background compactions and with splits. The process is killed at any moment of this; `begin_compaction`s and splits under way may be half-done. Then the directory can be
opened (opening may itself be interrupted), and what can be read is what could be read at the moment of the crash. -/
theorem C65_crash_keeps_map {cfg : Cfg} {bs : List Block} {t t' : Tree} (h : ReachableC cfg bs t) {tr : List CEvent} {S : FState} {d : Dir} {clearBad : Bool}
    (hr : FineRun cfg (FState.idle t) tr S) (hn : ∀ s ∈ S.tree.leaves, s.lo < s.hi) (hd : FineCrash cfg S d) (h' : Restart cfg clearBad d t') :
    (∀ k, t'.userGet cfg k = S.tree.userGet cfg k) ∧ t'.get cfg = S.tree.get cfg ∧ ReachableC cfg (bs ++ [.died tr]) t' := by
  obtain ⟨A, pen, led, _, hs⟩ := hr.sim (Sim.idle h.sane.ok)
  have he := (h'.spec (hs.crash hn hd)).2.2.2.2
  rw [hs.map] at he
  refine ⟨fun k => ?_, he, ?_⟩
  · exact congrFun he (userKey k)
  · obtain ⟨t0, h0, h1⟩ := h
    exact ⟨t0, h0, h1.append (.died hr hn hd h' (.nil _))⟩

/-- **C65**, the store can be opened: no error and no panic, if no file has reached 4 GiB. -/
theorem C65_opens {cfg : Cfg} {bs : List Block} {t : Tree} (h : ReachableC cfg bs t) {tr : List CEvent} {S : FState} {d : Dir}
    (hr : FineRun cfg (FState.idle t) tr S) (hn : ∀ s ∈ S.tree.leaves, s.lo < s.hi) (hd : FineCrash cfg S d) (hz : d.Sized) (clearBad : Bool) :
    ∃ ops d' t', openStore cfg clearBad d = (ops, .ok t') ∧ d.run ops = some d' ∧ DirOf d' t'.leaves ∧ Restart cfg clearBad d t' := by
  obtain ⟨A, pen, led, _, hs⟩ := hr.sim (Sim.idle h.sane.ok)
  obtain ⟨ops, d', t', h1, h2, h3, _⟩ := (hs.crash hn hd).openStore (clearBad := clearBad) hz
  exact ⟨ops, d', t', h1, h2, h3, .done hz h1⟩

/-- **C65** (partial), durable linearizability. Threads make concurrent calls, the process is killed at any moment, the store is opened again and used. There
is a sequential history, of which the calls that had returned are part, in an order that respects real time, together with some calls that had begun (those happened
completely); the remaining unfinished calls follow, each as if a process making only this call had died inside it; then the calls made after the
restart follow. In this history all calls answer as the ideal map, the ideal lists and the ideal queues do. Missing: what is missing in C38. -/
theorem C65_durable_linearizable_partial {cfg : Cfg} {bs : List Block} {t t' t'' : Tree} (h : ReachableC cfg bs t) (hat : SerialCalls cfg bs) {tr : List CEvent} {S : FState}
    {d : Dir} {clearBad : Bool} (hr : FineRun cfg (FState.idle t) tr S) (hat' : Serial cfg tr)
    (hn : ∀ s ∈ S.tree.leaves, s.lo < s.hi) (hd : FineCrash cfg S d) (h' : Restart cfg clearBad d t') {later : List Event} (hl : Run cfg t' later t'') :
    ∃ es ops pend, Explains bs es ∧ LinearizesTo tr ops pend ∧
      let all := es ++ ops.map (fun o => Event.call o.1 o.2) ++ pend.map (fun x => Event.crash (some x.2)) ++ later
      LikeIdealMap cfg Map.empty all ∧ (∀ lk, NoClash cfg lk all → LikeIdealList cfg lk (some LState.new) all) ∧
        ∀ qk, LikeIdealQueue cfg qk (some QState.new) all := by
  obtain ⟨es, w, h1, h2, h3, h4⟩ := h.world hat
  obtain ⟨A, pen, led, ha, hs⟩ := hr.sim (Sim.idle h3.ok)
  obtain ⟨ops, pend, w1, g0, g1, g2⟩ := ha.died h4 hat'
  obtain ⟨k1, _, _, _, k5⟩ := h'.spec (hs.crash hn hd)
  obtain ⟨w2, q1, _⟩ := hl.refines false w1 ⟨h3.bound, k1⟩ (by rw [k5]; exact g2)
  have h9 := SpecRun.append (SpecRun.append h2 g1) q1
  rw [← List.append_assoc] at h9
  exact ⟨es, ops, pend, h1, g0, specRun_likeIdealMap h9, fun lk hn => specRun_likeList h9 hn, fun qk => (specRun_queue h9).1⟩

/-! ### Concrete cases -/

/-- A state in which all files are small and the process can be killed. -/
theorem killable {cfg : Cfg} {ex : Bool} {t : Tree} (h : Sane cfg ex t) {tr : List CEvent} {S : FState} (hr : FineRun cfg (FState.idle t) tr S)
    (hb : S.tree.leaves.all (fun s => smallB s && decide (s.lo < s.hi)) = true) :
    (∀ s ∈ S.tree.leaves, s.lo < s.hi) ∧ S.tree.Small ∧ DirOf (filesOf S.tree.leaves) S.tree.leaves := by
  simp only [List.all_eq_true, Bool.and_eq_true, decide_eq_true_eq] at hb
  have hn : S.tree.NonDegenerate := fun s hs => (hb s hs).2
  obtain ⟨A, pen, led, _, hs⟩ := hr.sim (Sim.idle h.ok)
  refine ⟨hn, fun s hm => ?_, filesOf_dirOf _ (hs.core.shape.tiles hn dyadic_full).names⟩
  obtain ⟨_, h2, h3⟩ := hs.core.shape.find_leaf hm (hn s hm)
  have := hs.rok (Nat.lt_of_lt_of_le (hn s hm) h2)
  rw [h3] at this
  exact smallB_sound this.acct (hb s hm).1

/-- A part of the schedule of C62, up to a moment at which the compaction is writing the bytes of an entry of row 0 and thread 1 is writing the bytes of the new value
of `[1]` in row 1. -/
def killSched : List FCmd := fineSched.take 36 ++ [.bg 0 5, .step 1 5]

set_option maxRecDepth 100000 in
theorem kill_demo : checkFP fineCfg fineBefore 3 killSched (fun S => S.tree.leaves.all (fun s => smallB s && decide (s.lo < s.hi)) &&
    (match S.thr 1 with | some (_, _, .run _ (.store _ (.pwrite _ _) _)) => true | _ => false) &&
    (match S.bg 0 with | some (_, .store _ (.pwrite _ _) _) => true | _ => false)) = true := by decide +kernel

/-- The hypotheses of C65 are met: thread 1 is in the middle of a call and a compaction is in the middle of a row when the process is killed. -/
example : ∃ t S d t', ReachableC fineCfg [.seq (hist fineBefore)] t ∧ FineRun fineCfg (FState.idle t) (traceF killSched (fun _ => none)) S ∧
    (∀ s ∈ S.tree.leaves, s.lo < s.hi) ∧ FineCrash fineCfg S d ∧ d.Sized ∧ Restart fineCfg false d t' ∧
    Serial fineCfg (traceF killSched (fun _ => none)) ∧ S.thr 1 ≠ none ∧ S.bg 0 ≠ none := by
  obtain ⟨t, S, hreach, h2, h3, h4⟩ := checkFP_sound kill_demo
  obtain ⟨_, _, hs, _⟩ := hreach.world
  obtain ⟨t0, h0, h1⟩ := hreach
  have hreach : ReachableC fineCfg [.seq (hist fineBefore)] t := ⟨t0, h0, .seq h1 (.nil _)⟩
  rw [Bool.and_eq_true, Bool.and_eq_true] at h4
  obtain ⟨⟨h4, h5⟩, h6⟩ := h4
  obtain ⟨g1, g2, g3⟩ := killable hs h2 h4
  have hc : FineCrash fineCfg S (filesOf S.tree.leaves) := ⟨_, g3, .nil _ _⟩
  obtain ⟨_, _, t', _, _, _, g4⟩ := C65_opens hreach h2 g1 hc (g3.sized g2) false
  refine ⟨t, S, _, t', hreach, h2, g1, hc, g3.sized g2, g4, ?_, ?_, ?_⟩
  · have : (traceF killSched (fun _ => none)).all (fun e => match e with | .inv _ c => c.atomic | _ => true) = true := by decide
    rw [List.all_eq_true] at this
    exact .of_atomic (fun i c hm => this _ hm)
  · intro e; rw [e] at h5; cases h5
  · intro e; rw [e] at h6; cases h6

/-- A part of the schedule of C62: threads 0 and 2 have written and have let go of the shard's files; both want to begin a compaction. -/
def beginSched : List FCmd := fineSched.take 29

/-- Thread 0 can begin a compaction, and will create a file. -/
def beginsB (cfg : Cfg) (N : Nat) (S : FState) : Bool := match S.thr 0 with
  | some (_, p, .out _ (some off)) => match p.rop with
    | some op => !S.busyB cfg N none (S.shard cfg op).lo (fun _ fl => fl.onFiles) && decide (off ≤ (S.shard cfg op).src.writeOff) && (S.shard cfg op).tgt.isNone
    | none => false
  | _ => false

theorem beginsB_sound {cfg : Cfg} {N : Nat} {S : FState} (hN : ∀ j, N ≤ j → S.thr j = none) (h : beginsB cfg N S = true) :
    ∃ c p a off op, S.thr 0 = some (c, p, .out a (some off)) ∧ p.rop = some op ∧ ¬ S.Busy cfg none (S.shard cfg op).lo (fun _ fl => fl.onFiles = true) ∧
      (S.shard cfg op).beginOps off = createOps (S.shard cfg op).tgtName ∧ (S.shard cfg op).tgt = none := by
  unfold beginsB at h
  split at h
  · rename_i c p a off ht
    split at h
    · rename_i op ho
      simp only [Bool.and_eq_true, Bool.not_eq_true', decide_eq_true_eq, Option.isNone_iff_eq_none] at h
      obtain ⟨⟨h1, h2⟩, h3⟩ := h
      refine ⟨c, p, a, off, op, ht, ho, FState.busyB_sound hN (fun _ _ hq => hq) h1, ?_, h3⟩
      unfold Shard.beginOps
      rw [if_neg (by omega), h3]
    · cases h
  · cases h

set_option maxRecDepth 100000 in
theorem begin_demo : checkFP fineCfg fineBefore 3 beginSched (fun S => S.tree.leaves.all (fun s => smallB s && decide (s.lo < s.hi)) && beginsB fineCfg 3 S) = true := by
  decide +kernel

/-- The process is killed while thread 0 is creating the file of a compaction: it exists and is empty. The hypotheses of C65 are met. -/
example : ∃ t S d t', ReachableC fineCfg [.seq (hist fineBefore)] t ∧ FineRun fineCfg (FState.idle t) (traceF beginSched (fun _ => none)) S ∧
    (∀ s ∈ S.tree.leaves, s.lo < s.hi) ∧ FineCrash fineCfg S d ∧ Restart fineCfg false d t' ∧ ∃ s ∈ S.tree.leaves, s.tgt = none ∧ d.find s.tgtName = some .zero := by
  obtain ⟨t, S, hreach, h2, h3, h4⟩ := checkFP_sound begin_demo
  obtain ⟨_, _, hs, _⟩ := hreach.world
  obtain ⟨t0, h0, h1⟩ := hreach
  have hreach : ReachableC fineCfg [.seq (hist fineBefore)] t := ⟨t0, h0, .seq h1 (.nil _)⟩
  rw [Bool.and_eq_true] at h4
  obtain ⟨g1, g2, g3⟩ := killable hs h2 h4.1
  obtain ⟨c, p, a, off, op, e1, e2, e3, e4, e5⟩ := beginsB_sound h3 h4.2
  have hm : S.shard fineCfg op ∈ S.tree.leaves := S.tree.find_leaves _
  obtain ⟨A, pen, led, _, hsim⟩ := h2.sim (Sim.idle hs.ok)
  have hrok : ROK fineCfg (S.shard fineCfg op) := by
    have q := hsim.core.shape.find_leaf hm (g1 _ hm)
    have := hsim.rok (Nat.lt_of_lt_of_le (g1 _ hm) q.2.1)
    rw [q.2.2] at this
    exact this
  have hw : fileW kvSize (S.shard fineCfg op).src ≤ (S.shard fineCfg op).src.writeOff := hrok.acct.1.bytes
  have hc : FineCrash fineCfg S ((filesOf S.tree.leaves).put (S.shard fineCfg op).tgtName .zero) :=
    ⟨_, g3, .begin e1 e2 e3 List.not_mem_nil (by rw [e4]; exact .step (d' := (filesOf S.tree.leaves).put (S.shard fineCfg op).tgtName .zero) rfl (.stop _ _)) (.nil _ _)⟩
  have hz : Dir.Sized ((filesOf S.tree.leaves).put (S.shard fineCfg op).tgtName .zero) := by
    intro a b f hf
    rw [Dir.find_put, if_neg (by simp [Shard.tgtName])] at hf
    have hsm := g3.sized g2 a b f hf
    rw [Dir.find_put]
    split
    · rename_i e
      simp only [Shard.tgtName, FName.mk.injEq, true_and] at e
      obtain ⟨rfl, rfl⟩ := e
      have := (g3.files _ hm).1
      rw [show FName.mk .shard (S.shard fineCfg op).lo (S.shard fineCfg op).hi = (S.shard fineCfg op).srcName from rfl, this] at hf
      simp only [Option.some.injEq, DFile.good.injEq] at hf
      subst hf
      refine ⟨hsm.1, fun t ht => ?_⟩
      simp only [Option.map_some, Option.some.injEq] at ht
      subst ht
      have h1 := remW_le kvSize (S.shard fineCfg op).src (DFile.asFile .zero).compactedUpTo
      have h2 : (DFile.asFile .zero).writeOff = 0 := rfl
      have h3 := (g2 _ hm).1
      show (DFile.asFile .zero).writeOff + remW kvSize (S.shard fineCfg op).src (DFile.asFile .zero).compactedUpTo < 4294967296
      omega
    · exact hsm
  obtain ⟨_, _, t', _, _, _, g4⟩ := C65_opens hreach h2 g1 hc hz false
  exact ⟨t, S, _, t', hreach, h2, g1, hc, g4, S.shard fineCfg op, hm, e5, by rw [Dir.find_put, if_pos rfl]⟩

end Candy.Props
