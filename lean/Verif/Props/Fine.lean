import Verif.Proofs.FineRunner
import Verif.Proofs.FineLive
import Verif.Props.Conc
import Verif.Props.Iter
/-!
# C62, C63: concurrent calls, one memory access at a time
-/
namespace Candy.Props
open Candy.Spec

/-- The ideal world a life of the store leads to. -/
theorem ReachableC.world {cfg : Cfg} {bs : List Block} {t : Tree} (h : ReachableC cfg bs t) (hat : SerialCalls cfg bs) :
    ∃ es w, Explains bs es ∧ SpecRun cfg World.new es w ∧ Sane cfg false t ∧ MAbs cfg (t.get cfg) w := by
  obtain ⟨t0, h0, h1⟩ := h
  obtain ⟨hs, hg⟩ := create_sane h0
  exact h1.refines true World.new hs (by rw [hg]; exact MAbs.new cfg) hat

/-- The files of a store are well-formed, whatever calls were made concurrently. -/
theorem ReachableC.sane {cfg : Cfg} {bs : List Block} {t : Tree} (h : ReachableC cfg bs t) : Sane cfg (exactLife true bs) t := by
  obtain ⟨t0, h0, h1⟩ := h
  exact h1.sane true (create_sane h0).1

/-- **C62** (partial). After any life of the store, any number of threads make calls whose single memory accesses alternate in any way that the code's locks
allow (with those of the background compactions, and with splits). At every moment there is a sequential history in which each call that has returned
happens at one moment between its beginning and its return, and in which all calls answer as the ideal map, the ideal lists and the ideal
queues do. Missing: what is missing in C38. -/
theorem C62_memory_serializable_partial {cfg : Cfg} {bs : List Block} {t : Tree} (h : ReachableC cfg bs t) (hat : SerialCalls cfg bs) {tr : List CEvent} {S : FState}
    (hr : FineRun cfg (FState.idle t) tr S) (hat' : Serial cfg tr) :
    ∃ es ops, Explains bs es ∧ Linearizes tr ops ∧
      let all := es ++ ops.map (fun o => Event.call o.1 o.2)
      LikeIdealMap cfg Map.empty all ∧ (∀ lk, NoClash cfg lk all → LikeIdealList cfg lk (some LState.new) all) ∧
        ∀ qk, LikeIdealQueue cfg qk (some QState.new) all := by
  obtain ⟨es, w, h1, h2, h3, h4⟩ := h.world hat
  obtain ⟨A, pen, led, h5, h6⟩ := hr.sim (Sim.idle h3.ok)
  obtain ⟨ops, w', h7, h8, _⟩ := h5.idle h4 hat'
  have h9 := SpecRun.append h2 h8
  exact ⟨es, ops, h1, h7, specRun_likeIdealMap h9, fun lk hn => specRun_likeList h9 hn, fun qk => (specRun_queue h9).1⟩

/-- The row and the signature depend on the first byte and the length of the key only: the keys `[0]` and `[4]` have the same row and signature. A compaction begins as soon as
one byte is wasted. -/
def fineCfg : Cfg :=
  { runCfg with minCompaction := 1, hash := fun b => ⟨BitVec.ofNat 64 ((b.headD 0).toNat % 4 * 4294967296 + 5 + b.length), 0#64⟩ }

def fineBefore : List (Call × Res Resp) :=
  [(.kv [0] (.set [1]), .ok (.setStatus .createdNew)), (.kv [0] (.set [2]), .ok (.setStatus (.prevValue [1])))]

/-- Three threads. While thread 0 adds `[1]`, thread 1 reads `[0]` and then removes it and thread 2 adds `[4]` to the same row; threads 0 and 2 both want to begin a compaction. While it
copies row 0, thread 1 overwrites `[1]` in row 1; thread 0 waits for the lock of row 0 and reads `[4]` from the new file. -/
def fineSched : List FCmd := [.go 0 (.kv [1] (.set [20])), .step 0 20, .go 1 (.kv [0] (.get)), .step 1 4, .go 2 (.kv [4] (.set [7])), .step 2 2, .step 1 3, .step 0 60,
 .step 1 4, .fin 1 (.ok (.val (some [2]))), .step 2 200, .step 0 440, .step 0 2, .go 1 (.kv [0] .remove), .step 1 2,
 .step 2 323, .step 0 1, .step 2 2, .step 0 1, .step 2 4, .step 0 1, .step 1 4, .step 0 1, .step 1 6, .step 2 1, .step 1 1, .step 0 1, .step 1 1,.fin 1 (.ok (.val (some [2]))), .step 0 2, .fin 0 (.ok (.setStatus .createdNew)),
 .step 2 2, .fin 2 (.ok (.setStatus .createdNew)), .bg 0 5, .go 1 (.kv [1] (.set [21])), .step 1 5, .bg 0 514, .step 1 4, .bg 0 1, .step 1 1, .bg 0 2, .step 1 3, .bg 0 1, .step 1 2, .bg 0 1, .go 0 (.kv [4] .get), .step 0 2, .step 1 2, .fin 1 (.ok (.setStatus (.prevValue [20]))), .bg 0 3, .step 0 9, .fin 0 (.ok (.val (some [7])))]

set_option maxRecDepth 100000 in
theorem fine_demo : checkF fineCfg fineBefore 3 fineSched = true := by decide +kernel

/-- The hypotheses of C62 are met: the script is an execution of more than 2000 steps in which three threads and a compaction alternate. -/
example : ∃ t S, ReachableC fineCfg [.seq (hist fineBefore)] t ∧ FineRun fineCfg (FState.idle t)
    [.inv 0 (.kv [1] (.set [20])), .inv 1 (.kv [0] .get), .inv 2 (.kv [4] (.set [7])), .ret 1 (.kv [0] .get) (.ok (.val (some [2]))), .inv 1 (.kv [0] .remove),
     .ret 1 (.kv [0] .remove) (.ok (.val (some [2]))), .ret 0 (.kv [1] (.set [20])) (.ok (.setStatus .createdNew)),
     .ret 2 (.kv [4] (.set [7])) (.ok (.setStatus .createdNew)), .inv 1 (.kv [1] (.set [21])), .inv 0 (.kv [4] .get),
     .ret 1 (.kv [1] (.set [21])) (.ok (.setStatus (.prevValue [20]))), .ret 0 (.kv [4] .get) (.ok (.val (some [7])))] S := by
  obtain ⟨t, S, ⟨t0, h0, h1⟩, h2⟩ := checkF_sound fine_demo
  exact ⟨t, S, ⟨t0, h0, .seq h1 (.nil _)⟩, h2⟩

/-- **C62**: no assertion of a background compaction fails, whatever the threads do meanwhile (calls of any kind). -/
theorem C62_no_panic {cfg : Cfg} {bs : List Block} {t : Tree} (h : ReachableC cfg bs t) {tr : List CEvent} {S : FState}
    (hr : FineRun cfg (FState.idle t) tr S) : ∀ l r, S.bg l ≠ some (r, .panic) := by
  intro l r hb
  obtain ⟨A, pen, led, _, h6⟩ := hr.sim (Sim.idle h.sane.ok)
  obtain ⟨sel, hsel, rfl⟩ := h6.bgl l (by rw [hb]; simp)
  exact (h6.bgt sel r _ hsel hb).elim

/-! ## C63 -/

/-- **C63**. Whenever a call is in progress (calls of any kind, any number of threads, any interleaving of their memory accesses with those of the background compactions),
some thread or some compaction can make a step: no deadlock. Every file is below 4 GiB, and no list or queue has used up its 2^63 indices. -/
theorem C63_no_deadlock {cfg : Cfg} {bs : List Block} {t : Tree} (h : ReachableC cfg bs t) {tr : List CEvent} {S : FState}
    (hr : FineRun cfg (FState.idle t) tr S)
    (hfit : ∀ sel, (S.tree.find sel).Fits) (hex : ∀ i c, S.thr i ≠ some (c, .exhausted, .idle))
    {i : Nat} (hbusy : S.thr i ≠ none) : ∃ e S', FStep cfg S e S' ∧ ∀ j c, e ≠ some (.inv j c) := by
  obtain ⟨A, pen, led, _, h6⟩ := hr.sim (Sim.idle h.sane.ok)
  exact h6.progress (hr.lockInv (LockInv.idle t)) hfit hex hbusy

/-- The first part of the schedule of C62: thread 2 holds the lock of row 0 in the middle of adding `[4]`, thread 1 waits for it, thread 0 is adding `[1]`. -/
def lockSched : List FCmd := fineSched.take 15 ++ [.step 2 323]

set_option maxRecDepth 100000 in
theorem lock_demo : checkFP fineCfg fineBefore 3 lockSched (fun S => fineF 3 S && (S.thr 1).isSome && (stepF fineCfg 3 1 S).isNone) = true := by decide +kernel

/-- The hypotheses of C63 are met in a state in which thread 1 cannot go on (it waits for a lock). -/
example : ∃ t S, ReachableC fineCfg [.seq (hist fineBefore)] t ∧ FineRun fineCfg (FState.idle t) (traceF lockSched (fun _ => none)) S ∧
    (∀ sel, (S.tree.find sel).Fits) ∧ (∀ i c, S.thr i ≠ some (c, .exhausted, .idle)) ∧ S.thr 1 ≠ none ∧ stepF fineCfg 3 1 S = none := by
  obtain ⟨t, S, ⟨t0, h0, h1⟩, h2, h3, h4⟩ := checkFP_sound lock_demo
  simp only [Bool.and_eq_true, Option.isNone_iff_eq_none] at h4
  obtain ⟨⟨h4, h5⟩, h6⟩ := h4
  obtain ⟨h7, h8⟩ := fineF_sound h3 h4
  exact ⟨t, S, ⟨t0, h0, .seq h1 (.nil _)⟩, h2, h7, h8, (fun e => by rw [e] at h5; cases h5), h6⟩

/-! ## C64 -/

/-- **C64**. After any life of the store in which the process has not crashed since the creation or last `clear` - with calls of any kind, one at a time or
concurrently, down to the interleaving of single memory accesses with those of background compactions and splits - `stats()` is exact: the counters, which the threads
update one by one after the data, have not missed or doubled anything. -/
theorem C64_stats_exact {cfg : Cfg} {bs : List Block} {t : Tree} (h : ReachableC cfg bs t) (hx : exactLife true bs = true) (hsm : t.Small) :
    ∃ t' st, t.stats cfg = some (t', st) ∧ t'.get cfg = t.get cfg ∧ st.numRemovals ≤ st.numInserts ∧ st.wasted ≤ st.occupied ∧
      st.numShards = t.leaves.length ∧
      ∀ L : List KV, L.Pairwise (fun a b => a.1 ≠ b.1) → (∀ k v, (k, v) ∈ L ↔ t.get cfg k = some v) →
        st.numEntries = L.length ∧ st.dataBytes = totalBytes L := by
  have hs := h.sane
  rw [hx] at hs
  exact stats_of_sane hs hsm

/-- **C64**, iteration: after any such life (crashes included) `iter_raw` yields every stored pair exactly once. -/
theorem C64_iter_exact {cfg : Cfg} {bs : List Block} {t : Tree} (h : ReachableC cfg bs t) :
    ∃ L : List KV, (∃ N, ∀ n, N ≤ n → It.collect t n (It.new true) = L) ∧ L.Pairwise (fun a b => a.1 ≠ b.1) ∧
      ∀ k v, (k, v) ∈ L ↔ t.get cfg k = some v := iter_raw_of_ok h.sane

set_option maxRecDepth 100000 in
theorem fine_quiet : checkFP fineCfg fineBefore 3 fineSched (fun S => quietF 3 S && S.tree.leaves.all smallB) = true := by decide +kernel

/-- The hypotheses of C64 are met: a life with the period of C62, in which a compaction is at work; the next sequential period begins with it in progress. -/
example : ∃ t, ReachableC fineCfg [.seq (hist fineBefore), .conc (traceF fineSched (fun _ => none))] t ∧
    exactLife true [.seq (hist fineBefore), .conc (traceF fineSched (fun _ => none))] = true ∧ t.Small := by
  obtain ⟨t, S, hreach, h2, h3, h4⟩ := checkFP_sound fine_quiet
  obtain ⟨_, _, hs, _⟩ := hreach.world
  obtain ⟨t0, h0, h1⟩ := hreach
  simp only [Bool.and_eq_true, List.all_eq_true] at h4
  obtain ⟨h5, h6⟩ := quietF_sound h2 hs.ok h3 h4.1
  exact ⟨S.tree, ⟨t0, h0, .seq h1 (.fine h2 h5 h6 (.nil _))⟩, rfl, fun s hm => smallB_sound ((h2.ok hs.ok h5 h6).leaf_inv s hm).2 (h4.2 s hm)⟩

end Candy.Props
