import Verif.Proofs.RawDir
import Verif.Props.Names
import Verif.Props.Crash
/-!
# C83: other files in the directory
-/
namespace Candy.Props
open Candy.Spec

/-- What a well-formed store does to its directory: insertions, removals, steps and completions of compactions, merges. -/
inductive StoreTrace (cfg : Cfg) (t : Tree) : List FOp → Prop
  | insert (ph : PH) (k v : Bytes) (mode : Mode) (n : Nat) : StoreTrace cfg t (t.insertOps cfg ph k v mode n)
  | remove (k : Bytes) : StoreTrace cfg t (t.removeOps cfg k)
  | bg (sel : Nat) : StoreTrace cfg t (t.bgOps cfg sel)
  | finish : StoreTrace cfg t (t.finishOps cfg)
  | merge (maxFill : Nat) : StoreTrace cfg t (t.mergeSmallOps cfg maxFill)
  /-- the process dies on the way -/
  | crash (n : Nat) {os : List FOp} (h : StoreTrace cfg t os) : StoreTrace cfg t (os.take n)

theorem trace_ok {cfg : Cfg} {t : Tree} (hb : t.Bdd) {os : List FOp} (hos : StoreTrace cfg t os) : OpsOk os := by
  induction hos with
  | insert ph k v mode n => exact Tree.Bdd.insertOps cfg ph k v mode n t hb
  | remove k => exact hb.removeOps cfg k
  | bg sel => exact hb.bgOps cfg sel
  | finish => exact hb.finishOps cfg
  | merge mf => exact hb.mergeSmallOps cfg mf
  | crash n _ ih => exact fun o ho => ih o (List.mem_of_mem_take ho)

/-- **C83** (partial: names that do not begin like those of the store's files). If a directory `r` holds the files `d` of a store and foreign entries, opening it gives the result and
changes the files as if the foreign entries were not there, and leaves these as they are. -/
theorem C83_open_partial {d d' : Dir} {r : RawDir} (h : Among d r) (hd : (d.map Prod.fst).Nodup) (cfg : Cfg) (clearBad : Bool)
    (hr : d.run (openStore cfg clearBad d).1 = some d') :
    (r.openStore cfg clearBad).2 = (openStore cfg clearBad d).2 ∧ ∃ r', r.run (r.openStore cfg clearBad).1 = some r' ∧ Among d' r' ∧ r'.others = r.others :=
  h.openStore hd cfg clearBad hr

/-- ... so does every operation of the store, finished or cut off by a crash, ... -/
theorem C83_operations_partial {cfg : Cfg} {es : List Event} {t : Tree} (ht : Reachable cfg es t) {os : List FOp} (hos : StoreTrace cfg t os) {d d' : Dir} {r : RawDir}
    (h : Among d r) (hr : d.run os = some d') : ∃ r', r.run (os.map .op) = some r' ∧ Among d' r' ∧ r'.others = r.others := by
  obtain ⟨w, _, hs, _⟩ := ht.world
  exact Among.run os h (trace_ok hs.ok.bdd hos) hr

/-- ... and `clear`. -/
theorem C83_clear_partial {d d' : Dir} {r : RawDir} (h : Among d r) (cfg : Cfg) (hr : d.run (clearOps cfg d) = some d') :
    ∃ r', r.run (r.clearOps cfg) = some r' ∧ Among d' r' ∧ r'.others = r.others :=
  h.clearOps cfg hr

/-- A store of one shard, a README, a subdirectory and a file that begins with "shards". -/
theorem among_example (f : MFile) : Among [(⟨.shard, 0, 65536⟩, .good f)]
    [.file "README".toList .zero, .file (FName.print ⟨.shard, 0, 65536⟩) (.good f), .other 0, .file "shards".toList .zero] :=
  .foreign _ (by decide) (.own _ _ (by decide) (.foreign _ rfl (.foreign _ (by decide) .nil)))

example (f : MFile) : (RawDir.others [.file "README".toList .zero, .file (FName.print ⟨.shard, 0, 65536⟩) (.good f), .other 0, .file "shards".toList .zero]).length = 3 := by
  have h : foreignName (FName.print ⟨.shard, 0, 65536⟩) = false := foreignName_print _
  have h1 : foreignName "README".toList = true := by decide
  have h2 : foreignName "shards".toList = true := by decide
  simp only [RawDir.others, List.filter_cons, RawEntry.foreign, h, h1, h2]
  rfl

theorem find_head (s : List Char) (y : DFile) (r : RawDir) : RawDir.find (.file s y :: r) s = some y := by rw [RawDir.find, if_pos rfl]

theorem treeify_whole (f : MFile) : treeify [⟨0, 65536, f, none⟩] = some (.leaf ⟨0, 65536, f, none⟩) := by
  have hp : isPow2 65536 = true := by decide +kernel
  simp [treeify, sortedByStart, Tree.len, Tree.lo, Tree.hi, treeLoop, END_OF_SHARDS, hp]

theorem openStore_whole (cfg : Cfg) (clearBad : Bool) (f : MFile) :
    openStore cfg clearBad [(⟨.shard, 0, 65536⟩, .good f)] = ([.magic ⟨.shard, 0, 65536⟩], .ok (.leaf ⟨0, 65536, f, none⟩)) := by
  have hs : scanDir [(⟨.shard, 0, 65536⟩, .good f)] = ([], some [(0, 65536)]) := by simp [scanDir, END_OF_SHARDS]
  have hcons : consolidate [(0, 65536)] = ([(0, 65536)], []) := by simp [consolidate, consolidateLoop]
  have ht := treeify_whole f
  unfold openStore load
  dsimp only
  rw [hs]
  dsimp only
  rw [hcons]
  simp only [openAll, openShard, openSrc, Dir.find, if_true, eq_self, FName.mk.injEq, reduceCtorEq, false_and, if_false, ht]
  rfl

/-- Opening it finds the shard. -/
example (cfg : Cfg) (clearBad : Bool) (f : MFile) : (RawDir.openStore cfg clearBad
    [.file "README".toList .zero, .file (FName.print ⟨.shard, 0, 65536⟩) (.good f), .other 0, .file "shards".toList .zero]).2 = .ok (.leaf ⟨0, 65536, f, none⟩) := by
  have e := openStore_whole cfg clearBad f
  rw [(C83_open_partial (among_example f) (by simp) cfg clearBad (d' := [(⟨.shard, 0, 65536⟩, .good f)]) (by rw [e]; rfl)).1, e]

/-- **C83 is false** for a name that begins like a shard file: with a copy `shard_0000-10000.bak` in the directory, opening the store panics, whatever the copy contains, ... -/
theorem C83_refuted_panic (cfg : Cfg) (clearBad : Bool) (f : MFile) (x : DFile) :
    (RawDir.openStore cfg clearBad [.file (FName.print ⟨.shard, 0, 65536⟩) (.good f), .file "shard_0000-10000.bak".toList x]).2 = .panic := by
  have h1 : classify (FName.print ⟨.shard, 0, 65536⟩) = .shard 0 65536 := C41_round_trip 0 65536 (by decide) (by decide)
  have h2 : classify "shard_0000-10000.bak".toList = .panic := by decide +kernel
  have hs : (scanNames (RawDir.names [.file (FName.print ⟨.shard, 0, 65536⟩) (.good f), .file "shard_0000-10000.bak".toList x])).2 = .panic := by
    show (scanNames [FName.print ⟨.shard, 0, 65536⟩, "shard_0000-10000.bak".toList]).2 = .panic
    simp only [scanNames, h1, h2]
  unfold RawDir.openStore
  dsimp only
  rw [hs]

/-- ... and a copy whose name is read as the same span (`shard_0-10000`) makes opening delete the shard file itself: the store opens without an error, empty, and what it held is
gone from the directory. -/
theorem C83_refuted_duplicate (cfg : Cfg) (clearBad : Bool) (f : MFile) (x : DFile) :
    (RawDir.openStore cfg clearBad [.file (FName.print ⟨.shard, 0, 65536⟩) (.good f), .file "shard_0-10000".toList x]).2 = .ok (.leaf ⟨0, 65536, MFile.empty, none⟩) ∧
      RawDir.run [.file (FName.print ⟨.shard, 0, 65536⟩) (.good f), .file "shard_0-10000".toList x]
        (RawDir.openStore cfg clearBad [.file (FName.print ⟨.shard, 0, 65536⟩) (.good f), .file "shard_0-10000".toList x]).1 = some [.file (FName.print ⟨.shard, 0, 65536⟩) (.good MFile.empty), .file "shard_0-10000".toList x] := by
  have hp : FName.print ⟨.shard, 0, 65536⟩ = "shard_0000-10000".toList := by decide +kernel
  have hpc : FName.print ⟨.compact, 0, 65536⟩ = "compact_0000-10000".toList := by decide +kernel
  have h1 : classify "shard_0000-10000".toList = .shard 0 65536 := by decide +kernel
  have h2 : classify "shard_0-10000".toList = .shard 0 65536 := by decide +kernel
  have n1 : "shard_0-10000".toList ≠ "shard_0000-10000".toList := by decide
  have n2 : "shard_0-10000".toList ≠ "compact_0000-10000".toList := by decide
  rw [hp]
  generalize hr : ([.file "shard_0000-10000".toList (.good f), .file "shard_0-10000".toList x] : RawDir) = r
  have hs : scanNames (RawDir.names r) = ([], .ok [(0, 65536), (0, 65536)]) := by
    rw [← hr]
    show scanNames ["shard_0000-10000".toList, "shard_0-10000".toList] = _
    simp only [scanNames, h1, h2]
  have hc : consolidate [(0, 65536), (0, 65536)] = ([(0, 65536)], [(0, 65536)]) := by
    simp [consolidate, List.mergeSort, List.MergeSort.Internal.splitInTwo, spanLe, consolidateLoop]
  have hdel : RawDir.del r "shard_0000-10000".toList = [.file "shard_0-10000".toList x] := by
    rw [← hr]
    simp only [RawDir.del, List.filter_cons, RawEntry.named_file, decide_eq_false n1]
    rfl
  have hv : RawDir.view [.file "shard_0-10000".toList x] [(0, 65536)] = [] := by
    unfold RawDir.view
    simp only [List.flatMap_cons, List.flatMap_nil, List.filterMap_cons, List.filterMap_nil, RawDir.find, hp, hpc, if_neg n1, if_neg n2, Option.map_none, List.append_nil]
  have ht := treeify_whole MFile.empty
  have hopen : RawDir.openStore cfg clearBad r = ([.op (.unlink ⟨.shard, 0, 65536⟩), .op (.trunc ⟨.shard, 0, 65536⟩), .op (.setLen ⟨.shard, 0, 65536⟩), .op (.magic ⟨.shard, 0, 65536⟩)],
      .ok (.leaf ⟨0, 65536, MFile.empty, none⟩)) := by
    unfold RawDir.openStore
    dsimp only
    rw [hs]
    dsimp only
    rw [hc]
    simp only [List.foldl_cons, List.foldl_nil, hp, hdel, hv, openAll, openShard, openSrc, Dir.find, ht]
    rfl
  refine ⟨by rw [hopen], ?_⟩
  rw [hopen]
  have f1 : RawDir.find r "shard_0000-10000".toList = some (.good f) := by rw [← hr]; exact find_head _ _ _
  have d2 : ∀ y, RawDir.del [.file "shard_0000-10000".toList y, .file "shard_0-10000".toList x] "shard_0000-10000".toList = [.file "shard_0-10000".toList x] := by
    intro y
    simp only [RawDir.del, List.filter_cons, RawEntry.named_file, decide_eq_false n1]
    rfl
  have d3 : RawDir.del [.file "shard_0-10000".toList x] "shard_0000-10000".toList = [.file "shard_0-10000".toList x] := by
    simp only [RawDir.del, List.filter_cons, RawEntry.named_file, decide_eq_false n1]
    rfl
  generalize "shard_0000-10000".toList = A at *
  generalize "shard_0-10000".toList = B at *
  simp only [RawDir.run, DirOp.app, hp, f1, hdel, RawDir.put, d3, RawDir.find, if_true, eq_self, d2]

/-- Opening deletes files of others whose names begin like the temporary files of the store, ... -/
theorem C83_refuted_deletes (cfg : Cfg) (clearBad : Bool) (f : MFile) (x : DFile) :
    ∃ ops, (RawDir.openStore cfg clearBad [.file "top_secret.txt".toList x, .file (FName.print ⟨.shard, 0, 65536⟩) (.good f)]) =
      (.rm "top_secret.txt".toList :: ops, .ok (.leaf ⟨0, 65536, f, none⟩)) := by
  have hp : FName.print ⟨.shard, 0, 65536⟩ = "shard_0000-10000".toList := by decide +kernel
  have hpc : FName.print ⟨.compact, 0, 65536⟩ = "compact_0000-10000".toList := by decide +kernel
  have h1 : classify "shard_0000-10000".toList = .shard 0 65536 := by decide +kernel
  have h2 : classify "top_secret.txt".toList = .remove := by decide +kernel
  have n1 : "top_secret.txt".toList ≠ "shard_0000-10000".toList := by decide
  have n2 : "top_secret.txt".toList ≠ "compact_0000-10000".toList := by decide
  have n3 : "shard_0000-10000".toList ≠ "compact_0000-10000".toList := by decide
  rw [hp]
  generalize hr : ([.file "top_secret.txt".toList x, .file "shard_0000-10000".toList (.good f)] : RawDir) = r
  have hs : scanNames (RawDir.names r) = (["top_secret.txt".toList], .ok [(0, 65536)]) := by
    rw [← hr]
    show scanNames ["top_secret.txt".toList, "shard_0000-10000".toList] = _
    simp only [scanNames, h1, h2]
  have hc : consolidate [(0, 65536)] = ([(0, 65536)], []) := by simp [consolidate, consolidateLoop]
  have hv : RawDir.view r [(0, 65536)] = [(⟨.shard, 0, 65536⟩, .good f)] := by
    rw [← hr]
    unfold RawDir.view
    generalize "shard_0000-10000".toList = A at *
    generalize "top_secret.txt".toList = B at *
    generalize "compact_0000-10000".toList = C at *
    simp only [List.flatMap_cons, List.flatMap_nil, List.filterMap_cons, List.filterMap_nil, RawDir.find, hp, hpc, if_neg n1, if_neg n2, if_neg n3, if_true, eq_self, Option.map_none, Option.map_some,
      List.append_nil]
  have ht := treeify_whole f
  refine ⟨[.op (.magic ⟨.shard, 0, 65536⟩)], ?_⟩
  unfold RawDir.openStore
  dsimp only
  rw [hs]
  dsimp only
  rw [hc]
  simp only [List.foldl_nil, hv, openAll, openShard, openSrc, Dir.find, if_true, eq_self, FName.mk.injEq, reduceCtorEq, false_and, if_false, ht]
  rfl

/-- ... and `clear` those that begin like its compaction files. -/
theorem C83_refuted_clear : clearTakes "compact_disc.iso".toList = true ∧ clearTakes "shard_notes.txt".toList = true ∧ clearTakes "top_secret.txt".toList = true := by
  decide

end Candy.Props
