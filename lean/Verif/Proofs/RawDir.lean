import Verif.Model.RawDir
import Verif.Model.Crash
import Verif.Proofs.Names
import Verif.Proofs.FS
import Verif.Proofs.IterConc
import Verif.Proofs.Consolidate
/-!
# Foreign files do not matter
-/
namespace Candy

/-- A name with numbers that fit. -/
def FName.Ok (n : FName) : Prop := n.lo < 2 ^ 32 ∧ n.hi < 2 ^ 32

/-- The names an operation mentions. -/
def FOp.names : FOp → List FName
  | .trunc n => [n]
  | .setLen n => [n]
  | .magic n => [n]
  | .prim n _ => [n]
  | .rename a b => [a, b]
  | .unlink n => [n]
  | .unlinkIf n => [n]

def FOp.Ok (o : FOp) : Prop := ∀ n ∈ o.names, n.Ok

theorem RawEntry.named_file (s m : List Char) (x : DFile) : (RawEntry.file m x).named s = decide (m = s) := rfl
theorem RawEntry.named_other (s : List Char) (i : Nat) : (RawEntry.other i).named s = false := rfl

theorem RawDir.find_del (r : RawDir) (s u : List Char) : (r.del s).find u = if u = s then none else r.find u := by
  induction r with
  | nil => simp [RawDir.del, RawDir.find]
  | cons e r ih =>
    unfold RawDir.del at ih ⊢
    cases e with
    | other i =>
      rw [List.filter_cons, RawEntry.named_other, Bool.not_false, if_pos rfl, RawDir.find, RawDir.find]
      exact ih
    | file m x =>
      rw [List.filter_cons, RawEntry.named_file]
      by_cases h : m = s
      · rw [decide_eq_true h, Bool.not_true, if_neg (by simp), ih, RawDir.find]
        by_cases hu : u = s
        · rw [if_pos hu, if_pos hu]
        · rw [if_neg hu, if_neg hu, if_neg (fun h' => hu (h'.symm.trans h))]
      · rw [decide_eq_false h, Bool.not_false, if_pos rfl, RawDir.find, RawDir.find, ih]
        by_cases hm : m = u
        · rw [if_pos hm, if_pos hm, if_neg (fun h' => h (hm.trans h'))]
        · rw [if_neg hm, if_neg hm]

theorem RawDir.find_put (r : RawDir) (s : List Char) (x : DFile) (u : List Char) : (r.put s x).find u = if u = s then some x else r.find u := by
  unfold RawDir.put
  rw [RawDir.find, RawDir.find_del]
  by_cases e : u = s
  · simp [e]
  · rw [if_neg (fun h => e h.symm), if_neg e, if_neg e]

/-- Names the library prints are not foreign. -/
theorem foreignName_print (n : FName) : foreignName n.print = false := by
  have e1 : Kind.shard.prefix = "shard_".toList := by decide
  have e2 : Kind.compact.prefix = "compact_".toList := by decide
  have e3 : Kind.bottom.prefix = "bottom_".toList := by decide
  have e4 : Kind.top.prefix = "top_".toList := by decide
  have e5 : Kind.merge.prefix = "merge_".toList := by decide
  unfold foreignName
  rw [← e1, ← e2, ← e3, ← e4, ← e5, prefix_print, prefix_print, prefix_print, prefix_print, prefix_print]
  cases n.kind <;> rfl

theorem Among.find {d : Dir} {r : RawDir} (h : Among d r) {n : FName} (hn : n.Ok) : r.find n.print = d.find n := by
  induction h with
  | nil => rfl
  | own m x hm h ih =>
    rw [RawDir.find, Dir.find, ih]
    by_cases e : m = n
    · rw [if_pos e, if_pos (by rw [e])]
    · rw [if_neg e, if_neg (fun h => e (print_inj m n hm hn h))]
  | foreign e he h ih =>
    cases e with
    | other i => exact ih
    | file m x =>
      rw [RawDir.find, if_neg, ih]
      intro e
      subst e
      exact absurd (foreignName_print n) (by rw [show foreignName n.print = true from he]; simp)

theorem Among.del {d : Dir} {r : RawDir} (h : Among d r) {n : FName} (hn : n.Ok) : Among (d.del n) (r.del n.print) := by
  induction h with
  | nil => exact .nil
  | own m x hm h ih =>
    unfold Dir.del RawDir.del at ih ⊢
    rw [List.filter_cons, List.filter_cons, RawEntry.named_file]
    dsimp only
    by_cases e : m = n
    · rw [decide_eq_false (fun h => h e), decide_eq_true (by rw [e]), Bool.not_true, if_neg (by simp), if_neg (by simp)]
      exact ih
    · rw [decide_eq_true e, decide_eq_false (fun h => e (print_inj m n hm hn h)), Bool.not_false, if_pos rfl, if_pos rfl]
      exact .own m x hm ih
  | foreign e he h ih =>
    unfold RawDir.del at ih ⊢
    rw [List.filter_cons]
    have : e.named n.print = false := by
      cases e with
      | other i => rfl
      | file m x =>
        rw [RawEntry.named_file, decide_eq_false]
        intro e
        subst e
        exact absurd (foreignName_print n) (by rw [show foreignName n.print = true from he]; simp)
    rw [this, Bool.not_false, if_pos rfl]
    exact .foreign e he ih

theorem Among.put {d : Dir} {r : RawDir} (h : Among d r) {n : FName} (hn : n.Ok) (x : DFile) : Among (d.put n x) (r.put n.print x) :=
  .own n x hn (h.del hn)

theorem RawDir.others_del (r : RawDir) (n : FName) : (r.del n.print).others = r.others := by
  unfold RawDir.others RawDir.del
  rw [List.filter_filter]
  congr 1
  funext e
  cases e with
  | other i => rfl
  | file m x =>
    by_cases h : m = n.print
    · subst h
      have : RawEntry.foreign (.file n.print x) = false := foreignName_print n
      rw [this, Bool.false_and]
    · rw [RawEntry.named_file, decide_eq_false h, Bool.not_false, Bool.and_true]

theorem RawDir.others_put (r : RawDir) (n : FName) (x : DFile) : (r.put n.print x).others = r.others := by
  rw [← RawDir.others_del r n]
  unfold RawDir.put RawDir.others
  have : RawEntry.foreign (.file n.print x) = false := foreignName_print n
  rw [List.filter_cons, this]
  rfl

theorem Among.app {d d' : Dir} {r : RawDir} (h : Among d r) {o : FOp} (ho : o.Ok) (e : o.app d = some d') :
    ∃ r', (DirOp.op o).app r = some r' ∧ Among d' r' ∧ r'.others = r.others := by
  cases o with
  | trunc n =>
    have hn : n.Ok := ho n (by simp [FOp.names])
    cases e
    exact ⟨_, rfl, h.put hn _, RawDir.others_put r n _⟩
  | setLen n =>
    have hn : n.Ok := ho n (by simp [FOp.names])
    simp only [FOp.app, DirOp.app] at e ⊢
    rw [h.find hn]
    cases hx : d.find n with
    | none => rw [hx] at e; cases e
    | some x =>
      rw [hx] at e
      cases x with
      | zero => cases e; exact ⟨_, rfl, h.put hn _, RawDir.others_put r n _⟩
      | blank => cases e; exact ⟨_, rfl, h, rfl⟩
      | good f => cases e; exact ⟨_, rfl, h, rfl⟩
  | magic n =>
    have hn : n.Ok := ho n (by simp [FOp.names])
    simp only [FOp.app, DirOp.app] at e ⊢
    rw [h.find hn]
    cases hx : d.find n with
    | none => rw [hx] at e; cases e
    | some x =>
      rw [hx] at e
      cases x with
      | zero => cases e; exact ⟨_, rfl, h.put hn _, RawDir.others_put r n _⟩
      | blank => cases e; exact ⟨_, rfl, h.put hn _, RawDir.others_put r n _⟩
      | good f => cases e; exact ⟨_, rfl, h, rfl⟩
  | prim n p =>
    have hn : n.Ok := ho n (by simp [FOp.names])
    simp only [FOp.app, DirOp.app] at e ⊢
    rw [h.find hn]
    cases hx : d.find n with
    | none => rw [hx] at e; cases e
    | some x =>
      rw [hx] at e
      cases x with
      | zero => cases e
      | blank => cases e
      | good f => cases e; exact ⟨_, rfl, h.put hn _, RawDir.others_put r n _⟩
  | rename a b =>
    have ha : a.Ok := ho a (by simp [FOp.names])
    have hb : b.Ok := ho b (by simp [FOp.names])
    simp only [FOp.app, DirOp.app] at e ⊢
    rw [h.find ha]
    cases hx : d.find a with
    | none => rw [hx] at e; cases e
    | some x =>
      rw [hx] at e
      cases e
      exact ⟨_, rfl, (h.del ha).put hb _, by rw [RawDir.others_put _ b, RawDir.others_del r a]⟩
  | unlink n =>
    have hn : n.Ok := ho n (by simp [FOp.names])
    simp only [FOp.app, DirOp.app] at e ⊢
    rw [h.find hn]
    cases hx : d.find n with
    | none => rw [hx] at e; cases e
    | some x => rw [hx] at e; cases e; exact ⟨_, rfl, h.del hn, RawDir.others_del r n⟩
  | unlinkIf n =>
    have hn : n.Ok := ho n (by simp [FOp.names])
    cases e
    exact ⟨_, rfl, h.del hn, RawDir.others_del r n⟩

theorem Among.run : ∀ (os : List FOp) {d d' : Dir} {r : RawDir}, Among d r → (∀ o ∈ os, FOp.Ok o) → d.run os = some d' →
    ∃ r', r.run (os.map .op) = some r' ∧ Among d' r' ∧ r'.others = r.others
  | [], d, d', r, h, _, e => by cases e; exact ⟨r, rfl, h, rfl⟩
  | o :: os, d, d', r, h, ho, e => by
    simp only [Dir.run] at e
    cases hx : o.app d with
    | none => rw [hx] at e; cases e
    | some d1 =>
      rw [hx] at e
      obtain ⟨r1, e1, h1, f1⟩ := h.app (ho o (List.mem_cons_self ..)) hx
      obtain ⟨r2, e2, h2, f2⟩ := Among.run os h1 (fun o hm => ho o (List.mem_cons_of_mem _ hm)) e
      refine ⟨r2, ?_, h2, f2.trans f1⟩
      simp only [List.map_cons, RawDir.run, e1]
      exact e2

theorem RawDir.run_append (a b : List DirOp) : ∀ r : RawDir, r.run (a ++ b) = (r.run a).bind (fun r => r.run b) := by
  induction a with
  | nil => intro r; rfl
  | cons o a ih =>
    intro r
    simp only [List.cons_append, RawDir.run]
    cases o.app r with
    | none => rfl
    | some r' => exact ih r'

/-- Removing a file by the name found is removing it by its printed name. -/
theorem run_rm (l : List FName) : ∀ r : RawDir, r.run ((l.map FName.print).map .rm) = r.run ((l.map FOp.unlink).map .op) := by
  induction l with
  | nil => intro r; rfl
  | cons n l ih =>
    intro r
    simp only [List.map_cons, RawDir.run, DirOp.app]
    cases r.find n.print with
    | none => rfl
    | some x => exact ih _

/-! ## The operations of a store mention only names that fit -/

/-- A list of operations on names that fit. -/
def OpsOk (os : List FOp) : Prop := ∀ o ∈ os, o.Ok

theorem OpsOk.nil : OpsOk [] := by intro o h; cases h
theorem OpsOk.append {a b : List FOp} (ha : OpsOk a) (hb : OpsOk b) : OpsOk (a ++ b) := by
  intro o h
  rcases List.mem_append.1 h with h | h
  · exact ha o h
  · exact hb o h
theorem OpsOk.cons {o : FOp} {b : List FOp} (ha : o.Ok) (hb : OpsOk b) : OpsOk (o :: b) := by
  intro o' h
  rcases List.mem_cons.1 h with h | h
  · rw [h]; exact ha
  · exact hb o' h
theorem OpsOk.flatMap {α : Type} {l : List α} {f : α → List FOp} (h : ∀ a ∈ l, OpsOk (f a)) : OpsOk (l.flatMap f) := by
  intro o ho
  obtain ⟨a, ha, hm⟩ := List.mem_flatMap.1 ho
  exact h a ha o hm

theorem FOp.ok_of {o : FOp} {n : FName} (hn : n.Ok) (h : o.names = [n]) : o.Ok := by
  intro m hm
  rw [h, List.mem_singleton] at hm
  subst hm; exact hn
theorem FOp.ok_rename {a b : FName} (ha : a.Ok) (hb : b.Ok) : (FOp.rename a b).Ok := by
  intro m hm
  simp only [FOp.names, List.mem_cons, List.not_mem_nil, or_false] at hm
  rcases hm with e | e <;> subst e <;> assumption
theorem OpsOk.onFile {n : FName} (hn : n.Ok) (ps : List Prim) : OpsOk (onFile n ps) := by
  intro o ho
  obtain ⟨p, _, rfl⟩ := List.mem_map.1 ho
  exact FOp.ok_of hn rfl
theorem OpsOk.create {n : FName} (hn : n.Ok) : OpsOk (createOps n) :=
  .cons (FOp.ok_of hn rfl) (.cons (FOp.ok_of hn rfl) (.cons (FOp.ok_of hn rfl) .nil))

/-- A shard whose bounds fit. -/
def Shard.Bdd (s : Shard) : Prop := s.lo < 2 ^ 32 ∧ s.hi < 2 ^ 32

theorem Shard.Bdd.name {s : Shard} (h : s.Bdd) (k : Kind) : FName.Ok ⟨k, s.lo, s.hi⟩ := h

theorem Shard.Bdd.active {s : Shard} (h : s.Bdd) (row : Nat) : (s.activeName row).Ok := by
  unfold Shard.activeName
  split
  · split
    · exact h
    · exact h
  · exact h

theorem Shard.Bdd.insertOps {s : Shard} (h : s.Bdd) (cfg : Cfg) (ph : PH) (k v : Bytes) (mode : Mode) : OpsOk (s.insertOps cfg ph k v mode) := by
  unfold Shard.insertOps
  refine .append (.onFile (h.active _) _) ?_
  have hb : ∀ off, OpsOk ((s.runActive ph.rowSel (s.insertPlan cfg ph k v mode).1).beginOps off) := by
    intro off
    have e := s.runActive_span ph.rowSel (s.insertPlan cfg ph k v mode).1
    unfold Shard.beginOps
    split
    · exact .nil
    · split
      · exact .nil
      · refine .create ?_
        unfold Shard.tgtName
        rw [e.1, e.2]
        exact h
  cases (s.insertPlan cfg ph k v mode).2.2 with
  | none => exact .nil
  | some off => exact hb off

theorem Shard.Bdd.removeOps {s : Shard} (h : s.Bdd) (ph : PH) (k : Bytes) : OpsOk (s.removeOps ph k) := .onFile (h.active _) _

theorem Shard.Bdd.bgOps {s : Shard} (h : s.Bdd) (cfg : Cfg) : OpsOk (s.bgOps cfg) := by
  unfold Shard.bgOps
  split
  · exact .nil
  · split
    · exact .onFile (h.name .compact) _
    · exact .cons (FOp.ok_rename (h.name .compact) (h.name .shard)) .nil

theorem Shard.Bdd.finishOps {s : Shard} (h : s.Bdd) (cfg : Cfg) : OpsOk (s.finishOps cfg) := by
  unfold Shard.finishOps
  split
  · exact .nil
  · exact .append (.onFile (h.name .compact) _) (.cons (FOp.ok_rename (h.name .compact) (h.name .shard)) .nil)

theorem Shard.Bdd.splitOps {s : Shard} (h : s.Bdd) (cfg : Cfg) : OpsOk (s.splitOps cfg) := by
  unfold Shard.splitOps
  refine .append (h.finishOps cfg) ?_
  cases hf : s.finish cfg with
  | none => exact .nil
  | some u =>
    obtain ⟨e1, e2⟩ := Shard.finish_span hf
    obtain ⟨h1, h2⟩ := h
    rw [← e1] at h1
    rw [← e2] at h2
    have hm : midOf u.lo u.hi < 2 ^ 32 := by unfold midOf; omega
    have hb : ∀ k, FName.Ok ⟨k, u.lo, midOf u.lo u.hi⟩ := fun k => ⟨h1, hm⟩
    have ht : ∀ k, FName.Ok ⟨k, midOf u.lo u.hi, u.hi⟩ := fun k => ⟨hm, h2⟩
    have hu : u.srcName.Ok := ⟨h1, h2⟩
    dsimp only
    exact ((((OpsOk.create (hb _)).append (.create (ht _))).append (.onFile (hb _) _)).append (.onFile (ht _) _)).append
      (.cons (FOp.ok_rename (hb _) (hb _)) (.cons (FOp.ok_rename (ht _) (ht _)) (.cons (FOp.ok_of hu rfl) .nil)))

/-- A tree whose shards have bounds that fit. -/
def Tree.Bdd (t : Tree) : Prop := ∀ s ∈ t.leaves, s.Bdd

theorem Tree.Bdd.bottom {b t : Tree} (h : (Tree.vertex b t).Bdd) : b.Bdd := fun s hs => h s (List.mem_append_left _ hs)
theorem Tree.Bdd.top {b t : Tree} (h : (Tree.vertex b t).Bdd) : t.Bdd := fun s hs => h s (List.mem_append_right _ hs)
theorem Tree.Bdd.leaf {s : Shard} (h : (Tree.leaf s).Bdd) : s.Bdd := h s (by simp [Tree.leaves])
theorem Tree.Bdd.of_leaf {s : Shard} (h : s.Bdd) : (Tree.leaf s).Bdd := by
  intro x hx; simp only [Tree.leaves, List.mem_singleton] at hx; subst hx; exact h
theorem Tree.Bdd.vertex {b t : Tree} (h : b.Bdd) (h' : t.Bdd) : (Tree.vertex b t).Bdd := by
  intro x hx
  rcases List.mem_append.1 hx with hx | hx
  · exact h x hx
  · exact h' x hx

theorem Shard.Bdd.split {s a b : Shard} (h : s.Bdd) {cfg : Cfg} (e : s.split cfg = some (a, b)) : a.Bdd ∧ b.Bdd := by
  unfold Shard.split at e
  cases hf : s.finish cfg with
  | none => rw [hf] at e; cases e
  | some u =>
    obtain ⟨e1, e2⟩ := Shard.finish_span hf
    obtain ⟨h1, h2⟩ := h
    rw [← e1] at h1
    rw [← e2] at h2
    have hm : midOf u.lo u.hi < 2 ^ 32 := by unfold midOf; omega
    rw [hf] at e
    dsimp only at e
    split at e
    · simp only [Option.some.injEq, Prod.mk.injEq] at e
      obtain ⟨rfl, rfl⟩ := e
      exact ⟨⟨h1, hm⟩, ⟨hm, h2⟩⟩
    · cases e

theorem Tree.Bdd.insertOps (cfg : Cfg) (ph : PH) (k v : Bytes) (mode : Mode) : ∀ (n : Nat) (t : Tree), t.Bdd → OpsOk (Tree.insertOps cfg ph k v mode n t)
  | 0, t, _ => by unfold Tree.insertOps; exact .nil
  | n + 1, .leaf s, h => by
    rw [Tree.insertOps]
    refine .append (h.leaf.insertOps cfg ph k v mode) ?_
    have hs : (s.insert cfg ph k v mode).1.Bdd := by
      have := Shard.insert_span cfg s ph k v mode
      unfold Shard.Bdd
      rw [this.1, this.2]
      exact h.leaf
    generalize s.insert cfg ph k v mode = x at hs
    obtain ⟨s', st⟩ := x
    cases st with
    | splitNeeded =>
      dsimp only at hs ⊢
      refine .append (hs.splitOps cfg) ?_
      cases e : s'.split cfg with
      | none => exact .nil
      | some p =>
        obtain ⟨a, b⟩ := p
        obtain ⟨ha, hb⟩ := hs.split e
        exact Tree.Bdd.insertOps cfg ph k v mode n _ (.vertex (.of_leaf ha) (.of_leaf hb))
    | _ => exact .nil
  | n + 1, .vertex b t, h => by
    rw [Tree.insertOps]
    split
    · exact Tree.Bdd.insertOps cfg ph k v mode n b h.bottom
    · exact Tree.Bdd.insertOps cfg ph k v mode n t h.top

theorem Tree.Bdd.find : ∀ {t : Tree}, t.Bdd → ∀ sel, (t.find sel).Bdd
  | .leaf _, h, _ => h.leaf
  | .vertex b t, h, sel => by
    rw [Tree.find]
    split
    · exact h.bottom.find sel
    · exact h.top.find sel

theorem Tree.Bdd.removeOps {t : Tree} (h : t.Bdd) (cfg : Cfg) (k : Bytes) : OpsOk (t.removeOps cfg k) := (h.find _).removeOps _ k
theorem Tree.Bdd.bgOps {t : Tree} (h : t.Bdd) (cfg : Cfg) (sel : Nat) : OpsOk (t.bgOps cfg sel) := (h.find _).bgOps cfg
theorem Tree.Bdd.finishOps {t : Tree} (h : t.Bdd) (cfg : Cfg) : OpsOk (t.finishOps cfg) := .flatMap (fun s hs => (h s hs).finishOps cfg)

theorem mergeLeavesOps_ok {cfg : Cfg} {maxFill : Nat} {b t : Shard} (hb : b.Bdd) (ht : t.Bdd) : OpsOk (mergeLeavesOps cfg maxFill b t) := by
  have hn : ∀ k, FName.Ok ⟨k, b.lo, t.hi⟩ := fun k => ⟨hb.1, ht.2⟩
  unfold mergeLeavesOps
  split
  · exact .nil
  split
  · exact .nil
  dsimp only
  cases b.merge cfg t with
  | panic => exact .create (hn _)
  | rowTooFull => exact ((OpsOk.create (hn _)).append (.onFile (hn _) _)).append (.cons (FOp.ok_of (hn _) rfl) .nil)
  | merged m =>
    exact OpsOk.append ((OpsOk.create (hn _)).append (.onFile (hn _) _))
      (.cons (FOp.ok_rename (hn _) (hn _)) (.cons (FOp.ok_of (hb.name .shard) rfl) (.cons (FOp.ok_of (ht.name .shard) rfl) .nil)))

theorem mergeLeaves_bdd {cfg : Cfg} {maxFill n : Nat} {b t : Shard} (hb : b.Bdd) (ht : t.Bdd) {r : MergeOut} (e : mergeLeaves cfg maxFill b t n = .ok r) :
    ∀ m, r.merged = some m → m.Bdd := by
  intro m hm
  unfold mergeLeaves at e
  split at e
  · cases e; cases hm
  split at e
  · cases e; cases hm
  cases h1 : b.merge cfg t with
  | panic => rw [h1] at e; cases e
  | rowTooFull => rw [h1] at e; cases e; cases hm
  | merged u =>
    rw [h1] at e
    cases e
    simp only [Option.some.injEq] at hm
    subst hm
    unfold Shard.merge at h1
    split at h1
    · split at h1
      · cases h1
      · cases h1
        exact ⟨hb.1, ht.2⟩
    · cases h1

theorem isLeaf_bdd {t : Tree} (h : t.Bdd) {s : Shard} (e : t.isLeaf = some s) : s.Bdd := by
  cases t with
  | leaf x => simp only [Tree.isLeaf, Option.some.injEq] at e; subst e; exact h.leaf
  | vertex _ _ => cases e

theorem Tree.Bdd.mergeRec (cfg : Cfg) (maxFill : Nat) : ∀ (t : Tree) (n : Nat) (r : MergeOut), t.Bdd → t.mergeRec cfg maxFill n = .ok r → ∀ m, r.merged = some m → m.Bdd
  | .leaf s, n, r, _, e => by rw [Tree.mergeRec] at e; cases e; intro m hm; cases hm
  | .vertex b t, 0, r, _, e => by rw [Tree.mergeRec] at e; cases e; intro m hm; cases hm
  | .vertex b t, n + 1, r, h, e => by
    rw [Tree.mergeRec] at e
    cases hb : b.isLeaf with
    | some sb =>
      cases ht : t.isLeaf with
      | some st =>
        rw [hb, ht] at e
        exact mergeLeaves_bdd (isLeaf_bdd h.bottom hb) (isLeaf_bdd h.top ht) e
      | none =>
        rw [hb, ht] at e
        dsimp only at e
        cases e1 : t.mergeRec cfg maxFill (n + 1) with
        | ok q =>
          rw [e1] at e
          simp only [Out.bind] at e
          split at e <;> first | (cases e; intro m hm; cases hm) | cases e
        | _ => rw [e1] at e; cases e
    | none =>
      cases ht : t.isLeaf with
      | some st =>
        rw [hb, ht] at e
        dsimp only at e
        cases e1 : b.mergeRec cfg maxFill (n + 1) with
        | ok q =>
          rw [e1] at e
          simp only [Out.bind] at e
          split at e <;> first | (cases e; intro m hm; cases hm) | cases e
        | _ => rw [e1] at e; cases e
      | none =>
        rw [hb, ht] at e
        dsimp only at e
        cases e1 : b.mergeRec cfg maxFill (n + 1) with
        | ok q =>
          rw [e1] at e
          simp only [Out.bind] at e
          cases e2 : t.mergeRec cfg maxFill q.remaining with
          | ok q2 =>
            rw [e2] at e
            simp only at e
            split at e
            · cases e; intro m hm; cases hm
            · cases e; intro m hm; cases hm
            · rename_i m1 m2 _ h1 h2 _
              exact mergeLeaves_bdd (Tree.Bdd.mergeRec cfg maxFill b _ q h.bottom e1 _ h1) (Tree.Bdd.mergeRec cfg maxFill t _ q2 h.top e2 _ h2) e
            · cases e
          | _ => rw [e2] at e; cases e
        | _ => rw [e1] at e; cases e

theorem Tree.Bdd.mergeRecOps (cfg : Cfg) (maxFill : Nat) : ∀ (t : Tree) (n : Nat), t.Bdd → OpsOk (t.mergeRecOps cfg maxFill n)
  | .leaf s, n, _ => by rw [Tree.mergeRecOps]; exact .nil
  | .vertex b t, 0, _ => by rw [Tree.mergeRecOps]; exact .nil
  | .vertex b t, n + 1, h => by
    rw [Tree.mergeRecOps]
    cases hb : b.isLeaf with
    | some sb =>
      cases ht : t.isLeaf with
      | some st => exact mergeLeavesOps_ok (isLeaf_bdd h.bottom hb) (isLeaf_bdd h.top ht)
      | none => exact Tree.Bdd.mergeRecOps cfg maxFill t (n + 1) h.top
    | none =>
      cases ht : t.isLeaf with
      | some st => exact Tree.Bdd.mergeRecOps cfg maxFill b (n + 1) h.bottom
      | none =>
        dsimp only
        refine .append (Tree.Bdd.mergeRecOps cfg maxFill b (n + 1) h.bottom) ?_
        cases e1 : b.mergeRec cfg maxFill (n + 1) with
        | ok q =>
          dsimp only
          refine .append (Tree.Bdd.mergeRecOps cfg maxFill t q.remaining h.top) ?_
          cases e2 : t.mergeRec cfg maxFill q.remaining with
          | ok q2 =>
            dsimp only
            split
            · rename_i m1 m2 _ h1 h2 _
              exact mergeLeavesOps_ok (Tree.Bdd.mergeRec cfg maxFill b _ q h.bottom e1 _ h1) (Tree.Bdd.mergeRec cfg maxFill t _ q2 h.top e2 _ h2)
            · exact .nil
          | _ => exact .nil
        | _ => exact .nil

theorem Tree.Bdd.finishAll {cfg : Cfg} : ∀ {t u : Tree}, t.Bdd → t.finishAll cfg = some u → u.Bdd
  | .leaf s, u, h, e => by
    simp only [Tree.finishAll] at e
    cases hf : s.finish cfg with
    | none => rw [hf] at e; cases e
    | some x =>
      rw [hf] at e
      cases e
      obtain ⟨e1, e2⟩ := Shard.finish_span hf
      refine .of_leaf ?_
      unfold Shard.Bdd
      rw [e1, e2]
      exact h.leaf
  | .vertex b t, u, h, e => by
    simp only [Tree.finishAll] at e
    cases h1 : b.finishAll cfg with
    | none => rw [h1] at e; cases e
    | some b' =>
      cases h2 : t.finishAll cfg with
      | none => rw [h1, h2] at e; cases e
      | some t' =>
        rw [h1, h2] at e
        cases e
        exact .vertex (h.bottom.finishAll h1) (h.top.finishAll h2)

theorem Tree.Bdd.mergeSmallOps {t : Tree} (h : t.Bdd) (cfg : Cfg) (maxFill : Nat) : OpsOk (t.mergeSmallOps cfg maxFill) := by
  unfold Tree.mergeSmallOps
  refine .append (h.finishOps cfg) ?_
  cases hf : t.finishAll cfg with
  | none => exact .nil
  | some u =>
    dsimp only
    split
    · exact .nil
    · split
      · exact .nil
      · exact Tree.Bdd.mergeRecOps cfg maxFill u _ (h.finishAll hf)

theorem Chain.bounds {lo hi : Nat} {l : List Shard} (h : Chain lo hi l) : ∀ s ∈ l, s.lo ≤ hi ∧ s.hi ≤ hi := by
  induction h with
  | nil => intro s hs; cases hs
  | cons e hle hc ih =>
    intro s hs
    rcases List.mem_cons.1 hs with hs | hs
    · subst hs
      have := hc.le
      omega
    · exact ih s hs

theorem Tree.OK.bdd {cfg : Cfg} {ex : Bool} {t : Tree} (h : Tree.OK cfg ex 0 END_OF_SHARDS t) : t.Bdd := by
  intro s hs
  have := h.chain.bounds s hs
  have e : END_OF_SHARDS = 65536 := rfl
  unfold Shard.Bdd
  omega

/-! ## Opening -/

theorem spanOk {p : Span} (h : p.1 < p.2 ∧ p.2 ≤ END_OF_SHARDS) (k : Kind) : FName.Ok ⟨k, p.1, p.2⟩ := by
  have e : END_OF_SHARDS = 65536 := rfl
  refine ⟨?_, ?_⟩ <;> dsimp only <;> omega

/-- The scan of the names finds what the scan of the store's files finds. -/
theorem Among.scan {d : Dir} {r : RawDir} (h : Among d r) : ∃ ns : List FName, (scanDir d).1 = ns.map .unlink ∧ (scanNames r.names).1 = ns.map FName.print ∧
    (∀ n ∈ ns, n.Ok) ∧ (scanNames r.names).2 = (match (scanDir d).2 with | some sp => .ok sp | none => .err) := by
  induction h with
  | nil => exact ⟨[], rfl, rfl, by simp, rfl⟩
  | own n x hn h ih =>
    obtain ⟨ns, h1, h2, h3, h4⟩ := ih
    have hc := classify_print n hn
    rename_i d r
    have en : RawDir.names (.file n.print x :: r) = n.print :: RawDir.names r := rfl
    rw [en, scanNames, scanDir, hc]
    cases hk : n.kind with
    | shard =>
      dsimp only
      by_cases hb : n.lo < n.hi ∧ n.hi ≤ END_OF_SHARDS
      · rw [if_pos hb, if_pos hb]
        dsimp only
        refine ⟨ns, h1, h2, h3, ?_⟩
        rw [h4]
        cases (scanDir d).2 <;> rfl
      · rw [if_neg hb, if_neg hb]
        exact ⟨[], rfl, rfl, by simp, rfl⟩
    | compact => exact ⟨ns, h1, h2, h3, h4⟩
    | bottom => exact ⟨n :: ns, by simp only [h1, List.map_cons], by simp only [h2, List.map_cons], by simp only [List.mem_cons, forall_eq_or_imp]; exact ⟨hn, h3⟩, h4⟩
    | top => exact ⟨n :: ns, by simp only [h1, List.map_cons], by simp only [h2, List.map_cons], by simp only [List.mem_cons, forall_eq_or_imp]; exact ⟨hn, h3⟩, h4⟩
    | merge => exact ⟨n :: ns, by simp only [h1, List.map_cons], by simp only [h2, List.map_cons], by simp only [List.mem_cons, forall_eq_or_imp]; exact ⟨hn, h3⟩, h4⟩
  | foreign e he h ih =>
    rename_i d r
    cases e with
    | other i => exact ih
    | file m x =>
      have en : RawDir.names (.file m x :: r) = m :: RawDir.names r := rfl
      have hi : classify m = .ignore := by
        have e1 : Kind.shard.prefix = "shard_".toList := by decide
        have e3 : Kind.bottom.prefix = "bottom_".toList := by decide
        have e4 : Kind.top.prefix = "top_".toList := by decide
        have e5 : Kind.merge.prefix = "merge_".toList := by decide
        have hf : foreignName m = true := he
        unfold foreignName at hf
        rw [← e1, ← e3, ← e4, ← e5] at hf
        simp only [Bool.not_eq_true', Bool.or_eq_false_iff] at hf
        obtain ⟨⟨⟨⟨f1, _⟩, f3⟩, f4⟩, f5⟩ := hf
        rw [classify, f1, f3, f4, f5]
        rfl
      rw [en, scanNames, hi]
      exact ih

theorem scanDir_found : ∀ (d : Dir) (sp : List Span), (scanDir d).2 = some sp → (∀ p ∈ sp, (p.1 < p.2 ∧ p.2 ≤ END_OF_SHARDS) ∧ (⟨.shard, p.1, p.2⟩ : FName) ∈ d.map Prod.fst) ∧
    ((d.map Prod.fst).Nodup → sp.Nodup)
  | [], sp, h => by cases h; exact ⟨by simp, fun _ => List.nodup_nil⟩
  | (n, x) :: d, sp, h => by
    have ih := scanDir_found d
    have rec_ : (scanDir d).2 = some sp → (∀ p ∈ sp, (p.1 < p.2 ∧ p.2 ≤ END_OF_SHARDS) ∧ (⟨.shard, p.1, p.2⟩ : FName) ∈ ((n, x) :: d).map Prod.fst) ∧
        ((((n, x) :: d).map Prod.fst).Nodup → sp.Nodup) := by
      intro h
      obtain ⟨h1, h2⟩ := ih sp h
      exact ⟨fun p hp => ⟨(h1 p hp).1, List.mem_cons_of_mem _ (h1 p hp).2⟩, fun hn => h2 (List.nodup_cons.1 hn).2⟩
    rw [scanDir] at h
    cases hk : n.kind with
    | shard =>
      rw [hk] at h
      dsimp only at h
      split at h
      · rename_i hb
        cases hs : (scanDir d).2 with
        | none => rw [hs] at h; cases h
        | some sp' =>
          rw [hs] at h
          simp only [Option.map_some, Option.some.injEq] at h
          subst h
          obtain ⟨h1, h2⟩ := ih sp' hs
          have en : n = ⟨.shard, n.lo, n.hi⟩ := by rw [← hk]
          refine ⟨fun p hp => ?_, fun hn => ?_⟩
          · rcases List.mem_cons.1 hp with hp | hp
            · subst hp
              exact ⟨hb, by rw [List.map_cons, ← en]; exact List.mem_cons_self ..⟩
            · exact ⟨(h1 p hp).1, List.mem_cons_of_mem _ (h1 p hp).2⟩
          · rw [List.map_cons, List.nodup_cons] at hn
            refine List.nodup_cons.2 ⟨fun hm => ?_, h2 hn.2⟩
            have := (h1 _ hm).2
            dsimp only at this
            rw [← en] at this
            exact hn.1 this
      · cases h
    | compact => rw [hk] at h; exact rec_ h
    | bottom => rw [hk] at h; exact rec_ h
    | top => rw [hk] at h; exact rec_ h
    | merge => rw [hk] at h; exact rec_ h

theorem openAll_same (cfg : Cfg) (cb : Bool) (d d' : Dir) : ∀ ps : List Span,
    (∀ p ∈ ps, d'.find ⟨.shard, p.1, p.2⟩ = d.find ⟨.shard, p.1, p.2⟩ ∧ d'.find ⟨.compact, p.1, p.2⟩ = d.find ⟨.compact, p.1, p.2⟩) →
    openAll cfg cb d' ps = openAll cfg cb d ps
  | [], _ => rfl
  | p :: ps, h => by
    have ih := openAll_same cfg cb d d' ps (fun q hq => h q (List.mem_cons_of_mem _ hq))
    obtain ⟨h1, h2⟩ := h p (List.mem_cons_self ..)
    have e : openShard cfg cb d' p = openShard cfg cb d p := by
      unfold openShard
      dsimp only
      rw [h1, h2]
    rw [openAll, openAll, e, ih]

theorem openShard_ok (cfg : Cfg) (cb : Bool) (d : Dir) {p : Span} (h : ∀ k, FName.Ok ⟨k, p.1, p.2⟩) : OpsOk (openShard cfg cb d p).1 := by
  have ho : ∀ x, OpsOk (openSrc cb ⟨.shard, p.1, p.2⟩ x).1 := by
    intro x
    unfold openSrc
    split
    · exact .create (h _)
    · exact .cons (FOp.ok_of (h .shard) rfl) (.cons (FOp.ok_of (h .shard) rfl) .nil)
    · split
      · exact .create (h _)
      · exact .nil
    · exact .cons (FOp.ok_of (h .shard) rfl) .nil
  unfold openShard
  dsimp only
  split
  · exact ho _
  · split
    · exact ho _
    · split
      · exact .append (ho _) (.cons (FOp.ok_of (h .compact) rfl) .nil)
      · exact .append (ho _) (.append (.append (.cons (FOp.ok_of (h .compact) rfl) .nil) (.onFile (h _) _)) (.cons (FOp.ok_rename (h _) (h _)) .nil))

theorem openAll_ok (cfg : Cfg) (cb : Bool) (d : Dir) : ∀ ps : List Span, (∀ p ∈ ps, ∀ k, FName.Ok ⟨k, p.1, p.2⟩) → OpsOk (openAll cfg cb d ps).1
  | [], _ => .nil
  | p :: ps, h => by
    have ih := openAll_ok cfg cb d ps (fun q hq => h q (List.mem_cons_of_mem _ hq))
    have h1 := openShard_ok cfg cb d (h p (List.mem_cons_self ..))
    rw [openAll]
    dsimp only
    split
    · exact h1
    · exact h1
    · exact .append h1 ih

theorem calcStep_le {n st : Nat} (h : calcStep n = some st) : st ≤ 65536 := by
  have key : ∀ x : Nat, x ≤ 65536 → (if x = 0 then none else some (2 ^ Nat.log2 x)) = some st → st ≤ 65536 := by
    intro x hx h
    split at h
    · cases h
    · rename_i hz
      simp only [Option.some.injEq] at h
      subst h
      exact Nat.le_trans (Nat.log2_self_le hz) hx
  unfold calcStep at h
  refine key _ ?_ h
  have e : END_OF_SHARDS = 65536 := rfl
  rw [e]
  split
  · exact Nat.le_refl _
  · rename_i hn
    have : (65536 * EXPECTED_CAPACITY) / n ≤ (65536 * n) / n := Nat.div_le_div_right (Nat.mul_le_mul_left _ (by omega))
    rwa [Nat.mul_div_cancel _ (by omega)] at this

theorem initialSpans_ok {st : Nat} (h : st ≤ 65536) : ∀ (n start : Nat), ∀ p ∈ initialSpans st n start, p.1 < 2 ^ 32 ∧ p.2 < 2 ^ 32
  | 0, _, p, hp => by cases hp
  | n + 1, start, p, hp => by
    rw [initialSpans] at hp
    split at hp
    · rename_i hs
      have e : END_OF_SHARDS = 65536 := rfl
      rcases List.mem_cons.1 hp with hp | hp
      · subst hp; dsimp only; omega
      · exact initialSpans_ok h n _ p hp
    · cases hp

theorem createInitial_ok {cfg : Cfg} {l : List Shard} (h : createInitialShards cfg = some l) : OpsOk (l.flatMap createShardOps) := by
  unfold createInitialShards at h
  cases hc : calcStep cfg.expectedKeys with
  | none => rw [hc] at h; cases h
  | some st =>
    rw [hc] at h
    cases h
    refine .flatMap (fun s hs => ?_)
    obtain ⟨p, hp, rfl⟩ := List.mem_map.1 hs
    have := initialSpans_ok (calcStep_le hc) _ _ p hp
    exact .append (.create this) (.cons (FOp.ok_of (n := ⟨.compact, p.1, p.2⟩) this rfl) .nil)

theorem find_foldl_del (u : List Char) : ∀ (l : List Span) (r : RawDir), (∀ p ∈ l, FName.print ⟨.shard, p.1, p.2⟩ ≠ u) →
    RawDir.find (l.foldl (fun r p => r.del (FName.print ⟨.shard, p.1, p.2⟩)) r) u = r.find u
  | [], _, _ => rfl
  | p :: l, r, h => by
    rw [List.foldl_cons, find_foldl_del u l _ (fun q hq => h q (List.mem_cons_of_mem _ hq)), RawDir.find_del,
      if_neg (fun e => h p (List.mem_cons_self ..) e.symm)]

theorem Dir.find_appendL (a b : Dir) (n : FName) : Dir.find (a ++ b) n = (Dir.find a n).or (Dir.find b n) := by
  induction a with
  | nil => rfl
  | cons e a ih =>
    obtain ⟨m, x⟩ := e
    rw [List.cons_append, Dir.find, Dir.find, ih]
    split <;> rfl

/-- The files looked up are those found. -/
theorem RawDir.find_view (r : RawDir) (k : Kind) (hk : k = .shard ∨ k = .compact) : ∀ (ps : List Span) (p : Span), p ∈ ps →
    Dir.find (r.view ps) ⟨k, p.1, p.2⟩ = r.find (FName.print ⟨k, p.1, p.2⟩) := by
  have one : ∀ (q : Span) (n : FName), Dir.find ([(⟨.shard, q.1, q.2⟩ : FName), ⟨.compact, q.1, q.2⟩].filterMap (fun n => (r.find n.print).map (fun x => (n, x)))) n =
      if n = ⟨.shard, q.1, q.2⟩ ∨ n = ⟨.compact, q.1, q.2⟩ then r.find n.print else none := by
    intro q n
    simp only [List.filterMap_cons, List.filterMap_nil]
    by_cases h1 : n = ⟨.shard, q.1, q.2⟩
    · subst h1
      rw [if_pos (.inl rfl)]
      cases h1 : r.find (FName.print ⟨.shard, q.1, q.2⟩) <;> cases h2 : r.find (FName.print ⟨.compact, q.1, q.2⟩) <;> simp [Dir.find]
    · by_cases h2 : n = ⟨.compact, q.1, q.2⟩
      · subst h2
        rw [if_pos (.inr rfl)]
        cases h1 : r.find (FName.print ⟨.shard, q.1, q.2⟩) <;> cases h2 : r.find (FName.print ⟨.compact, q.1, q.2⟩) <;> simp [Dir.find]
      · rw [if_neg (by rintro (h | h); exact h1 h; exact h2 h)]
        cases h3 : r.find (FName.print ⟨.shard, q.1, q.2⟩) <;> cases h4 : r.find (FName.print ⟨.compact, q.1, q.2⟩) <;>
          simp [Dir.find, Ne.symm h1, Ne.symm h2]
  have all : ∀ (ps : List Span) (n : FName), Dir.find (r.view ps) n =
      if ∃ q ∈ ps, n = ⟨.shard, q.1, q.2⟩ ∨ n = ⟨.compact, q.1, q.2⟩ then r.find n.print else none := by
    intro ps n
    induction ps with
    | nil => simp [RawDir.view, Dir.find]
    | cons q ps ih =>
      have e : r.view (q :: ps) = [(⟨.shard, q.1, q.2⟩ : FName), ⟨.compact, q.1, q.2⟩].filterMap (fun n => (r.find n.print).map (fun x => (n, x))) ++ r.view ps := rfl
      rw [e, Dir.find_appendL, one, ih]
      by_cases h1 : n = ⟨.shard, q.1, q.2⟩ ∨ n = ⟨.compact, q.1, q.2⟩
      · have hc : ∃ q' ∈ q :: ps, n = ⟨.shard, q'.1, q'.2⟩ ∨ n = ⟨.compact, q'.1, q'.2⟩ := ⟨q, List.mem_cons_self .., h1⟩
        rw [if_pos h1, if_pos hc]
        split
        · cases r.find n.print <;> rfl
        · cases r.find n.print <;> rfl
      · rw [if_neg h1]
        by_cases h2 : ∃ q ∈ ps, n = ⟨.shard, q.1, q.2⟩ ∨ n = ⟨.compact, q.1, q.2⟩
        · obtain ⟨q', hq, h⟩ := h2
          have ha : ∃ q ∈ ps, n = ⟨.shard, q.1, q.2⟩ ∨ n = ⟨.compact, q.1, q.2⟩ := ⟨q', hq, h⟩
          have hc : ∃ q' ∈ q :: ps, n = ⟨.shard, q'.1, q'.2⟩ ∨ n = ⟨.compact, q'.1, q'.2⟩ := ⟨q', List.mem_cons_of_mem _ hq, h⟩
          rw [if_pos ha, if_pos hc]
          rfl
        · rw [if_neg h2, if_neg]
          · rfl
          · rintro ⟨q', hq, h⟩
            rcases List.mem_cons.1 hq with hq | hq
            · subst hq; exact h1 h
            · exact h2 ⟨q', hq, h⟩
  intro ps p hp
  rw [all, if_pos]
  refine ⟨p, hp, ?_⟩
  rcases hk with e | e <;> subst e
  · exact .inl rfl
  · exact .inr rfl

/-- Opening. -/
theorem Among.openStore {d d' : Dir} {r : RawDir} (h : Among d r) (hd : (d.map Prod.fst).Nodup) (cfg : Cfg) (cb : Bool)
    (hr : d.run (openStore cfg cb d).1 = some d') :
    (r.openStore cfg cb).2 = (Candy.openStore cfg cb d).2 ∧ ∃ r', r.run (r.openStore cfg cb).1 = some r' ∧ Among d' r' ∧ r'.others = r.others := by
  obtain ⟨ns, h1, h2, h3, h4⟩ := h.scan
  have hns : OpsOk (ns.map FOp.unlink) := by
    intro o ho
    obtain ⟨n, hn, rfl⟩ := List.mem_map.1 ho
    exact FOp.ok_of (h3 n hn) rfl
  have fin : ∀ (X : List FOp) (R : LRes Tree), OpsOk X → (Candy.openStore cfg cb d) = (ns.map FOp.unlink ++ X, R) →
      r.openStore cfg cb = ((ns.map FName.print).map .rm ++ X.map .op, R) →
      (r.openStore cfg cb).2 = (Candy.openStore cfg cb d).2 ∧ ∃ r', r.run (r.openStore cfg cb).1 = some r' ∧ Among d' r' ∧ r'.others = r.others := by
    intro X R hX e1 e2
    rw [e1] at hr
    rw [e1, e2]
    refine ⟨rfl, ?_⟩
    dsimp only at hr ⊢
    obtain ⟨r', g1, g2, g3⟩ := Among.run _ h (hns.append hX) hr
    refine ⟨r', ?_, g2, g3⟩
    rw [RawDir.run_append, run_rm, ← RawDir.run_append, ← List.map_append]
    exact g1
  cases hs : (scanDir d).2 with
  | none =>
    rw [hs] at h4
    refine fin [] .err .nil ?_ ?_
    · unfold Candy.openStore load
      dsimp only
      rw [hs, h1, List.append_nil]
    · unfold RawDir.openStore
      dsimp only
      rw [h4, h2, List.map_nil, List.append_nil]
  | some found =>
    rw [hs] at h4
    dsimp only at h4
    obtain ⟨f1, f2⟩ := scanDir_found d found hs
    obtain ⟨c1, _⟩ := consolidate_perm found
    have hnd := c1.nodup_iff.2 (f2 hd)
    have hmem : ∀ p, p ∈ (consolidate found).1 ∨ p ∈ (consolidate found).2 → p ∈ found := fun p hp => c1.mem_iff.1 (List.mem_append.2 hp)
    have hok : ∀ p ∈ found, ∀ k, FName.Ok ⟨k, p.1, p.2⟩ := fun p hp k => spanOk (f1 p hp).1 k
    have hq : openAll cfg cb (RawDir.view ((consolidate found).2.foldl (fun r p => r.del (FName.print ⟨.shard, p.1, p.2⟩)) r) (consolidate found).1) (consolidate found).1 =
        openAll cfg cb d (consolidate found).1 := by
      refine openAll_same cfg cb _ _ _ (fun p hp => ?_)
      have hp' := hok p (hmem p (.inl hp))
      rw [RawDir.find_view _ .shard (.inl rfl) _ p hp, RawDir.find_view _ .compact (.inr rfl) _ p hp, find_foldl_del, find_foldl_del, h.find (hp' _), h.find (hp' _)]
      · exact ⟨rfl, rfl⟩
      · intro q hq e
        have := print_inj _ _ (hok q (hmem q (.inr hq)) _) (hp' _) e
        simp at this
      · intro q hq e
        have e := print_inj _ _ (hok q (hmem q (.inr hq)) _) (hp' _) e
        simp only [FName.mk.injEq, true_and] at e
        have : q = p := Prod.ext e.1 e.2
        subst this
        exact (List.nodup_append.1 hnd).2.2 _ hp _ hq rfl
    have hX : OpsOk ((consolidate found).2.map (fun p => FOp.unlink ⟨.shard, p.1, p.2⟩) ++ (openAll cfg cb d (consolidate found).1).1) := by
      refine .append ?_ (openAll_ok cfg cb d _ (fun p hp => hok p (hmem p (.inl hp))))
      intro o ho
      obtain ⟨p, hp, rfl⟩ := List.mem_map.1 ho
      exact FOp.ok_of (hok p (hmem p (.inr hp)) .shard) rfl
    have eL : load cfg cb d = (ns.map FOp.unlink ++ ((consolidate found).2.map (fun p => FOp.unlink ⟨.shard, p.1, p.2⟩) ++ (openAll cfg cb d (consolidate found).1).1),
        (openAll cfg cb d (consolidate found).1).2) := by
      unfold load
      dsimp only
      rw [hs, h1]
      dsimp only
      rw [List.append_assoc]
    obtain ⟨R, eR⟩ : ∃ R, r.openStore cfg cb = R := ⟨_, rfl⟩
    obtain ⟨O, eO⟩ : ∃ O, Candy.openStore cfg cb d = O := ⟨_, rfl⟩
    have eR' := eR
    have eO' := eO
    unfold RawDir.openStore at eR'
    dsimp only at eR'
    rw [h4] at eR'
    dsimp only at eR'
    rw [hq, h2] at eR'
    unfold Candy.openStore at eO'
    rw [eL] at eO'
    replace eR := eR.trans eR'.symm
    replace eO := eO.trans eO'.symm
    clear eR' eO'
    generalize openAll cfg cb d (consolidate found).1 = Q at hX eL eR eO
    obtain ⟨qo, qr⟩ := Q
    dsimp only at hX eR eO
    cases qr with
    | err => exact fin _ _ hX eO eR
    | panic => exact fin _ _ hX eO eR
    | ok l =>
      cases l with
      | cons s l => exact fin _ _ hX eO eR
      | nil =>
        cases hc : createInitialShards cfg with
        | none =>
          rw [hc] at eR eO
          exact fin _ _ hX eO eR
        | some l =>
          rw [hc] at eR eO
          dsimp only at eR eO
          refine fin (_ ++ l.flatMap createShardOps) (match treeify l with | none => .panic | some t => .ok t) (hX.append (createInitial_ok hc)) ?_ ?_
          · rw [eO, List.append_assoc]
            cases treeify l <;> rfl
          · rw [eR]
            simp only [List.map_append, List.append_assoc]
            cases treeify l <;> rfl

/-! ## `clear` -/

theorem Among.clear {d : Dir} {r : RawDir} (h : Among d r) : ∃ ns : List FName, clearScan d = ns.map .unlink ∧ (r.names.filter clearTakes) = ns.map FName.print ∧
    (∀ n ∈ ns, n.Ok) := by
  have hp : ∀ n : FName, clearTakes n.print = decide (n.kind ≠ .merge) := by
    intro n
    rw [clearTakes, prefix_print, prefix_print, prefix_print, prefix_print]
    cases n.kind <;> decide
  induction h with
  | nil => exact ⟨[], rfl, rfl, by simp⟩
  | own n x hn h ih =>
    rename_i d r
    obtain ⟨ns, h1, h2, h3⟩ := ih
    have en : RawDir.names (.file n.print x :: r) = n.print :: RawDir.names r := rfl
    rw [en, List.filter_cons, hp, clearScan]
    by_cases hk : n.kind = .merge
    · rw [hk]
      exact ⟨ns, h1, h2, h3⟩
    · rw [decide_eq_true hk, if_pos rfl]
      refine ⟨n :: ns, ?_, by rw [h2]; rfl, by simp only [List.mem_cons, forall_eq_or_imp]; exact ⟨hn, h3⟩⟩
      cases e : n.kind <;> first | exact absurd e hk | (dsimp only; rw [h1]; rfl)
  | foreign e he h ih =>
    rename_i d r
    cases e with
    | other i => exact ih
    | file m x =>
      have en : RawDir.names (.file m x :: r) = m :: RawDir.names r := rfl
      have hi : clearTakes m = false := by
        have e1 : Kind.shard.prefix = "shard_".toList := by decide
        have e2 : Kind.compact.prefix = "compact_".toList := by decide
        have e3 : Kind.bottom.prefix = "bottom_".toList := by decide
        have e4 : Kind.top.prefix = "top_".toList := by decide
        have hf : foreignName m = true := he
        unfold foreignName at hf
        rw [← e1, ← e2, ← e3, ← e4] at hf
        simp only [Bool.not_eq_true', Bool.or_eq_false_iff] at hf
        obtain ⟨⟨⟨⟨f1, f2⟩, f3⟩, f4⟩, _⟩ := hf
        rw [clearTakes, f1, f2, f3, f4]
        rfl
      rw [en, List.filter_cons, hi]
      exact ih

theorem Among.clearOps {d d' : Dir} {r : RawDir} (h : Among d r) (cfg : Cfg) (hr : d.run (clearOps cfg d) = some d') :
    ∃ r', r.run (r.clearOps cfg) = some r' ∧ Among d' r' ∧ r'.others = r.others := by
  obtain ⟨ns, h1, h2, h3⟩ := h.clear
  unfold Candy.clearOps at hr
  rw [h1] at hr
  have hns : OpsOk (ns.map FOp.unlink) := by
    intro o ho
    obtain ⟨n, hn, rfl⟩ := List.mem_map.1 ho
    exact FOp.ok_of (h3 n hn) rfl
  have hc : OpsOk (((createInitialShards cfg).getD []).flatMap createShardOps) := by
    cases e : createInitialShards cfg with
    | none => exact .nil
    | some l => exact createInitial_ok e
  obtain ⟨r', g1, g2, g3⟩ := Among.run _ h (hns.append hc) hr
  refine ⟨r', ?_, g2, g3⟩
  unfold RawDir.clearOps
  rw [h2, RawDir.run_append, run_rm, ← RawDir.run_append, ← List.map_append]
  exact g1

end Candy
