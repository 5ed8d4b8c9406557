import Verif.Proofs.Errors
import Verif.Proofs.Pairs
import Verif.Proofs.FineCrash
import Verif.Model.BgError
/-!
# Background compactions that fail

What a compaction that failed in the middle of a row has left in the target is never looked at while the store is open: the operations commute with erasing it.
-/
namespace Candy
open Spec

/-! ## Erasing the leftovers -/

def MFile.scrub (f : MFile) : MFile :=
  { f with slot := fun r c => if f.compactedUpTo ≤ r ∧ r < NUM_ROWS ∧ c < ROW_WIDTH then ⟨INVALID_SIG, (f.slot r c).desc⟩ else f.slot r c }

def Shard.scrub (s : Shard) : Shard := { s with tgt := s.tgt.map MFile.scrub }

def Tree.scrub : Tree → Tree
  | .leaf s => .leaf s.scrub
  | .vertex b t => .vertex b.scrub t.scrub

theorem MFile.scrub_row {f : MFile} {r : Nat} (h : r < f.compactedUpTo) : f.scrub.slot r = f.slot r := by
  funext c
  show (if _ then _ else _) = _
  rw [if_neg (by omega)]

theorem MFile.scrub_fix {f : MFile} (h : ∀ r c, f.compactedUpTo ≤ r → r < NUM_ROWS → c < ROW_WIDTH → (f.slot r c).sig = INVALID_SIG) : f.scrub = f := by
  cases f with
  | mk a b c d e g i =>
    unfold MFile.scrub
    dsimp only at h ⊢
    congr 1
    funext r c
    split
    · rename_i hh
      rw [← h r c hh.1 hh.2.1 hh.2.2]
    · rfl

theorem MFile.scrub_empty : MFile.empty.scrub = MFile.empty := MFile.scrub_fix fun _ _ _ _ _ => rfl

/-- A store in row `r` only. -/
def Prim.OnRow (r : Nat) : Prim → Prop
  | .setDesc r' _ _ => r' = r
  | .setSig r' _ _ => r' = r
  | .addCompacted => False
  | _ => True

theorem Prim.scrub {p : Prim} {f : MFile} {r : Nat} (hp : p.OnRow r) (hr : r < f.compactedUpTo) :
    (p.app f).scrub = p.app f.scrub ∧ (p.app f).compactedUpTo = f.compactedUpTo := by
  cases p with
  | bump n => exact ⟨rfl, rfl⟩
  | pwrite off bs => exact ⟨rfl, rfl⟩
  | addWasted n => exact ⟨rfl, rfl⟩
  | addInserts => exact ⟨rfl, rfl⟩
  | addRemovals => exact ⟨rfl, rfl⟩
  | addCompacted => exact hp.elim
  | setDesc r' c d =>
    have hp : r' = r := hp
    subst hp
    refine ⟨?_, rfl⟩
    unfold Prim.app
    dsimp only
    rw [MFile.scrub_row hr]
    unfold MFile.scrub
    dsimp only
    congr 1
    funext r2 c2
    unfold setSlot
    by_cases e : r2 = r' ∧ c2 = c
    · rw [if_pos e, if_pos e, if_neg (by omega)]
    · rw [if_neg e, if_neg e]
  | setSig r' c d =>
    have hp : r' = r := hp
    subst hp
    refine ⟨?_, rfl⟩
    unfold Prim.app
    dsimp only
    rw [MFile.scrub_row hr]
    unfold MFile.scrub
    dsimp only
    congr 1
    funext r2 c2
    unfold setSlot
    by_cases e : r2 = r' ∧ c2 = c
    · rw [if_pos e, if_pos e, if_neg (by omega)]
    · rw [if_neg e, if_neg e]

theorem MFile.run_scrub {ps : List Prim} {r : Nat} : ∀ {f : MFile}, (∀ p ∈ ps, p.OnRow r) → r < f.compactedUpTo →
    (f.run ps).scrub = f.scrub.run ps := by
  induction ps with
  | nil => exact fun _ _ => rfl
  | cons p ps ih =>
    intro f h hr
    obtain ⟨h1, h2⟩ := Prim.scrub (h p List.mem_cons_self) hr
    show ((p.app f).run ps).scrub = (p.app f.scrub).run ps
    rw [ih (fun q hq => h q (List.mem_cons_of_mem _ hq)) (by rw [h2]; exact hr), h1]

/-! ## Operations on one shard -/

theorem Shard.active_scrub (s : Shard) (r : Nat) :
    (s.scrub.active r).slot r = (s.active r).slot r ∧ (s.scrub.active r).data = (s.active r).data ∧ (s.scrub.active r).writeOff = (s.active r).writeOff ∧
    (s.scrub.active r).wasted = (s.active r).wasted := by
  unfold Shard.active Shard.scrub
  cases s.tgt with
  | none => exact ⟨rfl, rfl, rfl, rfl⟩
  | some t =>
    show (if r < t.compactedUpTo then t.scrub else s.src).slot r = (if r < t.compactedUpTo then t else s.src).slot r ∧
      (if r < t.compactedUpTo then t.scrub else s.src).data = (if r < t.compactedUpTo then t else s.src).data ∧
      (if r < t.compactedUpTo then t.scrub else s.src).writeOff = (if r < t.compactedUpTo then t else s.src).writeOff ∧
      (if r < t.compactedUpTo then t.scrub else s.src).wasted = (if r < t.compactedUpTo then t else s.src).wasted
    by_cases h : r < t.compactedUpTo
    · rw [if_pos h, if_pos h]; exact ⟨MFile.scrub_row h, rfl, rfl, rfl⟩
    · rw [if_neg h, if_neg h]; exact ⟨rfl, rfl, rfl, rfl⟩

theorem Shard.runActive_scrub (s : Shard) (r : Nat) {ps : List Prim} (h : ∀ p ∈ ps, p.OnRow r) :
    (s.runActive r ps).scrub = s.scrub.runActive r ps := by
  unfold Shard.runActive Shard.scrub
  cases ht : s.tgt with
  | none => rfl
  | some t =>
    show Shard.scrub (if r < t.compactedUpTo then _ else _) = (if r < t.compactedUpTo then _ else _)
    by_cases hr : r < t.compactedUpTo
    · rw [if_pos hr, if_pos hr]
      unfold Shard.scrub
      dsimp only
      rw [show (some (t.run ps)).map MFile.scrub = some ((t.run ps).scrub) from rfl, MFile.run_scrub h hr]
    · rw [if_neg hr, if_neg hr]
      unfold Shard.scrub
      dsimp only

section loops
variable {f g : MFile} {r : Nat} (hs : g.slot r = f.slot r) (hd : g.data = f.data) (ho : g.writeOff = f.writeOff)
include hs hd

theorem getLoop_scrub (k : Bytes) : ∀ l, g.getLoop r k l = f.getLoop r k l
  | [] => rfl
  | i :: is => by
    show (if _ then _ else _) = (if _ then _ else _)
    rw [getLoop_scrub k is, hs, show g.readKV ((f.slot r i).desc) = f.readKV ((f.slot r i).desc) from by unfold MFile.readKV; rw [hd]]

theorem removeLoop_scrub (k : Bytes) : ∀ l, g.removeLoop r k l = f.removeLoop r k l
  | [] => rfl
  | i :: is => by
    show (if _ then _ else _) = (if _ then _ else _)
    rw [removeLoop_scrub k is, hs, show g.readKV ((f.slot r i).desc) = f.readKV ((f.slot r i).desc) from by unfold MFile.readKV; rw [hd]]

include ho in
theorem tryReplace_scrub (k v : Bytes) (mode : Mode) : ∀ l, g.tryReplace r k v mode l = f.tryReplace r k v mode l
  | [] => rfl
  | i :: is => by
    unfold MFile.tryReplace
    dsimp only
    rw [tryReplace_scrub k v mode is, hs, show g.readKV ((f.slot r i).desc) = f.readKV ((f.slot r i).desc) from by unfold MFile.readKV; rw [hd]]
    have e : ∀ old, g.replacePrims r i k v old = f.replacePrims r i k v old := by
      intro old; unfold MFile.replacePrims MFile.writePrims MFile.newDesc; rw [ho]
    rw [e]
end loops

theorem Shard.get_scrub (s : Shard) (ph : PH) (k : Bytes) : s.scrub.get ph k = s.get ph k := by
  obtain ⟨h1, h2, _, _⟩ := s.active_scrub ph.rowSel
  unfold Shard.get
  dsimp only
  rw [getLoop_scrub h1 h2, h1]

theorem Shard.getByHash_scrub (s : Shard) (ph : PH) : s.scrub.getByHash ph = s.getByHash ph := by
  obtain ⟨h1, h2, _, _⟩ := s.active_scrub ph.rowSel
  unfold Shard.getByHash
  dsimp only
  rw [h1]
  refine List.map_congr_left fun i _ => ?_
  unfold MFile.readKV; rw [h2]

theorem Shard.removePlan_scrub (s : Shard) (ph : PH) (k : Bytes) : s.scrub.removePlan ph k = s.removePlan ph k := by
  obtain ⟨h1, h2, _, _⟩ := s.active_scrub ph.rowSel
  unfold Shard.removePlan
  dsimp only
  rw [removeLoop_scrub h1 h2, h1]

theorem Shard.insertPlan_scrub (cfg : Cfg) (s : Shard) (ph : PH) (k v : Bytes) (mode : Mode) :
    s.scrub.insertPlan cfg ph k v mode = s.insertPlan cfg ph k v mode := by
  obtain ⟨h1, h2, h3, h4⟩ := s.active_scrub ph.rowSel
  have h5 : s.scrub.tgt.isSome = s.tgt.isSome := by unfold Shard.scrub; cases s.tgt <;> rfl
  unfold Shard.insertPlan
  dsimp only
  rw [tryReplace_scrub h1 h2 h3, h1, h3, h4, h5]
  have e : ∀ i, (s.scrub.active ph.rowSel).putPrims ph.rowSel i k v ph.sig = (s.active ph.rowSel).putPrims ph.rowSel i k v ph.sig := by
    intro i; unfold MFile.putPrims MFile.writePrims MFile.newDesc; rw [h3]
  simp only [e]

theorem removeLoop_onRow (f : MFile) (r : Nat) (k : Bytes) : ∀ l, ∀ p ∈ (f.removeLoop r k l).1, p.OnRow r
  | [] => fun p hp => by cases hp
  | i :: is => by
    intro p hp
    unfold MFile.removeLoop at hp
    dsimp only at hp
    split at hp
    · simp only [removePrims, List.mem_cons, List.not_mem_nil, or_false] at hp
      rcases hp with rfl | rfl | rfl <;> first | rfl | trivial
    · exact removeLoop_onRow f r k is p hp

theorem tryReplace_onRow (f : MFile) (r : Nat) (k v : Bytes) (mode : Mode) : ∀ l, ∀ p ∈ (f.tryReplace r k v mode l).1, p.OnRow r
  | [] => fun p hp => by cases hp
  | i :: is => by
    have key : ∀ old, ∀ p ∈ (if v ≠ old then f.replacePrims r i k v old else []), p.OnRow r := by
      intro old p hp
      split at hp
      · simp only [MFile.replacePrims, MFile.writePrims, List.cons_append, List.nil_append, List.mem_cons, List.not_mem_nil, or_false] at hp
        rcases hp with rfl | rfl | rfl | rfl <;> first | rfl | trivial
      · cases hp
    intro p hp
    unfold MFile.tryReplace at hp
    dsimp only at hp
    split at hp
    · exact tryReplace_onRow f r k v mode is p hp
    · split at hp
      · cases hp
      · exact key _ p hp
      · exact key _ p hp
      · split at hp
        · cases hp
        · exact key _ p hp

theorem Shard.insertPlan_onRow (cfg : Cfg) (s : Shard) (ph : PH) (k v : Bytes) (mode : Mode) :
    ∀ p ∈ (s.insertPlan cfg ph k v mode).1, p.OnRow ph.rowSel := by
  have key := tryReplace_onRow (s.active ph.rowSel) ph.rowSel k v mode (lookups ((s.active ph.rowSel).slot ph.rowSel) ph.sig 0)
  intro p hp
  unfold Shard.insertPlan at hp
  dsimp only at hp
  split at hp
  · cases hp
  · split at hp
    · exact key p hp
    · exact key p hp
    · split at hp
      · cases hp
      · split at hp
        · simp only [MFile.putPrims, MFile.writePrims, List.cons_append, List.nil_append, List.mem_cons, List.not_mem_nil, or_false] at hp
          rcases hp with rfl | rfl | rfl | rfl | rfl <;> first | rfl | trivial
        · cases hp

theorem Shard.remove_scrub (s : Shard) (ph : PH) (k : Bytes) : s.scrub.remove ph k = ((s.remove ph k).1.scrub, (s.remove ph k).2) := by
  unfold Shard.remove
  dsimp only
  rw [Shard.removePlan_scrub, Shard.runActive_scrub]
  exact removeLoop_onRow _ _ _ _

theorem Shard.beginCompaction_scrub (s : Shard) (off : Nat) : (s.beginCompaction off).scrub = s.scrub.beginCompaction off := by
  unfold Shard.beginCompaction
  show _ = if s.src.writeOff < off then _ else _
  by_cases h : s.src.writeOff < off
  · rw [if_pos h, if_pos h]
  · rw [if_neg h, if_neg h]
    cases s with
    | mk lo hi src tgt =>
      cases tgt with
      | none => show (⟨lo, hi, src, some MFile.empty.scrub⟩ : Shard) = ⟨lo, hi, src, some MFile.empty⟩; rw [MFile.scrub_empty]
      | some t => rfl

theorem Shard.insert_scrub (cfg : Cfg) (s : Shard) (ph : PH) (k v : Bytes) (mode : Mode) :
    s.scrub.insert cfg ph k v mode = ((s.insert cfg ph k v mode).1.scrub, (s.insert cfg ph k v mode).2) := by
  unfold Shard.insert
  dsimp only
  rw [Shard.insertPlan_scrub, ← Shard.runActive_scrub _ _ (Shard.insertPlan_onRow cfg s ph k v mode)]
  cases (s.insertPlan cfg ph k v mode).2.2 with
  | none => rfl
  | some off => rw [Shard.beginCompaction_scrub]

theorem Shard.scrub_none {s : Shard} (h : s.tgt = none) : s.scrub = s := by
  cases s; unfold Shard.scrub; dsimp only at h ⊢; rw [h]; rfl

theorem Shard.scrub_inv {cfg : Cfg} {s : Shard} (h : s.Inv cfg) : s.scrub = s := by
  cases ht : s.tgt with
  | none => exact Shard.scrub_none ht
  | some t =>
    have := MFile.scrub_fix (h.fresh t ht)
    cases s
    unfold Shard.scrub
    dsimp only at ht ⊢
    rw [ht, show (some t).map MFile.scrub = some t.scrub from rfl, this]

theorem Shard.split_none {cfg : Cfg} {s b t : Shard} (h : s.split cfg = some (b, t)) : b.tgt = none ∧ t.tgt = none := by
  unfold Shard.split at h
  cases hf : s.finish cfg with
  | none => rw [hf] at h; cases h
  | some s1 =>
    rw [hf] at h
    dsimp only at h
    split at h
    · simp only [Option.some.injEq, Prod.mk.injEq] at h
      obtain ⟨rfl, rfl⟩ := h
      exact ⟨rfl, rfl⟩
    · cases h

/-! ## Trees -/

theorem Tree.scrub_hi : ∀ t : Tree, t.scrub.hi = t.hi
  | .leaf _ => rfl
  | .vertex _ t => Tree.scrub_hi t

theorem Tree.find_scrub (sel : Nat) : ∀ t : Tree, t.scrub.find sel = (t.find sel).scrub
  | .leaf _ => rfl
  | .vertex b t => by
    show (if sel < b.scrub.hi then b.scrub.find sel else t.scrub.find sel) = (if sel < b.hi then _ else _ : Shard).scrub
    rw [Tree.scrub_hi, Tree.find_scrub sel b, Tree.find_scrub sel t]
    split <;> rfl

theorem Tree.modify_scrub {f g : Shard → Shard} {sel : Nat} : ∀ t : Tree, g (t.find sel).scrub = (f (t.find sel)).scrub →
    t.scrub.modify sel g = (t.modify sel f).scrub
  | .leaf s => fun h => congrArg Tree.leaf h
  | .vertex b t => fun h => by
    show (if sel < b.scrub.hi then _ else _) = (if sel < b.hi then _ else _ : Tree).scrub
    rw [Tree.find_vertex] at h
    rw [Tree.scrub_hi]
    by_cases hlt : sel < b.hi
    · rw [if_pos hlt, if_pos hlt]
      rw [if_pos hlt] at h
      rw [Tree.modify_scrub b h]; rfl
    · rw [if_neg hlt, if_neg hlt]
      rw [if_neg hlt] at h
      rw [Tree.modify_scrub t h]; rfl

theorem Tree.leaves_scrub : ∀ t : Tree, t.scrub.leaves = t.leaves.map Shard.scrub
  | .leaf _ => rfl
  | .vertex b t => by
    show b.scrub.leaves ++ t.scrub.leaves = (b.leaves ++ t.leaves).map _
    rw [List.map_append, Tree.leaves_scrub b, Tree.leaves_scrub t]

theorem Tree.scrub_fix : ∀ {t : Tree}, (∀ s ∈ t.leaves, s.scrub = s) → t.scrub = t
  | .leaf s => fun h => by show Tree.leaf s.scrub = _; rw [h s (List.mem_singleton.2 rfl)]
  | .vertex b t => fun h => by
    show Tree.vertex b.scrub t.scrub = _
    rw [Tree.scrub_fix (t := b) fun s hs => h s (List.mem_append.2 (Or.inl hs)), Tree.scrub_fix (t := t) fun s hs => h s (List.mem_append.2 (Or.inr hs))]

theorem Shard.small_scrub {s : Shard} : s.scrub.Small ↔ s.Small := by
  unfold Shard.Small Shard.scrub
  refine and_congr Iff.rfl ?_
  cases s.tgt with
  | none => exact ⟨fun _ t e => (by cases e), fun _ t e => (by cases e)⟩
  | some t => exact ⟨fun h x e => by simp only [Option.some.injEq] at e; subst e; exact h t.scrub rfl,
      fun h x e => by simp only [Option.map_some, Option.some.injEq] at e; subst e; exact h t rfl⟩

theorem Tree.small_scrub {t : Tree} (h : t.Small) : t.scrub.Small := by
  intro s hs
  rw [Tree.leaves_scrub] at hs
  obtain ⟨s0, hs0, rfl⟩ := List.mem_map.1 hs
  exact Shard.small_scrub.2 (h s0 hs0)

theorem Tree.get_scrub (cfg : Cfg) (t : Tree) : t.scrub.get cfg = t.get cfg := by
  funext k
  unfold Tree.get
  rw [Tree.find_scrub, Shard.get_scrub]

/-- Only dead shards have leftovers. -/
def Tree.Clean (dead : List Span) (t : Tree) : Prop := ∀ s ∈ t.leaves, s.place ∉ dead → s.scrub = s

theorem Tree.Clean.vertex {dead : List Span} {b t : Tree} : (Tree.vertex b t).Clean dead ↔ b.Clean dead ∧ t.Clean dead := by
  unfold Tree.Clean
  simp only [Tree.leaves_vertex, List.mem_append]
  exact ⟨fun h => ⟨fun s hs => h s (Or.inl hs), fun s hs => h s (Or.inr hs)⟩, fun h s hs => hs.elim (h.1 s) (h.2 s)⟩

theorem Tree.Clean.leaf {dead : List Span} {s : Shard} : (Tree.leaf s).Clean dead ↔ (s.place ∉ dead → s.scrub = s) := by
  simp [Tree.Clean, Tree.leaves]

theorem Tree.Clean.modify {dead : List Span} {f : Shard → Shard} {sel : Nat} : ∀ {t : Tree}, t.Clean dead → ((f (t.find sel)).place ∉ dead → (f (t.find sel)).scrub = f (t.find sel)) →
    (t.modify sel f).Clean dead
  | .leaf s => fun _ h => Tree.Clean.leaf.2 h
  | .vertex b t => fun hc h => by
    rw [Tree.Clean.vertex] at hc
    rw [Tree.find_vertex] at h
    rw [Tree.modify_vertex]
    by_cases hlt : sel < b.hi
    · rw [if_pos hlt] at h ⊢; exact Tree.Clean.vertex.2 ⟨hc.1.modify h, hc.2⟩
    · rw [if_neg hlt] at h ⊢; exact Tree.Clean.vertex.2 ⟨hc.1, hc.2.modify h⟩

theorem Shard.runActive_place (s : Shard) (r : Nat) (ps : List Prim) : (s.runActive r ps).place = s.place := by
  unfold Shard.runActive Shard.place
  cases s.tgt with
  | none => rfl
  | some t => dsimp only; split <;> rfl

theorem Shard.beginCompaction_place (s : Shard) (off : Nat) : (s.beginCompaction off).place = s.place := by
  unfold Shard.beginCompaction
  split
  · rfl
  · cases s.tgt <;> rfl

theorem Shard.insert_place (cfg : Cfg) (s : Shard) (ph : PH) (k v : Bytes) (mode : Mode) : (s.insert cfg ph k v mode).1.place = s.place := by
  unfold Shard.insert
  dsimp only
  cases (s.insertPlan cfg ph k v mode).2.2 with
  | none => exact Shard.runActive_place _ _ _
  | some off => exact (Shard.beginCompaction_place _ _).trans (Shard.runActive_place _ _ _)

theorem Shard.remove_place (s : Shard) (ph : PH) (k : Bytes) : (s.remove ph k).1.place = s.place := Shard.runActive_place _ _ _

/-- An insertion that does not split a dead shard is the same insertion without the leftovers. -/
theorem Tree.insert_scrub {cfg : Cfg} {dead : List Span} {ph : PH} {k v : Bytes} {mode : Mode} : ∀ (n : Nat) (t t' : Tree) (st : InsStatus), t.Clean dead →
    (((t.find ph.shardSel).insert cfg ph k v mode).2 = .splitNeeded → (t.find ph.shardSel).scrub = t.find ph.shardSel) →
    t.insert cfg ph k v mode n = .ok (t', st) → t.scrub.insert cfg ph k v mode n = .ok (t'.scrub, st) ∧ t'.Clean dead := by
  intro n
  induction n with
  | zero => intro t t' st _ _ h; cases h
  | succ n ih =>
    intro t t' st hc hsp h
    cases t with
    | leaf s =>
      have hc := Tree.Clean.leaf.1 hc
      have hsp : (s.insert cfg ph k v mode).2 = .splitNeeded → s.scrub = s := hsp
      have e := Shard.insert_scrub cfg s ph k v mode
      have espan := Shard.insert_place cfg s ph k v mode
      cases hi : s.insert cfg ph k v mode with
      | mk s' st' =>
        rw [hi] at e espan hsp
        dsimp only at e espan hsp
        unfold Tree.insert at h
        rw [hi] at h
        by_cases est : st' = .splitNeeded
        · subst est
          dsimp only at h
          have hfix := hsp rfl
          have hfix' : s'.scrub = s' := by
            rw [hfix, hi] at e
            exact (Prod.mk.inj e).1.symm
          cases hs : s'.split cfg with
          | none => rw [hs] at h; cases h
          | some bt =>
            obtain ⟨b, t⟩ := bt
            rw [hs] at h
            dsimp only at h
            obtain ⟨hb, ht⟩ := Shard.split_none hs
            have hcl : (Tree.vertex (.leaf b) (.leaf t)).Clean dead :=
              Tree.Clean.vertex.2 ⟨Tree.Clean.leaf.2 fun _ => Shard.scrub_none hb, Tree.Clean.leaf.2 fun _ => Shard.scrub_none ht⟩
            have hall : ∀ x ∈ (Tree.vertex (.leaf b) (.leaf t)).leaves, x.scrub = x := by
              intro x hx
              simp only [Tree.leaves_vertex, Tree.leaves_leaf, List.cons_append, List.nil_append, List.mem_cons, List.not_mem_nil, or_false] at hx
              rcases hx with rfl | rfl
              · exact Shard.scrub_none hb
              · exact Shard.scrub_none ht
            obtain ⟨h1, h2⟩ := ih _ _ _ hcl (fun _ => hall _ (Tree.find_leaves _ _)) h
            rw [Tree.scrub_fix hall] at h1
            refine ⟨?_, h2⟩
            show Tree.insert cfg ph k v mode (n + 1) (.leaf s.scrub) = _
            unfold Tree.insert
            rw [e, hfix']
            dsimp only
            rw [hs]
            exact h1
        · have h2 : (Out.ok (Tree.leaf s', st') : Out (Tree × InsStatus)) = .ok (t', st) := by
            rw [← h]; cases st' <;> first | rfl | exact absurd rfl est
          simp only [Out.ok.injEq, Prod.mk.injEq] at h2
          obtain ⟨rfl, rfl⟩ := h2
          refine ⟨?_, Tree.Clean.leaf.2 fun hd => ?_⟩
          · show Tree.insert cfg ph k v mode (n + 1) (.leaf s.scrub) = _
            unfold Tree.insert
            rw [e]
            cases st' <;> first | rfl | exact absurd rfl est
          · rw [espan] at hd
            rw [hc hd, hi] at e
            exact (Prod.mk.inj e).1.symm
    | vertex b t =>
      rw [Tree.Clean.vertex] at hc
      rw [Tree.find_vertex] at hsp
      unfold Tree.insert at h
      show Tree.insert cfg ph k v mode (n + 1) (.vertex b.scrub t.scrub) = _ ∧ _
      unfold Tree.insert
      rw [Tree.scrub_hi]
      by_cases hlt : ph.shardSel < b.hi
      · rw [if_pos hlt] at hsp h ⊢
        cases hr : Tree.insert cfg ph k v mode n b with
        | ok r =>
          obtain ⟨b', st'⟩ := r
          rw [hr] at h
          simp only [Out.bind, Out.ok.injEq, Prod.mk.injEq] at h
          obtain ⟨rfl, rfl⟩ := h
          obtain ⟨h1, h2⟩ := ih _ _ _ hc.1 hsp hr
          rw [h1]
          exact ⟨rfl, Tree.Clean.vertex.2 ⟨h2, hc.2⟩⟩
        | panic => rw [hr] at h; cases h
        | diverge => rw [hr] at h; cases h
        | deadlock => rw [hr] at h; cases h
      · rw [if_neg hlt] at hsp h ⊢
        cases hr : Tree.insert cfg ph k v mode n t with
        | ok r =>
          obtain ⟨b', st'⟩ := r
          rw [hr] at h
          simp only [Out.bind, Out.ok.injEq, Prod.mk.injEq] at h
          obtain ⟨rfl, rfl⟩ := h
          obtain ⟨h1, h2⟩ := ih _ _ _ hc.2 hsp hr
          rw [h1]
          exact ⟨rfl, Tree.Clean.vertex.2 ⟨hc.1, h2⟩⟩
        | panic => rw [hr] at h; cases h
        | diverge => rw [hr] at h; cases h
        | deadlock => rw [hr] at h; cases h

theorem Tree.remove_scrub {cfg : Cfg} {dead : List Span} {t : Tree} {k : Bytes} (hc : t.Clean dead) :
    t.scrub.remove cfg k = ((t.remove cfg k).1.scrub, (t.remove cfg k).2) ∧ (t.remove cfg k).1.Clean dead := by
  have e := Shard.remove_scrub (t.find (cfg.ph k).shardSel) (cfg.ph k) k
  constructor
  · unfold Tree.remove
    dsimp only
    rw [Tree.find_scrub, e, Tree.modify_scrub (f := fun s => (s.remove (cfg.ph k) k).1) t (by rw [e])]
  · refine hc.modify fun hd => ?_
    rw [Shard.remove_place] at hd
    rw [hc _ (Tree.find_leaves _ _) hd] at e
    exact (congrArg Prod.fst e).symm

theorem CStep.scrub {cfg : Cfg} {α : Type} {S : BState} {p p' : Prog α} {t' : Tree} (hn : ¬ S.stuck cfg p) (hc : S.tree.Clean S.dead)
    (h : CStep cfg S.tree p t' p') : CStep cfg S.tree.scrub p t'.scrub p' ∧ t'.Clean S.dead := by
  generalize ht : S.tree = t at h
  cases h with
  | get k c => subst ht; refine ⟨?_, hc⟩; have := CStep.get (cfg := cfg) S.tree.scrub k c; rw [Tree.get_scrub] at this; exact this
  | insErr k v mode c e hs => subst ht; exact ⟨.insErr _ _ _ _ _ _ hs, hc⟩
  | ins _ k v mode c st n hs h =>
    subst ht
    obtain ⟨h1, h2⟩ := Tree.insert_scrub n _ _ _ hc (fun e => by
      by_cases hd : (S.tree.find (cfg.ph k).shardSel).place ∈ S.dead
      · exact absurd ⟨hs, hd, e⟩ hn
      · exact hc _ (Tree.find_leaves _ _) hd) h
    exact ⟨.ins _ _ _ _ _ _ _ n hs h1, h2⟩
  | rem k c =>
    subst ht
    obtain ⟨h1, h2⟩ := Tree.remove_scrub (cfg := cfg) (k := k) hc
    refine ⟨?_, h2⟩
    have := CStep.rem (cfg := cfg) S.tree.scrub k c
    rw [h1] at this
    exact this
  | byHash ph suf c =>
    subst ht
    refine ⟨?_, hc⟩
    have := CStep.byHash (cfg := cfg) S.tree.scrub ph suf c
    have e : S.tree.scrub.getByHash ph = S.tree.getByHash ph := by unfold Tree.getByHash; rw [Tree.find_scrub, Shard.getByHash_scrub]
    rw [e] at this
    exact this
  | lock i c => subst ht; exact ⟨.lock _ _ _, hc⟩
  | unlock c => subst ht; exact ⟨.unlock _ _, hc⟩

/-! ## The background thread -/

theorem Tree.OK.modify_same {cfg : Cfg} {ex : Bool} {lo hi : Nat} {t : Tree} (h : Tree.OK cfg ex lo hi t) {sel : Nat} {s' : Shard} (h1 : s'.Inv cfg)
    (h2 : s'.AcctInv ex) (h3 : s'.lo = (t.find sel).lo) (h4 : s'.hi = (t.find sel).hi) (h5 : ∀ k, s'.val cfg k = (t.find sel).val cfg k) :
    Tree.OK cfg ex lo hi (t.modify sel fun _ => s') ∧ ∀ k, (t.modify sel fun _ => s').get cfg k = t.get cfg k := by
  induction h with
  | leaf hlo hhi hle _ _ => exact ⟨.leaf (h3.trans hlo) (h4.trans hhi) hle h1 h2, h5⟩
  | @vertex lo hi b t hle hb ht ih1 ih2 =>
    rw [Tree.find_vertex] at h3 h4
    have h5 : ∀ k, s'.val cfg k = Shard.val cfg (if sel < b.hi then b.find sel else t.find sel) k := h5
    rw [Tree.modify_vertex]
    by_cases hlt : sel < b.hi
    · rw [if_pos hlt] at h3 h4 h5 ⊢
      obtain ⟨g1, g2⟩ := ih1 h3 h4 h5
      refine ⟨.vertex hle g1 ht, fun k => ?_⟩
      rw [Tree.get_vertex, Tree.get_vertex, g1.hi_eq, hb.hi_eq, g2 k]
    · rw [if_neg hlt] at h3 h4 h5 ⊢
      obtain ⟨g1, g2⟩ := ih2 h3 h4 h5
      refine ⟨.vertex hle hb g1, fun k => ?_⟩
      rw [Tree.get_vertex, Tree.get_vertex, g2 k]

theorem Tree.bgStep_modify {cfg : Cfg} {sel : Nat} : ∀ {t : Tree} {t' : Tree}, t.bgStep cfg sel = some t' →
    ∃ s', (t.find sel).bgStep cfg = some s' ∧ t' = t.modify sel (fun _ => s')
  | .leaf s, t', h => by
    have h : (s.bgStep cfg).map .leaf = some t' := h
    cases hs : s.bgStep cfg with
    | none => rw [hs] at h; cases h
    | some s' =>
      rw [hs] at h
      simp only [Option.map_some, Option.some.injEq] at h
      exact ⟨s', hs, h.symm⟩
  | .vertex b t, t', h => by
    unfold Tree.bgStep at h
    rw [Tree.find_vertex]
    by_cases hlt : sel < b.hi
    · rw [if_pos hlt] at h ⊢
      cases hs : b.bgStep cfg sel with
      | none => rw [hs] at h; cases h
      | some b' =>
        rw [hs] at h
        simp only [Option.map_some, Option.some.injEq] at h
        obtain ⟨s', h1, h2⟩ := Tree.bgStep_modify hs
        refine ⟨s', h1, ?_⟩
        rw [← h, h2, Tree.modify_vertex, if_pos hlt]
    · rw [if_neg hlt] at h ⊢
      cases hs : t.bgStep cfg sel with
      | none => rw [hs] at h; cases h
      | some b' =>
        rw [hs] at h
        simp only [Option.map_some, Option.some.injEq] at h
        obtain ⟨s', h1, h2⟩ := Tree.bgStep_modify hs
        refine ⟨s', h1, ?_⟩
        rw [← h, h2, Tree.modify_vertex, if_neg hlt]

theorem MFile.live_scrub (f : MFile) (r c : Nat) :
    f.scrub.live r c = if f.compactedUpTo ≤ r ∧ r < NUM_ROWS ∧ c < ROW_WIDTH then none else f.live r c := by
  by_cases h : f.compactedUpTo ≤ r ∧ r < NUM_ROWS ∧ c < ROW_WIDTH
  · rw [if_pos h, live_eq_none]
    show (if _ then _ else _ : Slot).sig = _
    rw [if_pos h]
  · rw [if_neg h]
    have : f.scrub.slot r c = f.slot r c := by
      show (if _ then _ else _) = _
      rw [if_neg h]
    unfold MFile.live
    rw [this]
    rfl

theorem FileOK.scrub {cfg : Cfg} {lo hi : Nat} {f : MFile} (h : FileOK cfg lo hi f) : FileOK cfg lo hi f.scrub := by
  have key : ∀ {r c kv}, f.scrub.live r c = some kv → f.live r c = some kv ∧ f.scrub.slot r c = f.slot r c := by
    intro r c kv e
    rw [MFile.live_scrub] at e
    by_cases hh : f.compactedUpTo ≤ r ∧ r < NUM_ROWS ∧ c < ROW_WIDTH
    · rw [if_pos hh] at e; cases e
    · rw [if_neg hh] at e
      refine ⟨e, ?_⟩
      show (if _ then _ else _) = _
      rw [if_neg hh]
  refine ⟨fun r c hr hc hs => ?_, fun r c kv hr hc e => ?_, fun r c kv hr hc e => h.row r c kv hr hc (key e).1, fun r c kv hr hc e => h.span r c kv hr hc (key e).1,
    fun r c c' kv kv' hr hc hc' e e' => h.inj r c c' kv kv' hr hc hc' (key e).1 (key e').1⟩
  · have hl : f.scrub.live r c = some (f.scrub.readKV (f.scrub.slot r c).desc) := by
      unfold MFile.live; rw [if_pos hs]
    rw [(key hl).2] at hs ⊢
    exact h.ext r c hr hc hs
  · rw [(key e).2]; exact h.sig r c kv hr hc (key e).1

theorem FileAcct.scrub {f : MFile} (h : FileAcct false f) : FileAcct false f.scrub := by
  rw [FileAcct.iff_le] at h ⊢
  refine Nat.le_trans (Nat.add_le_add_right ?_ _) h
  refine sumTo_mono fun r _ => sumTo_mono fun c _ => ?_
  unfold cellW
  rw [MFile.live_scrub]
  by_cases hh : f.compactedUpTo ≤ r ∧ r < NUM_ROWS ∧ c < ROW_WIDTH
  · rw [if_pos hh]; exact Nat.zero_le _
  · rw [if_neg hh]; exact Nat.le_refl _

/-- A compaction that fails changes nothing that can be seen. -/
theorem Shard.BgFails.spec {cfg : Cfg} {s s' : Shard} (h : s.BgFails cfg s') (hi : s.Inv cfg) (ha : s.AcctInv false) (hsm : s.Small) :
    s'.scrub.Inv cfg ∧ s'.scrub.AcctInv false ∧ s'.lo = s.lo ∧ s'.hi = s.hi ∧ ∀ k, s'.val cfg k = s.val cfg k := by
  cases h with
  | rename ht hge => rw [Shard.scrub_inv hi]; exact ⟨hi, ha, rfl, rfl, fun _ => rfl⟩
  | @row t g ps ht hlt hp hc =>
    have hT := hi.tgtOK ht
    have hsm2 := hsm.2 t ht
    rw [remW_step _ _ hlt] at hsm2
    have hlen := liveRow_length s.src t.compactedUpTo
    have hP := copyPrims_crash hlt _ t 0 ps g hT.ok (hi.src.copyOK hlt) (hT.part hlt) (by omega) (by rw [bytesOf_liveRow]; omega) hp hc
    have hinv : Shard.Inv cfg (Shard.scrub { s with tgt := some g }) := by
      refine ⟨hi.src, ?_, ?_, ?_⟩
      · intro x hx; simp only [Shard.scrub, Option.map_some, Option.some.injEq] at hx; subst hx; exact hP.ok.scrub
      · intro x hx; simp only [Shard.scrub, Option.map_some, Option.some.injEq] at hx; subst hx
        show g.compactedUpTo ≤ _
        rw [hP.cu]; exact hT.cu
      · intro x hx r c h1 h2 h3
        simp only [Shard.scrub, Option.map_some, Option.some.injEq] at hx; subst hx
        refine live_eq_none.1 ?_
        rw [MFile.live_scrub, if_pos ⟨h1, h2, h3⟩]
    refine ⟨hinv, ⟨ha.1, ?_⟩, rfl, rfl, fun k => ?_⟩
    · intro x hx; simp only [Shard.scrub, Option.map_some, Option.some.injEq] at hx; subst hx
      exact (hP.acct (ha.2 t ht)).scrub
    · have := Shard.val_eq_of_rows hi hinv (fun r hr kv => by
        have : ((Shard.scrub { s with tgt := some g }).active r).liveRow r = (s.active r).liveRow r := by
          unfold Shard.active Shard.scrub
          rw [ht]
          show MFile.liveRow (if r < g.compactedUpTo then g.scrub else s.src) r = MFile.liveRow (if r < t.compactedUpTo then t else s.src) r
          rw [hP.cu]
          by_cases e : r < t.compactedUpTo
          · rw [if_pos e, if_pos e]
            refine liveRow_congr fun c hc => ?_
            rw [MFile.live_scrub, if_neg (by rw [hP.cu]; omega)]
            exact hP.other r c hr hc (by omega)
          · rw [if_neg e, if_neg e]
        rw [this]) k
      rw [← this]
      exact (Shard.get_scrub _ _ _).symm

/-- What is known of the state. -/
structure BState.OK (cfg : Cfg) (S : BState) : Prop where
  sane : Sane cfg false S.tree.scrub
  clean : S.tree.Clean S.dead

theorem BgStep.spec {cfg : Cfg} {S S' : BState} (h : BgStep cfg S S') (hok : S.OK cfg) : S'.OK cfg ∧ S'.tree.get cfg = S.tree.get cfg := by
  cases h with
  | @work t' sel hs hd h =>
    obtain ⟨s', h1, rfl⟩ := Tree.bgStep_modify h
    have hfix := hok.clean _ (Tree.find_leaves _ sel) hd
    have hm := Tree.find_leaves S.tree.scrub sel
    rw [Tree.find_scrub] at hm
    obtain ⟨i1, i2⟩ := hok.sane.ok.leaf_inv _ hm
    rw [hfix] at i1 i2
    obtain ⟨s2, e, j1, j2, j3, j4, j5, j6, _⟩ := Shard.bgStep_spec i1 (hs _ (Tree.find_leaves _ sel)) i2
    rw [h1] at e; simp only [Option.some.injEq] at e; subst e
    have e1 := Tree.modify_scrub (f := fun _ => s') (g := fun _ => s') (sel := sel) S.tree (Shard.scrub_inv j1).symm
    obtain ⟨k1, k2⟩ := hok.sane.ok.modify_same (sel := sel) j1 j5 (by rw [Tree.find_scrub, hfix]; exact j2) (by rw [Tree.find_scrub, hfix]; exact j3)
      (by rw [Tree.find_scrub, hfix]; exact j6)
    rw [e1] at k1 k2
    refine ⟨⟨⟨hok.sane.bound, k1⟩, hok.clean.modify fun _ => Shard.scrub_inv j1⟩, ?_⟩
    show (S.tree.modify sel fun _ => s').get cfg = _
    rw [← Tree.get_scrub, ← Tree.get_scrub cfg S.tree]
    exact funext k2
  | @fail s' sel hs hd h =>
    have hfix := hok.clean _ (Tree.find_leaves _ sel) hd
    have hm := Tree.find_leaves S.tree.scrub sel
    rw [Tree.find_scrub] at hm
    obtain ⟨i1, i2⟩ := hok.sane.ok.leaf_inv _ hm
    rw [hfix] at i1 i2
    obtain ⟨j1, j2, j3, j4, j5⟩ := h.spec i1 i2 (hs _ (Tree.find_leaves _ sel))
    have e1 := Tree.modify_scrub (f := fun _ => s') (g := fun _ => s'.scrub) (sel := sel) S.tree rfl
    obtain ⟨k1, k2⟩ := hok.sane.ok.modify_same (sel := sel) (s' := s'.scrub) j1 j2 (by rw [Tree.find_scrub, hfix]; exact j3) (by rw [Tree.find_scrub, hfix]; exact j4)
      (by rw [Tree.find_scrub, hfix]; exact fun k => (Shard.get_scrub _ _ _).trans (j5 k))
    rw [e1] at k1 k2
    have hcl : S.tree.Clean ((S.tree.find sel).place :: S.dead) := fun s hs hd => hok.clean s hs fun hm => hd (List.mem_cons_of_mem _ hm)
    refine ⟨⟨⟨hok.sane.bound, k1⟩, hcl.modify fun hn => absurd ?_ hn⟩, ?_⟩
    · have : s'.place = (S.tree.find sel).place := by unfold Shard.place; rw [j3, j4]
      exact List.mem_cons.2 (Or.inl this)
    · show (S.tree.modify sel fun _ => s').get cfg = _
      rw [← Tree.get_scrub, ← Tree.get_scrub cfg S.tree]
      exact funext k2

theorem BExec.sim {cfg : Cfg} {α : Type} {S S' : BState} {p p' : Prog α} (h : BExec cfg true S p S' p') :
    S.OK cfg → S'.OK cfg ∧ AExec cfg (S.tree.get cfg) p (S'.tree.get cfg) p' := by
  induction h with
  | refl S p => exact fun hok => ⟨hok, .refl _ _⟩
  | @step S S'' p p' p'' t' hs hn h _ ih =>
    intro hok
    obtain ⟨h1, h2⟩ := h.scrub hn hok.clean
    obtain ⟨h3, h4⟩ := h1.sim hok.sane.ok (Tree.small_scrub hs)
    rw [Tree.get_scrub, Tree.get_scrub] at h4
    obtain ⟨h5, h6⟩ := ih ⟨⟨hok.sane.bound, h3⟩, h2⟩
    exact ⟨h5, .step h4 h6⟩
  | bg h _ ih =>
    intro hok
    obtain ⟨h1, h2⟩ := h.spec hok
    obtain ⟨h3, h4⟩ := ih h1
    exact ⟨h3, h2 ▸ h4⟩
  | split hsafe => cases hsafe

theorem Shard.scrub_noLeftover {s : Shard} (h : ¬ s.Leftover) : s.scrub = s := by
  cases ht : s.tgt with
  | none => exact Shard.scrub_none ht
  | some t =>
    have := MFile.scrub_fix (f := t) fun r c h1 h2 h3 => Classical.byContradiction fun h4 => h ⟨t, r, c, ht, h1, h2, h3, h4⟩
    cases s
    unfold Shard.scrub
    dsimp only at ht ⊢
    rw [ht, show (some t).map MFile.scrub = some t.scrub from rfl, this]

theorem Tree.finishLive_spec {cfg : Cfg} {dead : List Span} {ex : Bool} {lo hi : Nat} {t : Tree} (h : Tree.OK cfg ex lo hi t) (hsm : t.Small) :
    ∃ t', t.finishLive cfg dead = some t' ∧ Tree.OK cfg ex lo hi t' ∧ t'.leaves.map (fun s => (s.lo, s.hi)) = t.leaves.map (fun s => (s.lo, s.hi)) ∧
      ∀ k, inSpan lo hi (cfg.ph k).shardSel → t'.get cfg k = t.get cfg k := by
  induction h with
  | @leaf lo hi s hlo hhi hle hinv ha =>
    rw [Tree.Small.leaf] at hsm
    unfold Tree.finishLive
    by_cases hd : s.place ∈ dead
    · rw [if_pos hd]; exact ⟨_, rfl, .leaf hlo hhi hle hinv ha, rfl, fun _ _ => rfl⟩
    · rw [if_neg hd]
      obtain ⟨s', h1, h2, _, h3, h4, h5, h6, h7, _⟩ := s.finish_spec hinv hsm ha
      refine ⟨.leaf s', by rw [h1]; rfl, .leaf (h3.trans hlo) (h4.trans hhi) hle h2 h6, ?_, fun k _ => h7 k⟩
      simp [Tree.leaves_leaf, h3, h4]
  | @vertex lo hi b t hle hb ht ih1 ih2 =>
    rw [Tree.Small.vertex] at hsm
    obtain ⟨b', h1, h2, hm1, h4⟩ := ih1 hsm.1
    obtain ⟨t', g1, g2, hm2, g4⟩ := ih2 hsm.2
    refine ⟨.vertex b' t', by unfold Tree.finishLive; rw [h1, g1], .vertex hle h2 g2, ?_, ?_⟩
    · simp only [Tree.leaves_vertex, List.map_append, hm1, hm2]
    · intro k hk
      rw [Tree.get_vertex, Tree.get_vertex, h2.hi_eq, hb.hi_eq]
      split
      · exact h4 k ⟨hk.1, by assumption⟩
      · exact g4 k ⟨by omega, hk.2⟩

theorem Tree.dropDead_nil : ∀ t : Tree, t.dropDead [] = t
  | .leaf s => by show Tree.leaf (if _ then _ else _) = _; rw [if_neg (by simp)]
  | .vertex b t => by show Tree.vertex _ _ = _; rw [Tree.dropDead_nil b, Tree.dropDead_nil t]

theorem Sane.bOK {cfg : Cfg} {t : Tree} (h : Sane cfg false t) : BState.OK cfg ⟨t, [], []⟩ := by
  have e : ∀ s ∈ t.leaves, s.scrub = s := fun s hs => Shard.scrub_inv (h.ok.leaf_inv s hs).1
  refine ⟨?_, fun s hs _ => e s hs⟩
  show Sane cfg false t.scrub
  rw [Tree.scrub_fix e]; exact h

theorem BRun.refines {cfg : Cfg} {S S' : BState} {es : List BEvent} (h : BRun cfg true S es S') :
    ∀ w, S.OK cfg → MAbs cfg (S.tree.get cfg) w →
      ∃ w', SpecRun cfg w (es.map BEvent.asIfDied) w' ∧ S'.OK cfg ∧ MAbs cfg (S'.tree.get cfg) w' := by
  induction h with
  | nil S => exact fun w hs hm => ⟨w, .nil _, hs, hm⟩
  | call h hr hne _ ih =>
    intro w hs hm
    obtain ⟨h1, h2⟩ := h.sim hs
    obtain ⟨w1, h3, h4⟩ := call_refines _ hm h2 hr hne
    obtain ⟨w2, h5, h6⟩ := ih w1 h1 h4
    exact ⟨w2, .call h3 h5, h6⟩
  | failed h hn hu _ ih =>
    intro w hs hm
    obtain ⟨h1, h2⟩ := h.sim hs
    obtain ⟨w1, h3, h4⟩ := call_crash _ hm h2
    obtain ⟨w2, h5, h6⟩ := ih w1 ⟨h1.sane, h1.clean⟩ h4
    exact ⟨w2, .crash h3 h5, h6⟩
  | bg h _ ih =>
    intro w hs hm
    obtain ⟨h1, h2⟩ := h.spec hs
    exact ih w h1 (h2 ▸ hm)
  | mergeFails hu _ ih =>
    intro w hs hm
    obtain ⟨w2, h5, h6⟩ := ih w ⟨hs.sane, hs.clean⟩ hm
    exact ⟨w2, .merge h5, h6⟩
  | @merge S S'' t' es maxFill b hsafe hu hok h hd _ ih =>
    intro w hs hm
    have hd0 := hsafe rfl
    rw [hd0, Tree.dropDead_nil] at hok h
    have hfix : S.tree.scrub = S.tree := Tree.scrub_fix fun s hs' => hs.clean s hs' (by rw [hd0]; simp)
    have hsane := hs.sane
    rw [hfix] at hsane
    obtain ⟨h1, h2⟩ := merge_get hsane hok h
    obtain ⟨w2, h5, h6⟩ := ih w h1.bOK (h2 ▸ hm)
    exact ⟨w2, .merge h5, h6⟩
  | clear h _ ih =>
    intro w hs hm
    obtain ⟨h1, h2⟩ := create_sane h
    obtain ⟨w2, h5, h6⟩ := ih World.new h1.weaken.bOK (h2 ▸ MAbs.new cfg)
    exact ⟨w2, .clear h5, h6⟩
  | @reopen S S'' u t1 es d cb hsm hn hsafe hu hd h _ ih =>
    intro w hs hm
    have hfix : S.tree.scrub = S.tree := Tree.scrub_fix fun s hs' => Shard.scrub_noLeftover (hsafe rfl s hs')
    have hsane := hs.sane
    rw [hfix] at hsane
    obtain ⟨u', e', uok, uspan, uval⟩ := Tree.finishLive_spec (dead := S.dead) hsane.ok hsm
    rw [hu] at e'; simp only [Option.some.injEq] at e'; subst e'
    have un : u.NonDegenerate := by
      intro s hs
      have : (s.lo, s.hi) ∈ u.leaves.map (fun s => (s.lo, s.hi)) := List.mem_map.2 ⟨s, hs, rfl⟩
      rw [uspan, List.mem_map] at this
      obtain ⟨x, hx, hxe⟩ := this
      have := hn x hx
      simp only [Prod.mk.injEq] at hxe
      omega
    have ug : u.get cfg = S.tree.get cfg := funext fun k => uval k ⟨Nat.zero_le _, (cfg.ph k).shardSel_lt⟩
    obtain ⟨g1, _, _, _, g2⟩ := h.spec (hd.recov uok un)
    obtain ⟨w2, h7, h8⟩ := ih w (Sane.bOK ⟨hsane.bound, g1⟩) (by rw [g2, ug]; exact hm)
    exact ⟨w2, .reopen h7, h8⟩
  | @crash S S'' t1 es d0 d cb hsm hn hsafe hd hb hr _ ih =>
    intro w hs hm
    have hfix : S.tree.scrub = S.tree := Tree.scrub_fix fun s hs' => Shard.scrub_noLeftover (hsafe rfl s hs')
    have hsane := hs.sane
    rw [hfix] at hsane
    obtain ⟨g1, _, _, _, g2⟩ := hr.spec (Recov.bg hb (hd.recov hsane.ok hn))
    obtain ⟨w2, h7, h8⟩ := ih w (Sane.bOK ⟨hsane.bound, g1⟩) (g2 ▸ hm)
    exact ⟨w2, .crash rfl h7, h8⟩

theorem BReachable.world {cfg : Cfg} {es : List BEvent} {S : BState} (h : BReachable cfg true es S) :
    ∃ w, SpecRun cfg World.new (es.map BEvent.asIfDied) w ∧ S.OK cfg ∧ MAbs cfg (S.tree.get cfg) w := by
  obtain ⟨t0, h1, h2⟩ := h
  obtain ⟨h3, h4⟩ := create_sane h1
  exact h2.refines World.new h3.weaken.bOK (h4 ▸ MAbs.new cfg)

end Candy
