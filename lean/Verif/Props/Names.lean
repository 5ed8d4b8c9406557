import Verif.Proofs.Names
/-!
# C41: file names
-/
namespace Candy.Props

/-- A foreign file: its name starts with none of the five prefixes the library uses. -/
def Foreign (s : List Char) : Prop :=
  ¬ "shard_".toList <+: s ∧ ¬ "compact_".toList <+: s ∧ ¬ "bottom_".toList <+: s ∧ ¬ "top_".toList <+: s ∧ ¬ "merge_".toList <+: s

/-- **C41.** The name written for a shard is parsed back to the same span when the store is opened, for every span a shard may have. -/
theorem C41_round_trip (lo hi : Nat) (h : lo < hi) (h' : hi ≤ 65536) : classify (FName.print ⟨.shard, lo, hi⟩) = .shard lo hi := by
  have e : END_OF_SHARDS = 65536 := rfl
  rw [classify_print ⟨.shard, lo, hi⟩ (by constructor <;> simp only <;> omega)]
  simp only []
  rw [if_pos ⟨h, by omega⟩]

/-- the whole selector space: five digits for the end -/
example : FName.print ⟨.shard, 0, 65536⟩ = "shard_0000-10000".toList ∧ classify "shard_0000-10000".toList = .shard 0 65536 := by
  constructor <;> decide +kernel
example : FName.print ⟨.shard, 0xabc, 0x1000⟩ = "shard_0abc-1000".toList := by decide +kernel

/-- **C41.** Different kinds of file and different spans have different names. -/
theorem C41_names_differ (n m : FName) (hn : n.lo < 2 ^ 32 ∧ n.hi < 2 ^ 32) (hm : m.lo < 2 ^ 32 ∧ m.hi < 2 ^ 32) (h : n ≠ m) :
    n.print ≠ m.print := fun e => h (print_inj n m hn hm e)

example : (⟨.shard, 0, 0x8000⟩ : FName).print ≠ (⟨.shard, 0, 0x800⟩ : FName).print :=
  C41_names_differ _ _ (by decide) (by decide) (by decide)

/-- **C41.** Temporary files are never mistaken for shards: those of an unfinished split or merge are removed when the store is opened,
those of an unfinished compaction are left for the shard they belong to. -/
theorem C41_leftovers (k : Kind) (lo hi : Nat) (h : lo < 2 ^ 32) (h' : hi < 2 ^ 32) (hk : k ≠ .shard) :
    classify (FName.print ⟨k, lo, hi⟩) = if k = .compact then .ignore else .remove := by
  rw [classify_print ⟨k, lo, hi⟩ ⟨h, h'⟩]
  cases k <;> first | rfl | exact absurd rfl hk

example : classify "bottom_0000-8000".toList = .remove ∧ classify "top_8000-10000".toList = .remove ∧
    classify "merge_0000-10000".toList = .remove ∧ classify "compact_0000-10000".toList = .ignore := by decide +kernel

/-- The names in a directory with the files `d` of the library and some foreign files in between. -/
def listing (l : List (FName ⊕ List Char)) : List (List Char) := l.map (fun x => match x with | .inl n => n.print | .inr s => s)

theorem prefix_iff (k : Kind) (s : List Char) : k.prefix.isPrefixOf s = true ↔ k.prefix <+: s := List.isPrefixOf_iff_prefix

theorem classify_foreign (s : List Char) (h : Foreign s) : classify s = .ignore := by
  have e1 : Kind.shard.prefix = "shard_".toList := by decide
  have e3 : Kind.bottom.prefix = "bottom_".toList := by decide
  have e4 : Kind.top.prefix = "top_".toList := by decide
  have e5 : Kind.merge.prefix = "merge_".toList := by decide
  obtain ⟨h1, _, h3, h4, h5⟩ := h
  rw [← e1, ← prefix_iff, Bool.not_eq_true] at h1
  rw [← e3, ← prefix_iff, Bool.not_eq_true] at h3
  rw [← e4, ← prefix_iff, Bool.not_eq_true] at h4
  rw [← e5, ← prefix_iff, Bool.not_eq_true] at h5
  rw [classify, h3, h4, h5, h1]
  rfl

/-- **C41.** Opening a directory whose names are those the library writes, and any foreign files, finds exactly the shards and removes
exactly the temporary files that the rest of the model (`scanDir`, which works on names already taken apart) says; foreign files are
not touched. -/
theorem C41_listing (l : List (FName ⊕ List Char)) (f : FName → DFile)
    (hn : ∀ n, Sum.inl n ∈ l → n.lo < 2 ^ 32 ∧ n.hi < 2 ^ 32) (hs : ∀ s, Sum.inr s ∈ l → Foreign s) :
    let d : Dir := l.filterMap (fun x => match x with | .inl n => some (n, f n) | .inr _ => none)
    (scanNames (listing l)).1.map some = (scanDir d).1.map (fun o => match o with | .unlink n => some n.print | _ => none) ∧
    (scanNames (listing l)).2 = match (scanDir d).2 with | some sp => .ok sp | none => .err := by
  induction l with
  | nil => exact ⟨rfl, rfl⟩
  | cons x l ih =>
    have ih := ih (fun n h => hn n (List.mem_cons_of_mem _ h)) (fun s h => hs s (List.mem_cons_of_mem _ h))
    dsimp only at ih ⊢
    obtain ⟨i1, i2⟩ := ih
    cases x with
    | inr s =>
      have := classify_foreign s (hs s (by simp))
      have e : scanNames (listing (Sum.inr s :: l)) = scanNames (listing l) := by
        show scanNames (s :: listing l) = _
        rw [scanNames, this]
      rw [e]
      exact ⟨i1, i2⟩
    | inl n =>
      have hc := classify_print n (hn n (by simp))
      show (scanNames (n.print :: listing l)).1.map some = _ ∧ (scanNames (n.print :: listing l)).2 = _
      simp only [List.filterMap_cons]
      rw [scanNames, scanDir, hc]
      cases hk : n.kind with
      | shard =>
        dsimp only
        by_cases hb : n.lo < n.hi ∧ n.hi ≤ END_OF_SHARDS
        · rw [if_pos hb, if_pos hb]
          dsimp only
          refine ⟨i1, ?_⟩
          rw [i2]
          cases (scanDir (l.filterMap (fun x => match x with | .inl n => some (n, f n) | .inr _ => none))).2 <;> rfl
        · rw [if_neg hb, if_neg hb]
          exact ⟨rfl, rfl⟩
      | compact => exact ⟨i1, i2⟩
      | bottom => exact ⟨by simp only [List.map_cons, i1], i2⟩
      | top => exact ⟨by simp only [List.map_cons, i1], i2⟩
      | merge => exact ⟨by simp only [List.map_cons, i1], i2⟩

/-- a directory with two shards, a leftover of a split and a foreign file -/
example : scanNames ["shard_0000-8000".toList, "README".toList, "bottom_0000-4000".toList, "shard_8000-10000".toList] =
    (["bottom_0000-4000".toList], .ok [(0, 0x8000), (0x8000, 0x10000)]) := by
  have h1 : classify "shard_0000-8000".toList = .shard 0 0x8000 := by decide +kernel
  have h2 : classify "README".toList = .ignore := by decide +kernel
  have h3 : classify "bottom_0000-4000".toList = .remove := by decide +kernel
  have h4 : classify "shard_8000-10000".toList = .shard 0x8000 0x10000 := by decide +kernel
  simp only [scanNames, h1, h2, h3, h4]

/-- **C41.** `clear` removes every shard file and every compaction file, whatever else is in the directory, and no foreign file. -/
theorem C41_clear_takes (n : FName) : clearTakes n.print = decide (n.kind ≠ .merge) := by
  rw [clearTakes, prefix_print, prefix_print, prefix_print, prefix_print]
  cases n.kind <;> decide

theorem C41_clear_spares (s : List Char) (h : Foreign s) : clearTakes s = false := by
  have e1 : Kind.shard.prefix = "shard_".toList := by decide
  have e2 : Kind.compact.prefix = "compact_".toList := by decide
  have e3 : Kind.bottom.prefix = "bottom_".toList := by decide
  have e4 : Kind.top.prefix = "top_".toList := by decide
  obtain ⟨h1, h2, h3, h4, _⟩ := h
  rw [← e1, ← prefix_iff, Bool.not_eq_true] at h1
  rw [← e2, ← prefix_iff, Bool.not_eq_true] at h2
  rw [← e3, ← prefix_iff, Bool.not_eq_true] at h3
  rw [← e4, ← prefix_iff, Bool.not_eq_true] at h4
  rw [clearTakes, h1, h2, h3, h4]
  rfl

theorem foreign_readme : Foreign "README".toList := by
  unfold Foreign
  decide
example : clearTakes "README".toList = false := C41_clear_spares _ foreign_readme

end Candy.Props
