import Verif.Proofs.FS
import Verif.Proofs.Merge
/-!
# Directories from which the store can be recovered
-/
namespace Candy

/-- What is known about a shard whose files were left by a crash: the row being compacted may be half done. -/
structure ROK (cfg : Cfg) (s : Shard) : Prop where
  src : FileOK cfg s.lo s.hi s.src
  tgt : ∀ t, s.tgt = some t → TgtOK cfg s.lo s.hi s.src t
  acct : s.AcctInv false

theorem Shard.AcctInv.weaken {s : Shard} {ex} (h : s.AcctInv ex) : s.AcctInv false :=
  ⟨h.1.weaken, fun t ht => (h.2 t ht).weaken⟩

theorem Shard.Inv.rok {cfg s ex} (h : Shard.Inv cfg s) (ha : s.AcctInv ex) : ROK cfg s :=
  ⟨h.src, fun _ ht => h.tgtOK ht, ha.weaken⟩

theorem ROK.active {cfg : Cfg} {s : Shard} (h : ROK cfg s) (r : Nat) : FileOK cfg s.lo s.hi (s.active r) := by
  unfold Shard.active
  cases ht : s.tgt with
  | none => exact h.src
  | some t =>
    simp only
    split
    · exact (h.tgt t ht).ok
    · exact h.src

theorem Shard.val_mem {cfg : Cfg} {s : Shard} {k v : Bytes} (h : FileOK cfg s.lo s.hi (s.active (cfg.ph k).rowSel)) :
    s.val cfg k = some v ↔ (k, v) ∈ (s.active (cfg.ph k).rowSel).liveRow (cfg.ph k).rowSel := by
  have hr := (cfg.ph k).rowSel_lt
  obtain ⟨cur, hcur⟩ := RowVal.exists (s.active (cfg.ph k).rowSel) (cfg.ph k).rowSel k
  have e : s.val cfg k = cur := getLoop_eq h hr hcur
  rw [e, mem_liveRow]
  constructor
  · rintro rfl; exact hcur
  · intro hv; exact RowVal.unique h hr hcur (b := some v) hv

theorem ROK.val_mem {cfg : Cfg} {s : Shard} (h : ROK cfg s) {k v : Bytes} :
    s.val cfg k = some v ↔ (k, v) ∈ (s.active (cfg.ph k).rowSel).liveRow (cfg.ph k).rowSel := Shard.val_mem (h.active _)

theorem ROK.val_eq {cfg : Cfg} {s s' : Shard} (h : ROK cfg s) (h' : ROK cfg s') (hrows : ∀ r, r < NUM_ROWS → (s'.active r).liveRow r = (s.active r).liveRow r)
    (k : Bytes) : s'.val cfg k = s.val cfg k :=
  option_ext_some (fun v => by rw [h'.val_mem, h.val_mem, hrows _ (cfg.ph k).rowSel_lt])

/-! ## Tilings -/

/-- The spans of the shards are dyadic and follow each other from `lo` to `hi`. -/
inductive Tiles : Nat → Nat → List Shard → Prop
  | nil {lo : Nat} : Tiles lo lo []
  | cons {lo hi : Nat} {s : Shard} {l : List Shard} (hlo : s.lo = lo) (hd : Dyadic s.lo s.hi) (ht : Tiles s.hi hi l) : Tiles lo hi (s :: l)

theorem Tiles.le {lo hi l} (h : Tiles lo hi l) : lo ≤ hi := by
  induction h with
  | nil => exact Nat.le_refl _
  | cons hlo hd _ ih => have := hd.lt; omega

theorem Tiling.tiles {cfg ex lo hi l} (h : Tiling cfg ex lo hi l) : Tiles lo hi l := by
  induction h with
  | nil => exact .nil
  | cons a b _ _ _ ih => exact .cons a b ih

theorem Tiles.tiling {cfg ex lo hi l} (h : Tiles lo hi l) (hs : ∀ s ∈ l, s.Inv cfg ∧ s.AcctInv ex) : Tiling cfg ex lo hi l := by
  induction h with
  | nil => exact .nil
  | cons a b _ ih =>
    exact .cons a b (hs _ List.mem_cons_self).1 (hs _ List.mem_cons_self).2 (ih (fun s h => hs s (List.mem_cons_of_mem _ h)))

theorem Tiles.mem {lo hi l} (h : Tiles lo hi l) {s : Shard} (hs : s ∈ l) : lo ≤ s.lo ∧ s.lo < s.hi ∧ s.hi ≤ hi := by
  induction h with
  | nil => simp at hs
  | cons a b c ih =>
    have := b.lt
    have := c.le
    rcases List.mem_cons.1 hs with rfl | hs
    · omega
    · have := ih hs; omega

theorem Tiles.append {lo mid hi l l'} (h : Tiles lo mid l) (h' : Tiles mid hi l') : Tiles lo hi (l ++ l') := by
  induction h with
  | nil => exact h'
  | cons a b _ ih => exact .cons a b (ih h')

theorem Tiles.split {lo hi l l'} (h : Tiles lo hi (l ++ l')) : ∃ mid, Tiles lo mid l ∧ Tiles mid hi l' := by
  induction l generalizing lo with
  | nil => exact ⟨lo, .nil, h⟩
  | cons s l ih =>
    cases h with
    | cons a b c =>
      obtain ⟨m, h1, h2⟩ := ih c
      exact ⟨m, .cons a b h1, h2⟩

theorem Tiles.unique {a b c d l} (h : Tiles a b l) (h' : Tiles c d l) (hne : l ≠ []) : a = c ∧ b = d := by
  induction h generalizing c with
  | nil => exact absurd rfl hne
  | @cons lo hi s l e1 e2 e3 ih =>
    cases h' with
    | cons f1 f2 f3 =>
      refine ⟨by omega, ?_⟩
      cases l with
      | nil => cases e3; cases f3; rfl
      | cons x xs => exact (ih f3 (by simp)).2

theorem Tiles.ne_nil {lo hi l} (h : Tiles lo hi l) (hlt : lo < hi) : l ≠ [] := by
  rintro rfl; cases h; omega

/-- Replace a part of a tiling. -/
theorem Tiles.replace {a b lo hi pre mid mid' post} (h : Tiles a b (pre ++ mid ++ post)) (hm : Tiles lo hi mid) (hlt : lo < hi)
    (hm' : Tiles lo hi mid') : Tiles a lo pre ∧ Tiles hi b post ∧ Tiles a b (pre ++ mid' ++ post) := by
  obtain ⟨x, h1, h2⟩ := h.split
  obtain ⟨y, h3, h4⟩ := h1.split
  obtain ⟨rfl, rfl⟩ := hm.unique h4 (hm.ne_nil hlt)
  exact ⟨h3, h2, (h3.append hm').append h2⟩

/-! ## Directories -/

/-- The files of the directory `F` allow recovery of the shards `l`. Beside their files there may be shard files covered by one of
them, and temporary files. -/
structure RecF (cfg : Cfg) (F : FS) (l : List Shard) : Prop where
  tiles : Tiles 0 65536 l
  ok : ∀ s ∈ l, ROK cfg s
  src : ∀ s ∈ l, F s.srcName = some (.good s.src)
  tgt : ∀ s ∈ l, (F s.tgtName).map DFile.asFile = s.tgt
  shards : ∀ a b, F ⟨.shard, a, b⟩ ≠ none → a < b ∧ ∃ s ∈ l, s.lo ≤ a ∧ b ≤ s.hi
  compacts : ∀ a b, F ⟨.compact, a, b⟩ ≠ none → ∃ s ∈ l, s.lo = a ∧ s.hi = b

/-- Names that matter. -/
def FName.real (n : FName) : Prop := n.kind = .shard ∨ n.kind = .compact

theorem RecF.congr {cfg F F' l} (h : RecF cfg F l) (he : ∀ n : FName, n.real → F' n = F n) : RecF cfg F' l where
  tiles := h.tiles
  ok := h.ok
  src := fun s hs => by rw [he _ (Or.inl rfl)]; exact h.src s hs
  tgt := fun s hs => by rw [he _ (Or.inr rfl)]; exact h.tgt s hs
  shards := fun a b hn => h.shards a b (by rwa [he _ (Or.inl rfl)] at hn)
  compacts := fun a b hn => h.compacts a b (by rwa [he _ (Or.inr rfl)] at hn)

theorem RecF.temp {cfg F l} (h : RecF cfg F l) {n : FName} (hn : ¬ n.real) (x) : RecF cfg (F.upd n x) l :=
  h.congr (fun m hm => FS.upd_other _ _ (by rintro rfl; exact hn hm))

/-- Replace a part of the shards, changing only files within its span. -/
theorem RecF.local {cfg F F' pre mid mid' post} {lo hi : Nat} (h : RecF cfg F (pre ++ mid ++ post)) (hm : Tiles lo hi mid) (hlt : lo < hi)
    (hm' : Tiles lo hi mid') (hok : ∀ s ∈ mid', ROK cfg s)
    (hsame : ∀ n : FName, n.real → ¬ (lo ≤ n.lo ∧ n.hi ≤ hi) → F' n = F n)
    (hsrc : ∀ s ∈ mid', F' s.srcName = some (.good s.src))
    (htgt : ∀ s ∈ mid', (F' s.tgtName).map DFile.asFile = s.tgt)
    (hshards : ∀ a b, lo ≤ a → b ≤ hi → F' ⟨.shard, a, b⟩ ≠ none → a < b ∧ ∃ s ∈ mid', s.lo ≤ a ∧ b ≤ s.hi)
    (hcompacts : ∀ a b, lo ≤ a → b ≤ hi → F' ⟨.compact, a, b⟩ ≠ none → ∃ s ∈ mid', s.lo = a ∧ s.hi = b) :
    RecF cfg F' (pre ++ mid' ++ post) := by
  obtain ⟨h1, h2, h3⟩ := h.tiles.replace hm hlt hm'
  have hout : ∀ s, s ∈ pre ∨ s ∈ post → s ∈ pre ++ mid ++ post ∧ ¬ (lo ≤ s.lo ∧ s.hi ≤ hi) := by
    intro s hs
    rcases hs with hs | hs
    · have := h1.mem hs
      exact ⟨by simp [hs], by omega⟩
    · have := h2.mem hs
      exact ⟨by simp [hs], by omega⟩
  have hsplit : ∀ s, s ∈ pre ++ mid' ++ post → s ∈ mid' ∨ (s ∈ pre ∨ s ∈ post) := by
    intro s hs; simp only [List.mem_append] at hs
    rcases hs with (hs | hs) | hs
    · exact Or.inr (Or.inl hs)
    · exact Or.inl hs
    · exact Or.inr (Or.inr hs)
  have hback : ∀ s, s ∈ pre ++ mid ++ post → s ∈ mid ∨ s ∈ pre ++ mid' ++ post := by
    intro s hs; simp only [List.mem_append] at hs ⊢
    rcases hs with (hs | hs) | hs
    · exact Or.inr (Or.inl (Or.inl hs))
    · exact Or.inl hs
    · exact Or.inr (Or.inr hs)
  refine ⟨h3, ?_, ?_, ?_, ?_, ?_⟩
  · intro s hs
    rcases hsplit s hs with hs | hs
    · exact hok s hs
    · exact h.ok s (hout s hs).1
  · intro s hs
    rcases hsplit s hs with hs | hs
    · exact hsrc s hs
    · rw [hsame _ (Or.inl rfl) (hout s hs).2]; exact h.src s (hout s hs).1
  · intro s hs
    rcases hsplit s hs with hs | hs
    · exact htgt s hs
    · rw [hsame _ (Or.inr rfl) (hout s hs).2]; exact h.tgt s (hout s hs).1
  · intro a b hn
    by_cases e : lo ≤ a ∧ b ≤ hi
    · obtain ⟨g1, s, g2, g3⟩ := hshards a b e.1 e.2 hn
      exact ⟨g1, s, by simp [g2], g3⟩
    · rw [hsame _ (Or.inl rfl) e] at hn
      obtain ⟨g1, s, g2, g3, g4⟩ := h.shards a b hn
      rcases hback s g2 with g2 | g2
      · have := hm.mem g2
        exact absurd ⟨by omega, by omega⟩ e
      · exact ⟨g1, s, g2, g3, g4⟩
  · intro a b hn
    by_cases e : lo ≤ a ∧ b ≤ hi
    · obtain ⟨s, g2, g3⟩ := hcompacts a b e.1 e.2 hn
      exact ⟨s, by simp [g2], g3⟩
    · rw [hsame _ (Or.inr rfl) e] at hn
      obtain ⟨s, g2, g3, g4⟩ := h.compacts a b hn
      rcases hback s g2 with g2 | g2
      · have := hm.mem g2
        exact absurd ⟨by omega, by omega⟩ e
      · exact ⟨s, g2, g3, g4⟩

/-- The directory holds exactly the files of the shards (`DirOf` without the order). -/
structure DirF (F : FS) (l : List Shard) : Prop where
  src : ∀ s ∈ l, F s.srcName = some (.good s.src)
  tgt : ∀ s ∈ l, F s.tgtName = s.tgt.map .good
  only : ∀ n, F n ≠ none → ∃ s ∈ l, n = s.srcName ∨ n = s.tgtName

theorem DirOf.dirF {d l} (h : DirOf d l) : d.Nodup ∧ DirF d.find l :=
  ⟨h.nodup, fun s hs => (h.files s hs).1, fun s hs => (h.files s hs).2, h.only⟩

theorem DirF.dirOf {d : Dir} {l} (hn : d.Nodup) (h : DirF d.find l) : DirOf d l :=
  ⟨hn, fun s hs => ⟨h.src s hs, h.tgt s hs⟩, h.only⟩

theorem DirF.recF {cfg F l} (h : DirF F l) (ht : Tiles 0 65536 l) (hok : ∀ s ∈ l, ROK cfg s) : RecF cfg F l where
  tiles := ht
  ok := hok
  src := h.src
  tgt := fun s hs => by
    rw [h.tgt s hs]
    cases s.tgt <;> rfl
  shards := fun a b hn => by
    obtain ⟨s, hs, e | e⟩ := h.only _ hn
    · have := ht.mem hs
      simp only [Shard.srcName, FName.mk.injEq, true_and] at e
      exact ⟨by omega, s, hs, by omega, by omega⟩
    · simp [Shard.tgtName] at e
  compacts := fun a b hn => by
    obtain ⟨s, hs, e | e⟩ := h.only _ hn
    · simp [Shard.srcName] at e
    · simp only [Shard.tgtName, FName.mk.injEq, true_and] at e
      exact ⟨s, hs, e.1.symm, e.2.symm⟩

/-- Replace a part of the shards, changing only files within its span. -/
theorem DirF.local {F F' pre mid mid' post} {lo hi : Nat} (h : DirF F (pre ++ mid ++ post)) (ht : Tiles 0 65536 (pre ++ mid ++ post))
    (hm : Tiles lo hi mid) (hlt : lo < hi) (hm' : Tiles lo hi mid')
    (hsame : ∀ n : FName, ¬ (lo ≤ n.lo ∧ n.hi ≤ hi) → F' n = F n)
    (hsrc : ∀ s ∈ mid', F' s.srcName = some (.good s.src)) (htgt : ∀ s ∈ mid', F' s.tgtName = s.tgt.map .good)
    (honly : ∀ n : FName, lo ≤ n.lo → n.hi ≤ hi → F' n ≠ none → ∃ s ∈ mid', n = s.srcName ∨ n = s.tgtName) :
    DirF F' (pre ++ mid' ++ post) := by
  obtain ⟨h1, h2, h3⟩ := ht.replace hm hlt hm'
  have hout : ∀ s, s ∈ pre ∨ s ∈ post → s ∈ pre ++ mid ++ post ∧ ¬ (lo ≤ s.lo ∧ s.hi ≤ hi) := by
    intro s hs
    rcases hs with hs | hs
    · have := h1.mem hs
      exact ⟨by simp [hs], by omega⟩
    · have := h2.mem hs
      exact ⟨by simp [hs], by omega⟩
  have hsplit : ∀ s, s ∈ pre ++ mid' ++ post → s ∈ mid' ∨ (s ∈ pre ∨ s ∈ post) := by
    intro s hs; simp only [List.mem_append] at hs
    rcases hs with (hs | hs) | hs
    · exact Or.inr (Or.inl hs)
    · exact Or.inl hs
    · exact Or.inr (Or.inr hs)
  refine ⟨?_, ?_, ?_⟩
  · intro s hs
    rcases hsplit s hs with hs | hs
    · exact hsrc s hs
    · rw [hsame s.srcName (hout s hs).2]; exact h.src s (hout s hs).1
  · intro s hs
    rcases hsplit s hs with hs | hs
    · exact htgt s hs
    · rw [hsame s.tgtName (hout s hs).2]; exact h.tgt s (hout s hs).1
  · intro n hn
    by_cases e : lo ≤ n.lo ∧ n.hi ≤ hi
    · obtain ⟨s, g2, g3⟩ := honly n e.1 e.2 hn
      exact ⟨s, by simp [g2], g3⟩
    · rw [hsame _ e] at hn
      obtain ⟨s, g2, g3⟩ := h.only n hn
      simp only [List.mem_append] at g2
      rcases g2 with (g2 | g2) | g2
      · exact ⟨s, by simp [g2], g3⟩
      · have := hm.mem g2
        rcases g3 with g3 | g3 <;> rw [g3] at e <;> exact absurd ⟨by simp [Shard.srcName, Shard.tgtName]; omega, by simp [Shard.srcName, Shard.tgtName]; omega⟩ e
      · exact ⟨s, by simp [g2], g3⟩

end Candy
