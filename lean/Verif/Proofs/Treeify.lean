import Verif.Proofs.Pot
/-!
# Tilings of the selector space; `treeify` builds a well-formed tree from any tiling by dyadic spans
-/
namespace Candy

/-- An aligned power-of-two span. -/
def Dyadic (lo hi : Nat) : Prop := ∃ n, 2 ^ n ∣ lo ∧ hi = lo + 2 ^ n

theorem Dyadic.lt {lo hi} (h : Dyadic lo hi) : lo < hi := by
  obtain ⟨n, _, h⟩ := h; have := Nat.two_pow_pos n; omega

/-- A list of shards covering `lo..hi` without gaps or overlaps, in order. -/
inductive Tiling (cfg : Cfg) (ex : Bool) : Nat → Nat → List Shard → Prop
  | nil {lo : Nat} : Tiling cfg ex lo lo []
  | cons {lo hi : Nat} {s : Shard} {l : List Shard} (hlo : s.lo = lo) (hd : Dyadic s.lo s.hi) (hinv : s.Inv cfg) (ha : s.AcctInv ex)
      (ht : Tiling cfg ex s.hi hi l) : Tiling cfg ex lo hi (s :: l)

theorem Tiling.le {cfg ex lo hi l} (h : Tiling cfg ex lo hi l) : lo ≤ hi := by
  induction h with
  | nil => exact Nat.le_refl _
  | cons hlo hd _ _ _ ih => have := hd.lt; omega

theorem Tiling.nil_eq {cfg ex lo hi} (h : Tiling cfg ex lo hi []) : lo = hi := by
  generalize e : ([] : List Shard) = l at h
  cases h with
  | nil => rfl
  | cons => simp at e

theorem Tiling.append {cfg ex lo mid hi l l'} (h : Tiling cfg ex lo mid l) (h' : Tiling cfg ex mid hi l') :
    Tiling cfg ex lo hi (l ++ l') := by
  induction h with
  | nil => exact h'
  | cons hlo hd hinv ha _ ih => exact .cons hlo hd hinv ha (ih h')

theorem Tiling.single {cfg ex} {s : Shard} (hd : Dyadic s.lo s.hi) (hinv : s.Inv cfg) (ha : s.AcctInv ex) :
    Tiling cfg ex s.lo s.hi [s] := .cons rfl hd hinv ha .nil

theorem Tiling.mem {cfg ex lo hi l} (h : Tiling cfg ex lo hi l) {s : Shard} (hs : s ∈ l) :
    lo ≤ s.lo ∧ s.hi ≤ hi ∧ Dyadic s.lo s.hi ∧ s.Inv cfg ∧ s.AcctInv ex := by
  induction h with
  | nil => simp at hs
  | cons hlo hd hinv ha ht ih =>
    rcases List.mem_cons.1 hs with rfl | hs
    · exact ⟨by omega, ht.le, hd, hinv, ha⟩
    · have := ih hs
      have := hd.lt
      exact ⟨by omega, (ih hs).2⟩

/-- No shard of the tree has an empty span. -/
def Tree.NonDegenerate (t : Tree) : Prop := ∀ s ∈ t.leaves, s.lo < s.hi

theorem Tree.NonDegenerate.vertex {b t : Tree} : (Tree.vertex b t).NonDegenerate ↔ b.NonDegenerate ∧ t.NonDegenerate := by
  unfold Tree.NonDegenerate
  simp only [Tree.leaves_vertex, List.mem_append]
  exact ⟨fun h => ⟨fun s hs => h s (Or.inl hs), fun s hs => h s (Or.inr hs)⟩, fun h s hs => hs.elim (h.1 s) (h.2 s)⟩

theorem Tree.OK.empty_span {cfg ex lo hi t} (h : Tree.OK cfg ex lo hi t) (e : lo = hi) : ∃ s ∈ t.leaves, s.lo = s.hi := by
  induction h with
  | @leaf lo hi s hlo hhi => exact ⟨s, List.mem_singleton.2 rfl, by omega⟩
  | @vertex lo hi b t hle hb ht ih1 ih2 =>
    obtain ⟨s, h1, h2⟩ := ih1 (by unfold midOf; omega)
    exact ⟨s, List.mem_append_left _ h1, h2⟩

/-- The shards of a well-formed tree without empty spans tile its span. -/
theorem Tree.OK.tiling {cfg ex lo hi t} (h : Tree.OK cfg ex lo hi t) (hn : t.NonDegenerate) (hd : Dyadic lo hi) :
    Tiling cfg ex lo hi t.leaves := by
  induction h with
  | @leaf lo hi s hlo hhi hle hinv ha =>
    subst hlo hhi
    exact .single hd hinv ha
  | @vertex lo hi b t hle hb ht ih1 ih2 =>
    rw [Tree.NonDegenerate.vertex] at hn
    obtain ⟨n, h1, h2⟩ := hd
    cases n with
    | zero =>
      exfalso
      have : midOf lo hi = lo := by unfold midOf; rw [h2]; simp; omega
      obtain ⟨s, hs, e⟩ := hb.empty_span this.symm
      have := hn.1 s hs
      omega
    | succ n =>
      have hp := Nat.two_pow_pos n
      have hm : midOf lo hi = lo + 2 ^ n := by unfold midOf; rw [h2, Nat.pow_succ]; omega
      have hdv : 2 ^ n ∣ lo := Nat.dvd_trans ⟨2, by rw [Nat.pow_succ]⟩ h1
      exact Tiling.append (ih1 hn.1 ⟨n, hdv, hm⟩) (ih2 hn.2 ⟨n, by rw [hm]; exact Nat.dvd_add hdv (Nat.dvd_refl _), by
        rw [hm, h2, Nat.pow_succ]; omega⟩)

/-- The contents of a well-formed tree are those of its shards together. -/
theorem Tree.OK.get_iff {cfg ex lo hi t} (h : Tree.OK cfg ex lo hi t) {k v : Bytes} (hk : inSpan lo hi (cfg.ph k).shardSel) :
    t.get cfg k = some v ↔ ∃ s ∈ t.leaves, s.val cfg k = some v := by
  have hbd : ∀ lo hi t, Tree.OK cfg ex lo hi t → ∀ s ∈ t.leaves, lo ≤ s.lo ∧ s.hi ≤ hi ∧ s.Inv cfg := by
    intro lo hi t h
    induction h with
    | @leaf lo hi s hlo hhi hle hinv =>
      intro x hx; rw [Tree.leaves_leaf, List.mem_singleton] at hx; subst hx
      exact ⟨by omega, by omega, hinv⟩
    | @vertex lo hi b t hle hb ht ih1 ih2 =>
      intro x hx
      have := midOf_bounds hle
      rw [Tree.leaves_vertex, List.mem_append] at hx
      rcases hx with hx | hx
      · have := ih1 x hx; exact ⟨by omega, by omega, this.2.2⟩
      · have := ih2 x hx; exact ⟨by omega, by omega, this.2.2⟩
  induction h with
  | @leaf lo hi s hlo hhi hle hinv ha =>
    rw [Tree.get_leaf, Tree.leaves_leaf]; simp
  | @vertex lo hi b t hle hb ht ih1 ih2 =>
    rw [Tree.get_vertex, hb.hi_eq, Tree.leaves_vertex]
    by_cases e : (cfg.ph k).shardSel < midOf lo hi
    · rw [if_pos e]
      refine (ih1 ⟨hk.1, e⟩).trans ?_
      constructor
      · rintro ⟨s, hs, hv⟩; exact ⟨s, List.mem_append_left _ hs, hv⟩
      · rintro ⟨s, hs, hv⟩
        rcases List.mem_append.1 hs with hs | hs
        · exact ⟨s, hs, hv⟩
        · have := hbd _ _ _ ht s hs
          have := this.2.2.val_span hv
          omega
    · rw [if_neg e]
      refine (ih2 ⟨by omega, hk.2⟩).trans ?_
      constructor
      · rintro ⟨s, hs, hv⟩; exact ⟨s, List.mem_append_right _ hs, hv⟩
      · rintro ⟨s, hs, hv⟩
        rcases List.mem_append.1 hs with hs | hs
        · have := hbd _ _ _ hb s hs
          have := this.2.2.val_span hv
          omega
        · exact ⟨s, hs, hv⟩

theorem option_ext_some {α : Type} {a b : Option α} (h : ∀ v, a = some v ↔ b = some v) : a = b := by
  cases a with
  | none =>
    cases b with
    | none => rfl
    | some y => exact absurd ((h y).2 rfl) (by simp)
  | some x => exact ((h x).1 rfl).symm

/-! ## treeify -/

/-- Intermediate state of `treeify`: subtrees of size at least `2^j` tiling `lo..hi`. -/
inductive Nodes (cfg : Cfg) (ex : Bool) (j : Nat) : Nat → Nat → List Tree → Prop
  | nil {lo : Nat} : Nodes cfg ex j lo lo []
  | cons {lo hi n : Nat} {t : Tree} {l : List Tree} (hn : j ≤ n) (hdv : 2 ^ n ∣ lo) (hok : Tree.OK cfg ex lo (lo + 2 ^ n) t)
      (hnd : t.NonDegenerate) (ht : Nodes cfg ex j (lo + 2 ^ n) hi l) : Nodes cfg ex j lo hi (t :: l)

theorem Nodes.le {cfg ex j lo hi l} (h : Nodes cfg ex j lo hi l) : lo ≤ hi := by
  induction h with
  | nil => exact Nat.le_refl _
  | cons _ _ _ _ _ ih => omega

def allLeaves (l : List Tree) : List Shard := (l.map Tree.leaves).flatten

theorem pow_dvd_of_le {a b : Nat} (h : a ≤ b) : 2 ^ a ∣ 2 ^ b := Nat.pow_dvd_pow 2 h

theorem Tree.OK.len {cfg ex lo n t} (h : Tree.OK cfg ex lo (lo + 2 ^ n) t) : t.len = 2 ^ n := by
  unfold Tree.len; rw [h.hi_eq, h.lo_eq, Nat.add_sub_cancel_left]

theorem pow2_inj {a b : Nat} (h : 2 ^ a = 2 ^ b) : a = b := (Nat.pow_right_inj (by decide)).1 h

theorem pow2_not_dvd {j p : Nat} (h : 2 ^ (j + 1) ∣ p) (h' : 2 ^ (j + 1) ∣ p + 2 ^ j) : False := by
  have := (Nat.dvd_add_right h).1 h'
  have := Nat.le_of_dvd (Nat.two_pow_pos j) this
  have hp := Nat.two_pow_pos j
  rw [Nat.pow_succ] at this; omega

theorem pairUp_spec {cfg ex j} : ∀ (m : Nat) (l : List Tree) (lo hi : Nat), l.length ≤ m → Nodes cfg ex j lo hi l →
    2 ^ (j + 1) ∣ lo → 2 ^ (j + 1) ∣ hi →
    Nodes cfg ex (j + 1) lo hi (pairUp (2 ^ j) l) ∧ allLeaves (pairUp (2 ^ j) l) = allLeaves l
  | m, [], lo, hi, _, h, _, _ => by
    cases h with
    | nil => exact ⟨.nil, rfl⟩
  | m, [a], lo, hi, _, h, h1, h2 => by
    cases h with
    | @cons _ _ n _ _ hn hdv hok hnd ht =>
      cases ht with
      | nil =>
        refine ⟨?_, rfl⟩
        have : j ≠ n := by rintro rfl; exact pow2_not_dvd h1 h2
        exact .cons (by omega) hdv hok hnd .nil
  | 0, _ :: _ :: _, _, _, hlen, _, _, _ => by simp at hlen
  | m + 1, a :: b :: rest, lo, hi, hlen, h, h1, h2 => by
    have hp := Nat.two_pow_pos j
    cases h with
    | @cons _ _ n _ _ hn hdv hok hnd ht =>
      unfold pairUp
      by_cases e : n = j
      · subst e
        cases ht with
        | @cons _ _ n' _ _ hn' hdv' hok' hnd' ht' =>
          have e' : n' = n := by
            apply Nat.le_antisymm _ hn'
            apply Nat.le_of_not_lt
            intro hlt
            exact pow2_not_dvd h1 (Nat.dvd_trans (pow_dvd_of_le (by omega : n + 1 ≤ n')) hdv')
          subst e'
          rw [if_pos ⟨hok.len, hok'.len⟩]
          have hadd : lo + 2 ^ n' + 2 ^ n' = lo + 2 ^ (n' + 1) := by rw [Nat.pow_succ]; omega
          rw [hadd] at ht' hok'
          obtain ⟨i1, i2⟩ := pairUp_spec m rest _ _ (by simp at hlen ⊢; omega) ht' (Nat.dvd_add h1 (Nat.dvd_refl _)) h2
          refine ⟨.cons (Nat.le_refl _) h1 ?_ ?_ i1, ?_⟩
          · have hm : midOf lo (lo + 2 ^ (n' + 1)) = lo + 2 ^ n' := by unfold midOf; rw [Nat.pow_succ]; omega
            exact .vertex (by omega) (by rw [hm]; exact hok) (by rw [hm]; exact hok')
          · exact Tree.NonDegenerate.vertex.2 ⟨hnd, hnd'⟩
          · unfold allLeaves at i2 ⊢
            simp only [List.map_cons, List.flatten_cons, i2, Tree.leaves_vertex, List.append_assoc]
      · rw [if_neg (by rw [hok.len]; intro hx; exact e (pow2_inj hx.1))]
        obtain ⟨i1, i2⟩ := pairUp_spec m (b :: rest) _ _ (by simp at hlen ⊢; omega) ht
          (Nat.dvd_add h1 (pow_dvd_of_le (by omega))) h2
        refine ⟨.cons (by omega) hdv hok hnd i1, ?_⟩
        unfold allLeaves at i2 ⊢
        simp only [List.map_cons, List.flatten_cons, i2]

theorem treeLoop_spec {cfg ex} : ∀ (m j : Nat) (l : List Tree), 16 ≤ m + j → j ≤ 16 → Nodes cfg ex j 0 65536 l →
    Nodes cfg ex 16 0 65536 (treeLoop (m + 1) (2 ^ j) l) ∧ allLeaves (treeLoop (m + 1) (2 ^ j) l) = allLeaves l
  | m, j, l, hm, hj, h => by
    by_cases e : j = 16
    · subst e
      unfold treeLoop
      rw [if_neg (by decide)]
      exact ⟨h, rfl⟩
    · have hlt : (2 : Nat) ^ j < 65536 := by
        have := Nat.pow_lt_pow_right (a := 2) (by decide) (show j < 16 by omega)
        omega
      have h16 : (65536 : Nat) = 2 ^ 16 := by decide
      obtain ⟨h1, h2⟩ := pairUp_spec l.length l 0 65536 (Nat.le_refl _) h (Nat.dvd_zero _)
        (by rw [h16]; exact pow_dvd_of_le (by omega))
      cases m with
      | zero => omega
      | succ m =>
        unfold treeLoop
        rw [if_pos hlt, ← Nat.pow_succ]
        obtain ⟨g1, g2⟩ := treeLoop_spec m (j + 1) _ (by omega) (by omega) h1
        exact ⟨g1, g2.trans h2⟩

theorem Nodes.root {cfg ex l} (h : Nodes cfg ex 16 0 65536 l) : ∃ t, l = [t] ∧ Tree.OK cfg ex 0 65536 t ∧ t.NonDegenerate := by
  cases h with
  | @cons _ _ n t l hn hdv hok hnd ht =>
    have hle := ht.le
    have hn16 : n = 16 := by
      apply Nat.le_antisymm _ hn
      apply Nat.le_of_not_lt
      intro hlt
      have := Nat.pow_lt_pow_right (a := 2) (by decide) hlt
      omega
    subst hn16
    cases ht with
    | nil => exact ⟨t, rfl, hok, hnd⟩
    | @cons _ _ n' t' l' _ _ hok' _ ht' =>
      have := ht'.le
      have := Nat.two_pow_pos n'
      omega

theorem isPow2_pow (n : Nat) : isPow2 (2 ^ n) = true := by
  unfold isPow2
  have := Nat.two_pow_pos n
  simp [Nat.log2_two_pow]

/-- The smallest span of a tiling. -/
theorem unit_spec {cfg ex lo hi l} (h : Tiling cfg ex lo hi l) : ∀ j, j ≤ 16 → hi ≤ 65536 →
    ∃ j', j' ≤ j ∧ ((l.map Tree.leaf).map Tree.len).foldl (fun u l => if l < u then l else u) (2 ^ j) = 2 ^ j' ∧
      Nodes cfg ex j' lo hi (l.map Tree.leaf) := by
  induction h with
  | nil => intro j _ _; exact ⟨j, Nat.le_refl _, rfl, .nil⟩
  | @cons lo hi s l hlo hd hinv ha ht ih =>
    subst hlo
    intro j hj hh
    obtain ⟨n, hdv, e⟩ := hd
    have hlen : (Tree.leaf s).len = 2 ^ n := by show s.hi - s.lo = _; omega
    have mono : ∀ {j lo hi l} {j'}, j' ≤ j → Nodes cfg ex j lo hi l → Nodes cfg ex j' lo hi l := by
      intro j lo hi l j' hjj h
      induction h with
      | nil => exact .nil
      | cons hn hdv hok hnd _ ih => exact .cons (by omega) hdv hok hnd ih
    have hok : Tree.OK cfg ex s.lo (s.lo + 2 ^ n) (.leaf s) := .leaf rfl e (by omega) hinv ha
    have hnd : (Tree.leaf s).NonDegenerate := by
      intro x hx; rw [Tree.leaves_leaf, List.mem_singleton] at hx; subst hx
      have := Nat.two_pow_pos n; omega
    simp only [List.map_cons, List.foldl_cons, hlen]
    by_cases hlt : 2 ^ n < 2 ^ j
    · rw [if_pos hlt]
      have hnj : n < j := (Nat.pow_lt_pow_iff_right (by decide)).1 hlt
      obtain ⟨j', h1, h2, h3⟩ := ih n (by omega) hh
      refine ⟨j', by omega, h2, .cons h1 hdv hok hnd ?_⟩
      rw [← e]; exact h3
    · rw [if_neg hlt]
      have hnj : j ≤ n := by
        apply Nat.le_of_not_lt
        intro hx; exact hlt ((Nat.pow_lt_pow_iff_right (by decide)).2 hx)
      obtain ⟨j', h1, h2, h3⟩ := ih j hj hh
      refine ⟨j', h1, h2, .cons (by omega) hdv hok hnd ?_⟩
      rw [← e]; exact h3

theorem Tiling.sorted {cfg ex lo hi l} (h : Tiling cfg ex lo hi l) : l.Pairwise (fun a b => a.lo < b.lo) := by
  induction h with
  | nil => exact List.Pairwise.nil
  | cons hlo hd hinv ha ht ih =>
    refine List.Pairwise.cons ?_ ih
    intro b hb
    have := (ht.mem hb).1
    have := hd.lt
    omega

theorem Tiling.sortedByStart {cfg ex lo hi l} (h : Tiling cfg ex lo hi l) : sortedByStart l = true := by
  have hp := h.sorted
  clear h
  induction l with
  | nil => rfl
  | cons a l ih =>
    cases l with
    | nil => rfl
    | cons b l =>
      rw [List.pairwise_cons] at hp
      unfold Candy.sortedByStart
      rw [ih hp.2, decide_eq_true (hp.1 b List.mem_cons_self)]; rfl

theorem allLeaves_map (l : List Shard) : allLeaves (l.map Tree.leaf) = l := by
  unfold allLeaves
  induction l with
  | nil => rfl
  | cons a l ih => simp only [List.map_cons, List.flatten_cons, ih]; rfl

/-- `treeify` succeeds on every tiling and builds a well-formed tree with the same shards. -/
theorem treeify_spec {cfg ex l} (h : Tiling cfg ex 0 65536 l) :
    ∃ t, treeify l = some t ∧ Tree.OK cfg ex 0 65536 t ∧ t.NonDegenerate ∧ t.leaves = l := by
  obtain ⟨j, h1, h2, h3⟩ := unit_spec h 16 (Nat.le_refl _) (Nat.le_refl _)
  obtain ⟨g1, g2⟩ := treeLoop_spec 16 j _ (by omega) h1 h3
  obtain ⟨t, e, hok, hnd⟩ := g1.root
  have hu : ((l.map Tree.leaf).map Tree.len).foldl (fun u l => if l < u then l else u) END_OF_SHARDS = 2 ^ j := h2
  have hsorted := h.sortedByStart
  have hne : l ≠ [] := by rintro rfl; cases h
  have hone : ¬ (l.length ≤ 1 ∧ 2 ^ j ≠ 65536) := by
    rintro ⟨hl, hj⟩
    cases h with
    | @cons _ _ s l elo hd hinv ha ht =>
      have : l = [] := by
        cases l with
        | nil => rfl
        | cons a b => simp at hl
      subst this
      have ehi : s.hi = 65536 := ht.nil_eq
      have : (Tree.leaf s).len = 65536 := by show s.hi - s.lo = _; omega
      rw [List.map_cons, List.map_nil, List.map_cons, List.map_nil, List.foldl_cons, List.foldl_nil, this, if_neg (by decide)] at hu
      exact hj hu.symm
  refine ⟨t, ?_, hok, hnd, ?_⟩
  · unfold treeify
    dsimp only
    rw [hu, isPow2_pow, e]
    have hlen : (l.map Tree.leaf).length ≠ 0 := by simpa using hne
    rw [if_neg]
    simp only [List.length_map] at hlen ⊢
    rw [hsorted]
    simp only [Bool.not_true, Bool.or_eq_true, Bool.false_or, beq_iff_eq, Bool.and_eq_true, decide_eq_true_eq, bne_iff_ne]
    rintro (hx | hx)
    · exact hlen hx
    · exact hone hx
  · rw [e] at g2
    have : allLeaves [t] = t.leaves := by simp [allLeaves]
    rw [← this, g2, allLeaves_map]

/-! ## Initial shards -/

theorem initialSpans_tiling {cfg ex j} (hj : j ≤ 16) : ∀ (n : Nat) (start : Nat), 2 ^ j ∣ start → start ≤ 65536 →
    65536 ≤ start + n →
    Tiling cfg ex start 65536 ((initialSpans (2 ^ j) n start).map (fun p => ⟨p.1, p.2, MFile.empty, none⟩))
  | 0, start, _, h1, h2 => by
    have : start = 65536 := by omega
    subst this; exact .nil
  | n + 1, start, hd, h1, h2 => by
    have hp := Nat.two_pow_pos j
    unfold initialSpans
    split
    · rename_i hlt
      have h16 : (65536 : Nat) = 2 ^ 16 := by decide
      have hlt' : start < 65536 := hlt
      have hle : start + 2 ^ j ≤ 65536 := by
        have d2 : 2 ^ j ∣ 65536 - start := Nat.dvd_sub (by rw [h16]; exact pow_dvd_of_le hj) hd
        have := Nat.le_of_dvd (by omega) d2
        omega
      rw [List.map_cons]
      exact Tiling.cons (s := ⟨start, start + 2 ^ j, MFile.empty, none⟩) rfl ⟨j, hd, rfl⟩ (quiet_inv (FileOK.empty ..))
        (quiet_acct Acct.empty) (initialSpans_tiling hj n (start + 2 ^ j) (Nat.dvd_add hd (Nat.dvd_refl _)) hle (by omega))
    · rename_i hlt
      have hlt' : ¬ start < 65536 := hlt
      have : start = 65536 := by omega
      subst this; exact .nil

theorem log2_le_16 {x : Nat} (h0 : x ≠ 0) (h : x ≤ 65536) : Nat.log2 x ≤ 16 := by
  have h1 := Nat.log2_self_le h0
  apply Nat.le_of_not_lt
  intro hlt
  have := Nat.pow_lt_pow_right (a := 2) (by decide) hlt
  omega

theorem calcStep_spec {n : Nat} (h : n ≤ 65536 * 29491) : ∃ j, j ≤ 16 ∧ calcStep n = some (2 ^ j) := by
  unfold calcStep
  dsimp only
  split
  · refine ⟨16, Nat.le_refl _, ?_⟩
    rw [if_neg (by decide)]; decide
  · rename_i hlt
    have hpos : 0 < n := by omega
    have hne : END_OF_SHARDS * EXPECTED_CAPACITY / n ≠ 0 := by
      have : 1 ≤ 65536 * 29491 / n := (Nat.le_div_iff_mul_le hpos).2 (by omega)
      show 65536 * 29491 / n ≠ 0
      exact Nat.pos_iff_ne_zero.1 this
    rw [if_neg hne]
    refine ⟨_, log2_le_16 hne ?_, rfl⟩
    apply Nat.div_le_of_le_mul
    have : EXPECTED_CAPACITY ≤ n := by omega
    rw [Nat.mul_comm]
    exact Nat.mul_le_mul_right _ this

theorem calcStep_none {n : Nat} (h : 65536 * 29491 < n) : calcStep n = none := by
  unfold calcStep
  dsimp only
  rw [if_neg (show ¬ n ≤ 29491 by omega)]
  exact if_pos (Nat.div_eq_of_lt h)

theorem empty_val {cfg lo hi} (k : Bytes) : (quiet lo hi MFile.empty).val cfg k = none := by
  apply quiet_val (FileOK.empty ..)
  intro v hm
  obtain ⟨c, _, hl⟩ := mem_liveRow.1 hm
  rw [empty_live] at hl
  exact absurd hl (by simp)

/-- Creating a store: a well-formed, empty tree. -/
theorem Tree.create_spec {cfg : Cfg} (h : cfg.expectedKeys ≤ 65536 * 29491) (ex : Bool) :
    ∃ t, Tree.create cfg = some t ∧ Tree.OK cfg ex 0 65536 t ∧ t.NonDegenerate ∧ t.Small ∧ t.pot = 0 ∧ t.Quiet ∧
      (∀ s ∈ t.leaves, s.src = MFile.empty) ∧ ∀ k, t.get cfg k = none := by
  obtain ⟨j, hj, e⟩ := calcStep_spec h
  have htile := initialSpans_tiling (cfg := cfg) (ex := ex) hj END_OF_SHARDS 0 (Nat.dvd_zero _) (by decide) (by decide)
  obtain ⟨t, h1, h2, h3, h4⟩ := treeify_spec htile
  have hmem : ∀ s ∈ t.leaves, s.src = MFile.empty ∧ s.tgt = none := by
    intro s hs
    rw [h4, List.mem_map] at hs
    obtain ⟨p, _, rfl⟩ := hs
    exact ⟨rfl, rfl⟩
  have hproj : ∀ s ∈ t.leaves, s.proj = 0 := by
    intro s hs
    have := hmem s hs
    unfold Shard.proj; rw [this.2, this.1]; rfl
  refine ⟨t, ?_, h2, h3, ?_, ?_, fun s hs => (hmem s hs).2, fun s hs => (hmem s hs).1, ?_⟩
  · unfold Tree.create createInitialShards
    rw [e]; exact h1
  · intro s hs
    rw [Shard.small_iff, hproj s hs]; decide
  · unfold Tree.pot
    have : ∀ l : List Shard, (∀ s ∈ l, s.proj = 0) → (l.map Shard.proj).sum = 0 := by
      intro l hl
      induction l with
      | nil => rfl
      | cons a l ih =>
        rw [List.map_cons, List.sum_cons, hl a List.mem_cons_self, ih (fun s hs => hl s (List.mem_cons_of_mem _ hs))]
    exact this _ hproj
  · intro k
    apply option_ext_some
    intro v
    rw [h2.get_iff ⟨Nat.zero_le _, (cfg.ph k).shardSel_lt⟩]
    constructor
    · rintro ⟨s, hs, hv⟩
      have := hmem s hs
      obtain ⟨lo, hi, src, tgt⟩ := s
      simp only at this
      obtain ⟨rfl, rfl⟩ := this
      have e := empty_val (cfg := cfg) (lo := lo) (hi := hi) k
      unfold quiet at e
      rw [e] at hv; exact absurd hv (by simp)
    · intro hx; exact absurd hx (by simp)

end Candy
