import Verif.Proofs.Treeify
/-!
# Merging of small shards preserves the contents
-/
namespace Candy

/-- The pairs held by a list of shards. -/
def Holds (cfg : Cfg) (l : List Shard) (k v : Bytes) : Prop := ∃ s ∈ l, s.val cfg k = some v

theorem Holds.append {cfg l l' k v} : Holds cfg (l ++ l') k v ↔ Holds cfg l k v ∨ Holds cfg l' k v := by
  unfold Holds
  constructor
  · rintro ⟨s, hs, hv⟩
    rcases List.mem_append.1 hs with h | h
    · exact Or.inl ⟨s, h, hv⟩
    · exact Or.inr ⟨s, h, hv⟩
  · rintro (⟨s, hs, hv⟩ | ⟨s, hs, hv⟩)
    · exact ⟨s, List.mem_append_left _ hs, hv⟩
    · exact ⟨s, List.mem_append_right _ hs, hv⟩

theorem Holds.single {cfg s k v} : Holds cfg [s] k v ↔ s.val cfg k = some v := by
  unfold Holds; simp

/-- Live bytes and live entries of a list of shards. -/
def totW (w : KV → Nat) (l : List Shard) : Nat := (l.map (fun s => fileW w s.src)).sum

theorem totW_append (w : KV → Nat) (l l' : List Shard) : totW w (l ++ l') = totW w l + totW w l' := by
  unfold totW; rw [List.map_append, List.sum_append_nat]

theorem totW_cons (w : KV → Nat) (s : Shard) (l : List Shard) : totW w (s :: l) = fileW w s.src + totW w l := by
  unfold totW; rw [List.map_cons, List.sum_cons]

/-- Total size of the data areas. -/
def totOff (l : List Shard) : Nat := (l.map (fun s => s.src.writeOff)).sum

theorem totOff_append (l l' : List Shard) : totOff (l ++ l') = totOff l + totOff l' := by
  unfold totOff; rw [List.map_append, List.sum_append_nat]

theorem totOff_cons (s : Shard) (l : List Shard) : totOff (s :: l) = s.src.writeOff + totOff l := by
  unfold totOff; rw [List.map_cons, List.sum_cons]

theorem rowW_le_mul {f : MFile} {r : Nat} : rowW kvSize f r ≤ 131070 * rowW (fun _ => 1) f r := by
  rw [rowW_eq, rowW_eq]
  have : ∀ l : List KV, (∀ kv ∈ l, kv.1.length < 65536 ∧ kv.2.length < 65536) →
      (l.map kvSize).sum ≤ 131070 * (l.map (fun _ => 1)).sum := by
    intro l h
    induction l with
    | nil => simp
    | cons a l ih =>
      have h1 := h a List.mem_cons_self
      have h2 := ih (fun kv hkv => h kv (List.mem_cons_of_mem _ hkv))
      simp only [List.map_cons, List.sum_cons] at h2 ⊢
      have : kvSize a ≤ 131070 := by unfold kvSize; omega
      omega
  exact this _ (fun kv hkv => liveRow_sizes hkv)

theorem liveBytes_le_mul (f : MFile) : liveBytes f ≤ 131070 * liveCount f := by
  unfold liveBytes liveCount fileW
  have : ∀ n, sumTo n (rowW kvSize f) ≤ 131070 * sumTo n (rowW (fun _ => 1) f) := by
    intro n
    induction n with
    | zero => simp [sumTo]
    | succ n ih =>
      have := rowW_le_mul (f := f) (r := n)
      unfold sumTo
      omega
  exact this _

/-- The merged shards stay below 4 GiB: either the counters are exact and the fill limit is the documented one, or all the data
together is below 4 GiB. -/
def Fits (ex : Bool) (maxFill : Nat) (l : List Shard) : Prop :=
  (ex = true ∧ maxFill ≤ 14745) ∨ totW kvSize l < 4294967296

theorem Fits.mono {ex maxFill l l'} (h : Fits ex maxFill l) (hw : totW kvSize l' ≤ totW kvSize l) : Fits ex maxFill l' := by
  rcases h with h | h
  · exact Or.inl h
  · exact Or.inr (Nat.lt_of_le_of_lt hw h)

/-- What `_merge` preserves. -/
structure Merged (cfg : Cfg) (ex : Bool) (lo hi : Nat) (l : List Shard) (n : Nat) (r : MergeOut) : Prop where
  tiling : Tiling cfg ex lo hi r.shards
  quiet : ∀ s ∈ r.shards, s.tgt = none
  small : ∀ s ∈ r.shards, s.src.writeOff < 4294967296
  holds : ∀ k v, Holds cfg r.shards k v ↔ Holds cfg l k v
  weight : ∀ w, totW w r.shards = totW w l
  off : totOff r.shards ≤ totOff l
  merged : ∀ m, r.merged = some m → r.shards = [m] ∧ m.lo = lo ∧ m.hi = hi
  count : r.shards.length + n = l.length + r.remaining
  rem : r.remaining ≤ n
  /-- every shard of the result was there before, or is free of waste -/
  origin : ∀ s ∈ r.shards, s ∈ l ∨ s.src.writeOff = fileW kvSize s.src

/-- Merging two adjacent sibling shards. -/
theorem mergeLeaves_spec {cfg : Cfg} {ex : Bool} {maxFill lo hi n : Nat} {b t : Shard} (hd : Dyadic lo hi)
    (hbl : b.lo = lo) (hadj : b.hi = t.lo) (hth : t.hi = hi) (hbd : Dyadic b.lo b.hi) (htd : Dyadic t.lo t.hi)
    (hb : b.Inv cfg) (ht : t.Inv cfg) (hba : b.AcctInv ex) (hta : t.AcctInv ex)
    (hbq : b.tgt = none) (htq : t.tgt = none) (hbs : b.src.writeOff < 4294967296) (hts : t.src.writeOff < 4294967296)
    (hfit : Fits ex maxFill [b, t]) (hn : 0 < n) :
    ∃ r, mergeLeaves cfg maxFill b t n = .ok r ∧ Merged cfg ex lo hi [b, t] n r := by
  have hsame : Merged cfg ex lo hi [b, t] n ⟨[b, t], none, n⟩ := by
    constructor
    · exact .cons hbl hbd hb hba (.cons hadj.symm htd ht hta (by rw [hth]; exact .nil))
    · intro s hs; simp at hs; rcases hs with rfl | rfl <;> assumption
    · intro s hs; simp at hs; rcases hs with rfl | rfl <;> assumption
    · intro k v; exact Iff.rfl
    · intro w; rfl
    · exact Nat.le_refl _
    · intro m hm; simp at hm
    · rfl
    · exact Nat.le_refl _
    · intro s hs; exact Or.inl hs
  unfold mergeLeaves
  split
  · exact ⟨_, rfl, hsame⟩
  · rename_i h1
    split
    · exact ⟨_, rfl, hsame⟩
    · rename_i h2
      have hsm : liveBytes b.src + liveBytes t.src < 4294967296 := by
        rcases hfit with ⟨rfl, hm⟩ | hfit
        · have c1 := hba.1.count
          have c2 := hta.1.count
          have l1 := liveBytes_le_mul b.src
          have l2 := liveBytes_le_mul t.src
          simp only [Shard.getStats, ShardStats.numItems] at h1 h2
          omega
        · simp only [totW_cons] at hfit
          have : totW kvSize [] = 0 := rfl
          unfold liveBytes; omega
      have hble := Nat.le_of_lt hbd.lt
      have htle := Nat.le_of_lt htd.lt
      rcases Shard.merge_spec hb ht hadj hble htle hbq htq hsm with e | ⟨f, e, hf, ha, hrows, hoff, hval⟩
      · rw [e]; exact ⟨_, rfl, hsame⟩
      · rw [e]
        refine ⟨_, rfl, ?_⟩
        subst hbl hth
        have hfw : ∀ w, fileW w f = fileW w b.src + fileW w t.src := by
          intro w
          unfold fileW
          rw [← sumTo_add]
          apply sumTo_congr
          intro r hr
          rw [rowW_eq, rowW_eq, rowW_eq, hrows r hr, List.map_append, List.sum_append_nat]
        constructor
        · exact .cons rfl hd (quiet_inv hf) (quiet_acct ha) .nil
        · intro s hs; simp at hs; subst hs; rfl
        · intro s hs; simp at hs; subst hs; show f.writeOff < _; omega
        · intro k v
          rw [Holds.single, hval, show [b, t] = [b] ++ [t] from rfl, Holds.append, Holds.single, Holds.single]
          split
          · constructor
            · exact Or.inl
            · rintro (h | h)
              · exact h
              · have := ht.val_span h; omega
          · constructor
            · exact Or.inr
            · rintro (h | h)
              · have := hb.val_span h; omega
              · exact h
        · intro w
          rw [totW_cons, totW_cons, totW_cons]
          show fileW w f + _ = _
          have := hfw w
          omega
        · have := hba.1.bytes
          have := hta.1.bytes
          rw [totOff_cons, totOff_cons, totOff_cons]
          show f.writeOff + _ ≤ _
          omega
        · intro m hm
          simp only [Option.some.injEq] at hm
          subst hm
          exact ⟨rfl, rfl, rfl⟩
        · simp; omega
        · exact Nat.sub_le _ _
        · intro s hs
          simp at hs
          subst hs
          right
          show f.writeOff = fileW kvSize f
          rw [hfw, hoff]; rfl

theorem Tree.isLeaf_some {t : Tree} {s : Shard} (h : t.isLeaf = some s) : t = .leaf s := by
  cases t with
  | leaf s' => simp [Tree.isLeaf] at h; rw [h]
  | vertex => simp [Tree.isLeaf] at h

theorem Merged.refl {cfg ex lo hi l n} (ht : Tiling cfg ex lo hi l) (hq : ∀ s ∈ l, s.tgt = none) (hs : ∀ s ∈ l, s.src.writeOff < 4294967296) :
    Merged cfg ex lo hi l n ⟨l, none, n⟩ :=
  ⟨ht, hq, hs, fun _ _ => Iff.rfl, fun _ => rfl, Nat.le_refl _, by simp, rfl, Nat.le_refl _, fun _ hs => Or.inl hs⟩

theorem Merged.join {cfg ex lo mid hi l1 l2 n r1 r2} (h1 : Merged cfg ex lo mid l1 n r1) (h2 : Merged cfg ex mid hi l2 r1.remaining r2) {m} (hm : m = r2.remaining) :
    Merged cfg ex lo hi (l1 ++ l2) n ⟨r1.shards ++ r2.shards, none, m⟩ := by
  subst hm
  constructor
  · exact h1.tiling.append h2.tiling
  · intro s hs; rcases List.mem_append.1 hs with h | h; exact h1.quiet s h; exact h2.quiet s h
  · intro s hs; rcases List.mem_append.1 hs with h | h; exact h1.small s h; exact h2.small s h
  · intro k v; rw [Holds.append, Holds.append, h1.holds, h2.holds]
  · intro w; rw [totW_append, totW_append, h1.weight, h2.weight]
  · rw [totOff_append, totOff_append]; have := h1.off; have := h2.off; omega
  · intro m hm; simp at hm
  · have := h1.count; have := h2.count; simp only [List.length_append]; omega
  · exact Nat.le_trans h2.rem h1.rem
  · intro s hs
    rcases List.mem_append.1 hs with h | h
    · exact (h1.origin s h).imp (List.mem_append_left _) id
    · exact (h2.origin s h).imp (List.mem_append_right _) id

theorem Dyadic.mid {lo hi : Nat} (hd : Dyadic lo hi) (h1 : lo < midOf lo hi) : Dyadic lo (midOf lo hi) ∧ Dyadic (midOf lo hi) hi := by
  obtain ⟨n, h2, h3⟩ := hd
  cases n with
  | zero => exfalso; simp at h3; subst h3; unfold midOf at h1; omega
  | succ n =>
    have hp := Nat.two_pow_pos n
    have hm : midOf lo hi = lo + 2 ^ n := by unfold midOf; rw [h3, Nat.pow_succ]; omega
    have hdv : 2 ^ n ∣ lo := Nat.dvd_trans ⟨2, by rw [Nat.pow_succ]⟩ h2
    exact ⟨⟨n, hdv, hm⟩, ⟨n, by rw [hm]; exact Nat.dvd_add hdv (Nat.dvd_refl _), by rw [hm, h3, Nat.pow_succ]; omega⟩⟩

theorem Tree.OK.mid_lt {cfg ex lo hi b t} (hb : Tree.OK cfg ex lo (midOf lo hi) b) (hn : (Tree.vertex b t).NonDegenerate) :
    lo < midOf lo hi := by
  have := hb.le
  rcases Nat.lt_or_eq_of_le this with h | h
  · exact h
  · obtain ⟨s, hs, e⟩ := hb.empty_span h
    have := (Tree.NonDegenerate.vertex.1 hn).1 s hs
    omega

/-- `_merge` either blocks forever or preserves everything. -/
theorem Tree.mergeRec_spec {cfg : Cfg} {ex : Bool} {maxFill : Nat} : ∀ (t : Tree) (n lo hi : Nat), Tree.OK cfg ex lo hi t →
    t.Quiet → t.NonDegenerate → Dyadic lo hi → (∀ s ∈ t.leaves, s.src.writeOff < 4294967296) → Fits ex maxFill t.leaves →
    t.mergeRec cfg maxFill n = .deadlock ∨ ∃ r, t.mergeRec cfg maxFill n = .ok r ∧ Merged cfg ex lo hi t.leaves n r
  | .leaf s, n, lo, hi, hok, hq, hn, hd, hs, hfit => by
    refine Or.inr ⟨_, rfl, Merged.refl (hok.tiling hn hd) hq hs⟩
  | .vertex b t, 0, lo, hi, hok, hq, hn, hd, hs, hfit => Or.inr ⟨_, rfl, Merged.refl (hok.tiling hn hd) hq hs⟩
  | .vertex b t, n + 1, lo, hi, hok, hq, hn, hd, hs, hfit => by
    cases hok with
    | vertex hle hb ht =>
      have hn' := Tree.NonDegenerate.vertex.1 hn
      obtain ⟨hd1, hd2⟩ := hd.mid (hb.mid_lt hn)
      have hqb : b.Quiet := fun s hs => hq s (List.mem_append_left _ hs)
      have hqt : t.Quiet := fun s hs => hq s (List.mem_append_right _ hs)
      have hsb : ∀ s ∈ b.leaves, s.src.writeOff < 4294967296 := fun s hm => hs s (List.mem_append_left _ hm)
      have hst : ∀ s ∈ t.leaves, s.src.writeOff < 4294967296 := fun s hm => hs s (List.mem_append_right _ hm)
      have hfb : Fits ex maxFill b.leaves := hfit.mono (by rw [Tree.leaves_vertex, totW_append]; omega)
      have hft : Fits ex maxFill t.leaves := hfit.mono (by rw [Tree.leaves_vertex, totW_append]; omega)
      have rt := hb.tiling hn'.1 hd1
      have tt := ht.tiling hn'.2 hd2
      have ihb := fun m => Tree.mergeRec_spec (maxFill := maxFill) b m _ _ hb hqb hn'.1 hd1 hsb hfb
      have iht := fun m => Tree.mergeRec_spec (maxFill := maxFill) t m _ _ ht hqt hn'.2 hd2 hst hft
      rw [Tree.leaves_vertex]
      unfold Tree.mergeRec
      split
      · rename_i sb st e1 e2
        have e1 := Tree.isLeaf_some e1
        have e2 := Tree.isLeaf_some e2
        subst e1 e2
        cases hb with
        | leaf hlo hhi hle hinv ha =>
          cases ht with
          | leaf hlo' hhi' hle' hinv' ha' =>
            rw [Tree.leaves_leaf] at *
            right
            refine mergeLeaves_spec hd hlo (hhi.trans hlo'.symm) hhi' ?_ ?_ hinv hinv' ha ha' (hqb sb ?_) (hqt st ?_) (hsb sb ?_) (hst st ?_) hfit (by omega)
            · rw [hlo, hhi]; exact hd1
            · rw [hlo', hhi']; exact hd2
            all_goals exact List.mem_singleton.2 rfl
      · rename_i sb e1 e2
        have e1 := Tree.isLeaf_some e1
        subst e1
        rcases iht (n + 1) with e | ⟨r, e, hr⟩
        · rw [e]; exact Or.inl rfl
        · rw [e]
          simp only [Out.bind]
          have hj := Merged.join (Merged.refl (n := n + 1) rt hqb hsb) hr rfl
          split
          · rename_i m hm; exact Or.inr ⟨_, rfl, hj⟩
          · rename_i m h1 h2; rw [h2] at hj; exact Or.inr ⟨_, rfl, hj⟩
          · exact Or.inl rfl
      · rename_i st e1 e2
        have e2 := Tree.isLeaf_some e2
        subst e2
        rcases ihb (n + 1) with e | ⟨r, e, hr⟩
        · rw [e]; exact Or.inl rfl
        · rw [e]
          simp only [Out.bind]
          have hj := Merged.join hr (Merged.refl (n := r.remaining) tt hqt hst) rfl
          split
          · rename_i m hm; exact Or.inr ⟨_, rfl, hj⟩
          · rename_i m h1 h2; rw [h2] at hj; exact Or.inr ⟨_, rfl, hj⟩
          · exact Or.inl rfl
      · rcases ihb (n + 1) with e | ⟨r1, e, hr1⟩
        · rw [e]; exact Or.inl rfl
        · rw [e]
          simp only [Out.bind]
          rcases iht r1.remaining with e' | ⟨r2, e', hr2⟩
          · rw [e']; exact Or.inl rfl
          · rw [e']
            simp only
            have hj := Merged.join hr1 hr2 rfl
            split
            · exact Or.inr ⟨_, rfl, hj⟩
            · rename_i h0 hne; rw [h0] at hj; exact Or.inr ⟨_, rfl, hj⟩
            · rename_i m1 m2 m h1 h2 h3
              right
              obtain ⟨s1, l1, u1⟩ := hr1.merged m1 h1
              obtain ⟨s2, l2, u2⟩ := hr2.merged m2 h2
              have i1 := hr1.tiling.mem (s := m1) (by rw [s1]; exact List.mem_singleton.2 rfl)
              have i2 := hr2.tiling.mem (s := m2) (by rw [s2]; exact List.mem_singleton.2 rfl)
              have hw := hj.weight kvSize
              have hfit' : Fits ex maxFill [m1, m2] := hfit.mono (by
                rw [Tree.leaves_vertex, ← hw]; show _ ≤ totW kvSize (r1.shards ++ r2.shards)
                rw [s1, s2]; exact Nat.le_refl _)
              obtain ⟨r, hr, hmr⟩ := mergeLeaves_spec (n := m + 1) hd l1 (u1.trans l2.symm) u2 i1.2.2.1 i2.2.2.1 i1.2.2.2.1 i2.2.2.2.1
                i1.2.2.2.2 i2.2.2.2.2 (hr1.quiet m1 (by rw [s1]; exact List.mem_singleton.2 rfl)) (hr2.quiet m2 (by rw [s2]; exact List.mem_singleton.2 rfl))
                (hr1.small m1 (by rw [s1]; exact List.mem_singleton.2 rfl)) (hr2.small m2 (by rw [s2]; exact List.mem_singleton.2 rfl)) hfit' (by omega)
              refine ⟨r, hr, ?_⟩
              have e12 : r1.shards ++ r2.shards = [m1, m2] := by rw [s1, s2]; rfl
              constructor
              · exact hmr.tiling
              · exact hmr.quiet
              · exact hmr.small
              · intro k v; rw [hmr.holds, ← hj.holds, ← e12]
              · intro w; rw [hmr.weight, ← hj.weight, ← e12]
              · refine Nat.le_trans hmr.off ?_
                rw [← e12]; exact hj.off
              · exact hmr.merged
              · have := hmr.count; have := hj.count; simp only [e12] at *; omega
              · have := hmr.rem; have := hj.rem; simp only at *; omega
              · intro s hs
                rcases hmr.origin s hs with h | h
                · exact hj.origin s (by show s ∈ r1.shards ++ r2.shards; rw [e12]; exact h)
                · exact Or.inr h
            · exact Or.inl rfl

theorem Tree.Quiet.small_iff {t : Tree} (hq : t.Quiet) : t.Small ↔ ∀ s ∈ t.leaves, s.src.writeOff < 4294967296 := by
  constructor
  · intro h s hs; exact (h s hs).1
  · intro h s hs
    refine ⟨h s hs, ?_⟩
    intro x hx; rw [hq s hs] at hx; simp at hx

theorem Tree.Quiet.pot {t : Tree} (hq : t.Quiet) : t.pot = totOff t.leaves := by
  unfold Tree.pot totOff
  congr 1
  apply List.map_congr_left
  intro s hs
  unfold Shard.proj; rw [hq s hs]

theorem dyadic_full : Dyadic 0 65536 := ⟨16, Nat.dvd_zero _, rfl⟩

theorem calcNumShards_spec {n : Nat} (h : n ≤ 65536 * 29491) : ∃ j, j ≤ 16 ∧ calcNumShards n = some (2 ^ j) := by
  obtain ⟨j, hj, e⟩ := calcStep_spec h
  refine ⟨16 - j, by omega, ?_⟩
  unfold calcNumShards; rw [e]
  show some (65536 / 2 ^ j) = _
  rw [show (65536 : Nat) = 2 ^ 16 by decide, Nat.pow_div hj (by decide)]

/-- If `merge_small_shards` has returned, the counters did not underflow. -/
theorem Tree.mergeSmall_counted {cfg : Cfg} {maxFill : Nat} {t : Tree} {x : Tree × Bool} (h : t.mergeSmall cfg maxFill = .ok x) :
    ∀ u, t.finishAll cfg = some u → u.leaves.any (fun s => s.getStats.underflow) = false := by
  intro u hu
  unfold Tree.mergeSmall at h
  rw [hu] at h
  dsimp only at h
  cases hb : u.leaves.any (fun s => s.getStats.underflow) with
  | false => rfl
  | true => rw [hb, if_pos rfl] at h; cases h

/-- `merge_small_shards` blocks forever, or returns with the same contents, the same number of live pairs and bytes, and a well-formed tree. -/
theorem Tree.mergeSmall_spec {cfg : Cfg} {ex : Bool} {maxFill : Nat} {t : Tree} (hok : Tree.OK cfg ex 0 65536 t) (hn : t.NonDegenerate)
    (hsm : t.Small) (hfit : (ex = true ∧ maxFill ≤ 14745) ∨ t.pot < 4294967296)
    (hcap : ∀ t', t.finishAll cfg = some t' → (t'.leaves.map (fun s => s.getStats.numItems)).sum ≤ 65536 * 29491)
    (hexp : cfg.expectedKeys ≤ 65536 * 29491) (hnu : ∀ u, t.finishAll cfg = some u → u.leaves.any (fun s => s.getStats.underflow) = false) :
    t.mergeSmall cfg maxFill = .deadlock ∨ ∃ t' b, t.mergeSmall cfg maxFill = .ok (t', b) ∧ Tree.OK cfg ex 0 65536 t' ∧
      t'.NonDegenerate ∧ t'.Small ∧ t'.Quiet ∧ t'.pot ≤ t.pot ∧ t'.leaves.length ≤ t.leaves.length ∧
      (∀ k, t'.get cfg k = t.get cfg k) ∧ (b = true ↔ t'.leaves.length < t.leaves.length) ∧
      (t'.leaves.length < t.leaves.length → ∀ u, t.finishAll cfg = some u → ∃ needed,
        calcNumShards (Nat.max (u.leaves.map (fun s => s.getStats.numItems)).sum cfg.expectedKeys) = some needed ∧ needed ≤ t'.leaves.length) := by
  obtain ⟨u, e, uok, usm, uq, uspan, uval⟩ := Tree.finishAll_spec hok hsm
  have upot := Tree.pot_finishAll hok hsm e
  have hcap := hcap u e
  have hlen : u.leaves.length = t.leaves.length := by
    have := congrArg List.length uspan
    simpa using this
  have un : u.NonDegenerate := by
    intro s hs
    have : (s.lo, s.hi) ∈ u.leaves.map (fun s => (s.lo, s.hi)) := List.mem_map.2 ⟨s, hs, rfl⟩
    rw [uspan, List.mem_map] at this
    obtain ⟨x, hx, hxe⟩ := this
    have := hn x hx
    simp only [Prod.mk.injEq] at hxe
    omega
  have usel : ∀ k, u.get cfg k = t.get cfg k := fun k => uval k ⟨Nat.zero_le _, (cfg.ph k).shardSel_lt⟩
  have ufit : Fits ex maxFill u.leaves := by
    have hb : totW kvSize u.leaves ≤ totOff u.leaves := by
      have : ∀ l : List Shard, (∀ s ∈ l, s.AcctInv ex) → totW kvSize l ≤ totOff l := by
        intro l
        induction l with
        | nil => intro _; exact Nat.le_refl _
        | cons a l ih =>
          intro h
          rw [totW_cons, totOff_cons]
          have h1 := (h a List.mem_cons_self).1.bytes
          have h2 := ih (fun s hs => h s (List.mem_cons_of_mem _ hs))
          unfold liveBytes at h1; omega
      have ut := uok.tiling un dyadic_full
      exact this _ (fun s hs => (ut.mem hs).2.2.2.2)
    rcases hfit with h | h
    · exact Or.inl h
    · right
      have := uq.pot
      omega
  obtain ⟨j, _, ec⟩ := calcNumShards_spec (n := Nat.max (u.leaves.map (fun s => s.getStats.numItems)).sum cfg.expectedKeys)
    (Nat.max_le.2 ⟨hcap, hexp⟩)
  unfold Tree.mergeSmall
  rw [e]
  dsimp only
  rw [hnu u e]
  simp only [ec, Bool.false_eq_true, if_false]
  split
  · exact Or.inr ⟨u, false, rfl, uok, un, usm, uq, upot, Nat.le_of_eq hlen, usel, ⟨fun h => Bool.noConfusion h, fun h => absurd h (by omega)⟩,
      fun h => absurd h (by omega)⟩
  · rcases Tree.mergeRec_spec (maxFill := maxFill) u (u.leaves.length - 2 ^ j) 0 65536 uok uq un dyadic_full (uq.small_iff.1 usm) ufit with hd | ⟨r, hr, hm⟩
    · rw [hd]; exact Or.inl rfl
    · rw [hr]
      obtain ⟨t', h1, h2, h3, h4⟩ := treeify_spec hm.tiling
      simp only [Out.bind, h1]
      right
      have tq : t'.Quiet := by intro s hs; rw [h4] at hs; exact hm.quiet s hs
      have hcnt : t'.leaves.length + (u.leaves.length - 2 ^ j) = u.leaves.length + r.remaining := by rw [h4]; exact hm.count
      have hrem := hm.rem
      refine ⟨t', _, rfl, h2, h3, ?_, tq, ?_, ?_, ?_, ?_, ?_⟩
      · rw [tq.small_iff, h4]; exact hm.small
      · rw [tq.pot, h4]
        refine Nat.le_trans hm.off ?_
        rw [← uq.pot]; exact upot
      · rw [h4]; have := hm.count; have := hm.rem; omega
      · intro k
        rw [← usel k]
        apply option_ext_some
        intro v
        rw [h2.get_iff ⟨Nat.zero_le _, (cfg.ph k).shardSel_lt⟩, uok.get_iff ⟨Nat.zero_le _, (cfg.ph k).shardSel_lt⟩, h4]
        exact hm.holds k v
      · rw [bne_iff_ne]; omega
      · intro hlt u' hu'
        cases hu'
        exact ⟨_, ec, by omega⟩

end Candy
