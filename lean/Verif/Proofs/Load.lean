import Verif.Proofs.CrashTree
import Verif.Proofs.Consolidate
/-!
# Recovery of a directory
-/
namespace Candy

/-! ## Which ranges are kept -/

/-- The span of a shard. -/
def Shard.span (s : Shard) : Span := (s.lo, s.hi)

/-- `p` is the span of one of the shards. -/
def IsTile (l : List Shard) (p : Span) : Prop := ∃ s ∈ l, p = s.span

theorem Tiles.span_eq {l : List Shard} (h : Tiles 0 65536 l) {p q : Span} (hp : IsTile l p) (hq : IsTile l q) {x : Nat}
    (h1 : p.1 ≤ x) (h2 : x < p.2) (h3 : q.1 ≤ x) (h4 : x < q.2) : p = q := by
  obtain ⟨s, hs, rfl⟩ := hp
  obtain ⟨s', hs', rfl⟩ := hq
  rw [h.eq_of_overlap hs hs' h1 h2 h3 h4]

theorem Tiles.span_lt {l : List Shard} (h : Tiles 0 65536 l) {p : Span} (hp : IsTile l p) : p.1 < p.2 := by
  obtain ⟨s, hs, rfl⟩ := hp
  exact (h.mem hs).2.1

theorem consolidateLoop_tiles {l : List Shard} (ht : Tiles 0 65536 l) : ∀ (xs : List Span) (prev : Span), IsTile l prev →
    (prev :: xs).Pairwise (fun a b => spanLe a b = true) →
    (∀ x ∈ xs, x.1 < x.2 ∧ ∃ T, IsTile l T ∧ (T = prev ∨ T ∈ xs) ∧ x.within T) →
    (∀ k ∈ (consolidateLoop prev xs).1, IsTile l k ∧ (k = prev ∨ prev.2 ≤ k.1)) ∧
      (consolidateLoop prev xs).1.Pairwise (fun a b => a.2 ≤ b.1)
  | [], prev, hp, _, _ => by
    simp only [consolidateLoop, List.mem_singleton, List.pairwise_cons, List.not_mem_nil, false_implies, implies_true, List.Pairwise.nil, and_self, and_true]
    rintro k rfl
    exact ⟨hp, Or.inl rfl⟩
  | x :: xs, prev, hp, hs, hx => by
    have hpl := ht.span_lt hp
    have h1 := List.pairwise_cons.1 hs
    have hx1 : spanLe prev x = true := h1.1 x (by simp)
    have hx2 := List.pairwise_cons.1 h1.2
    have hxl := (hx x (by simp)).1
    unfold consolidateLoop
    by_cases h : prev.1 ≤ x.1 ∧ x.2 ≤ prev.2
    · rw [if_pos h]
      refine consolidateLoop_tiles ht xs prev hp (List.pairwise_cons.2 ⟨fun a ha => h1.1 a (List.mem_cons_of_mem _ ha), hx2.2⟩) ?_
      intro y hy
      obtain ⟨g1, T, g2, g3, g4⟩ := hx y (List.mem_cons_of_mem _ hy)
      refine ⟨g1, T, g2, ?_, g4⟩
      rcases g3 with g3 | g3
      · exact Or.inl g3
      · rcases List.mem_cons.1 g3 with rfl | g3
        · exact Or.inl (ht.span_eq g2 hp (x := T.1) (Nat.le_refl _) hxl h.1 (by omega))
        · exact Or.inr g3
    · rw [if_neg h]
      have hxt : IsTile l x := by
        obtain ⟨g1, T, g2, g3, g4, g5⟩ := hx x (by simp)
        rcases g3 with rfl | g3
        · exact absurd ⟨g4, g5⟩ h
        · rcases List.mem_cons.1 g3 with rfl | g3
          · exact g2
          · have := hx2.1 T g3
            rw [spanLe_iff] at this
            have e : x = T := Prod.ext (by omega) (by omega)
            rw [e]; exact g2
      have hd : prev.2 ≤ x.1 := by
        rw [spanLe_iff] at hx1
        apply Classical.byContradiction
        intro hc
        have e := ht.span_eq hp hxt (x := x.1) (by omega) (by omega) (Nat.le_refl _) hxl
        rw [e] at h
        exact h ⟨Nat.le_refl _, Nat.le_refl _⟩
      have ih := consolidateLoop_tiles ht xs x hxt h1.2 (by
        intro y hy
        obtain ⟨g1, T, g2, g3, g4⟩ := hx y (List.mem_cons_of_mem _ hy)
        refine ⟨g1, T, g2, ?_, g4⟩
        rcases g3 with rfl | g3
        · have := hx2.1 y hy
          rw [spanLe_iff] at this
          have := g4.2
          omega
        · rcases List.mem_cons.1 g3 with rfl | g3
          · exact Or.inl rfl
          · exact Or.inr g3)
      refine ⟨?_, List.pairwise_cons.2 ⟨?_, ih.2⟩⟩
      · intro k hk
        rcases List.mem_cons.1 hk with rfl | hk
        · exact ⟨hp, Or.inl rfl⟩
        · obtain ⟨g1, g2⟩ := ih.1 k hk
          refine ⟨g1, Or.inr ?_⟩
          rcases g2 with rfl | g2
          · exact hd
          · omega
      · intro k hk
        obtain ⟨g1, g2⟩ := ih.1 k hk
        rcases g2 with rfl | g2
        · exact hd
        · omega

/-- Two strictly increasing lists of ranges with the same elements are equal. -/
theorem sorted_ext : ∀ (xs ys : List Span), (∀ a ∈ xs, a.1 < a.2) → xs.Pairwise (fun a b => a.2 ≤ b.1) → ys.Pairwise (fun a b => a.2 ≤ b.1) →
    (∀ a, a ∈ xs ↔ a ∈ ys) → xs = ys
  | [], [], _, _, _, _ => rfl
  | [], y :: ys, _, _, _, h => by have := (h y).2 (by simp); simp at this
  | x :: xs, [], _, _, _, h => by have := (h x).1 (by simp); simp at this
  | x :: xs, y :: ys, hl, hx, hy, h => by
    have hx' := List.pairwise_cons.1 hx
    have hy' := List.pairwise_cons.1 hy
    have hlx := hl x (by simp)
    have hly := hl y ((h y).2 (by simp))
    have e : x = y := by
      rcases List.mem_cons.1 ((h x).1 (by simp)) with e | e
      · exact e
      · rcases List.mem_cons.1 ((h y).2 (by simp)) with e' | e'
        · exact e'.symm
        · have := hx'.1 y e'
          have := hy'.1 x e
          omega
    subst e
    congr 1
    refine sorted_ext xs ys (fun a ha => hl a (List.mem_cons_of_mem _ ha)) hx'.2 hy'.2 (fun a => ?_)
    constructor
    · intro ha
      rcases List.mem_cons.1 ((h a).1 (List.mem_cons_of_mem _ ha)) with rfl | e
      · have := hx'.1 a ha; omega
      · exact e
    · intro ha
      rcases List.mem_cons.1 ((h a).2 (List.mem_cons_of_mem _ ha)) with rfl | e
      · have := hy'.1 a ha; omega
      · exact e

theorem Tiles.spans_sorted {lo hi : Nat} {l : List Shard} (h : Tiles lo hi l) : (l.map Shard.span).Pairwise (fun a b => a.2 ≤ b.1) := by
  induction h with
  | nil => exact List.Pairwise.nil
  | cons a b c ih =>
    rw [List.map_cons, List.pairwise_cons]
    refine ⟨?_, ih⟩
    intro p hp
    rw [List.mem_map] at hp
    obtain ⟨s, hs, rfl⟩ := hp
    exact (c.mem hs).1

/-- Of the ranges found, exactly the tiles are kept, in order. -/
theorem consolidate_tiles {l : List Shard} (ht : Tiles 0 65536 l) {found : List Span} (hnd : found.Nodup)
    (h1 : ∀ s ∈ l, s.span ∈ found) (h2 : ∀ p ∈ found, p.1 < p.2 ∧ ∃ T, IsTile l T ∧ p.within T) :
    (consolidate found).1 = l.map Shard.span ∧ (consolidate found).2.Nodup ∧ ∀ p, p ∈ (consolidate found).2 ↔ p ∈ found ∧ ¬ IsTile l p := by
  obtain ⟨hperm, hcov⟩ := consolidate_perm found
  have hnd' : ((consolidate found).1 ++ (consolidate found).2).Nodup := hperm.nodup_iff.2 hnd
  have hkept : (∀ k ∈ (consolidate found).1, IsTile l k) ∧ (consolidate found).1.Pairwise (fun a b => a.2 ≤ b.1) := by
    unfold consolidate
    have hp := List.mergeSort_perm found spanLe
    have hs := List.pairwise_mergeSort (le := spanLe) spanLe_trans spanLe_total found
    cases hm : found.mergeSort spanLe with
    | nil => exact ⟨by simp, List.Pairwise.nil⟩
    | cons x xs =>
      rw [hm] at hp hs
      have hmem : ∀ p, p ∈ x :: xs ↔ p ∈ found := fun p => hp.mem_iff
      have hT : ∀ T, IsTile l T → T ∈ x :: xs := by
        rintro T ⟨s, hs, rfl⟩; exact (hmem _).2 (h1 s hs)
      have hxt : IsTile l x := by
        obtain ⟨g1, T, g2, g4, g5⟩ := h2 x ((hmem x).1 (by simp))
        rcases List.mem_cons.1 (hT T g2) with rfl | e
        · exact g2
        · have := (List.pairwise_cons.1 hs).1 T e
          rw [spanLe_iff] at this
          have e : x = T := Prod.ext (by omega) (by omega)
          rw [e]; exact g2
      have := consolidateLoop_tiles ht xs x hxt hs (by
        intro y hy
        obtain ⟨g1, T, g2, g4⟩ := h2 y ((hmem y).1 (List.mem_cons_of_mem _ hy))
        exact ⟨g1, T, g2, List.mem_cons.1 (hT T g2), g4⟩)
      exact ⟨fun k hk => (this.1 k hk).1, this.2⟩
  have hall : ∀ p, IsTile l p → p ∈ (consolidate found).1 := by
    intro p hp
    obtain ⟨s, hs, rfl⟩ := hp
    have hm := hperm.mem_iff.2 (h1 s hs)
    rcases List.mem_append.1 hm with hm | hm
    · exact hm
    · obtain ⟨k, hk, w1, w2⟩ := hcov _ hm
      have hk' := hkept.1 k hk
      have hlt := ht.span_lt ⟨s, hs, rfl⟩
      rw [ht.span_eq ⟨s, hs, rfl⟩ hk' (x := s.span.1) (Nat.le_refl _) hlt w1 (by omega)]
      exact hk
  refine ⟨?_, (List.nodup_append.1 hnd').2.1, ?_⟩
  · refine sorted_ext _ _ (fun a ha => ht.span_lt (hkept.1 a ha)) hkept.2 ht.spans_sorted (fun a => ?_)
    constructor
    · intro ha
      obtain ⟨s, hs, rfl⟩ := hkept.1 a ha
      exact List.mem_map.2 ⟨s, hs, rfl⟩
    · intro ha
      obtain ⟨s, hs, rfl⟩ := List.mem_map.1 ha
      exact hall _ ⟨s, hs, rfl⟩
  · intro p
    constructor
    · intro hp
      refine ⟨hperm.mem_iff.1 (List.mem_append_right _ hp), fun ht => ?_⟩
      exact (List.nodup_append.1 hnd').2.2 p (hall p ht) p hp rfl
    · rintro ⟨hp, hn⟩
      rcases List.mem_append.1 (hperm.mem_iff.2 hp) with hm | hm
      · exact absurd (hkept.1 p hm) hn
      · exact hm

/-! ## Scanning -/

theorem Dir.mem_names {d : Dir} {n : FName} : n ∈ d.map Prod.fst ↔ d.find n ≠ none := by
  induction d with
  | nil => simp [Dir.find]
  | cons e d ih =>
    obtain ⟨m, x⟩ := e
    simp only [List.map_cons, List.mem_cons, Dir.find]
    by_cases h : m = n
    · simp [h]
    · rw [if_neg h, ih]
      constructor
      · rintro (h' | h')
        · exact absurd h'.symm h
        · exact h'
      · exact Or.inr

theorem scanDir_spec : ∀ d : Dir, d.Nodup → (∀ a b, d.find ⟨.shard, a, b⟩ ≠ none → a < b ∧ b ≤ 65536) →
    ∃ (ns : List FName) (found : List Span), scanDir d = (ns.map .unlink, some found) ∧ ns.Nodup ∧ (∀ n, n ∈ ns ↔ d.find n ≠ none ∧ ¬ n.real) ∧
      found.Nodup ∧ ∀ p, p ∈ found ↔ d.find ⟨.shard, p.1, p.2⟩ ≠ none
  | [], _, _ => ⟨[], [], rfl, List.nodup_nil, by simp [Dir.find], List.nodup_nil, by simp [Dir.find]⟩
  | (n, x) :: d', hnd, hsp => by
    obtain ⟨d, hd⟩ : ∃ d : Dir, d = d' := ⟨d', rfl⟩
    subst hd
    have hnd' : n ∉ d.map Prod.fst ∧ (d.map Prod.fst).Nodup := List.nodup_cons.1 hnd
    have hfn : d.find n = none := by
      cases hf : d.find n with
      | none => rfl
      | some _ => exact absurd (Dir.mem_names.2 (by rw [hf]; simp)) hnd'.1
    have hfind : ∀ m, Dir.find ((n, x) :: d) m ≠ none ↔ m = n ∨ d.find m ≠ none := by
      intro m
      rw [← Dir.mem_names, ← Dir.mem_names]; simp
    obtain ⟨ns, found, e1, e2, e3, e4, e5⟩ := scanDir_spec d hnd'.2 (fun a b h => hsp a b ((hfind _).2 (Or.inr h)))
    have htemp : ¬ n.real → ∃ (ns : List FName) (found : List Span), ((FOp.unlink n :: (scanDir d).1), (scanDir d).2) = (ns.map .unlink, some found) ∧ ns.Nodup ∧
        (∀ m, m ∈ ns ↔ Dir.find ((n, x) :: d) m ≠ none ∧ ¬ m.real) ∧ found.Nodup ∧ ∀ p : Span, p ∈ found ↔ Dir.find ((n, x) :: d) ⟨.shard, p.1, p.2⟩ ≠ none := by
      intro hr
      refine ⟨n :: ns, found, by rw [e1]; rfl, List.nodup_cons.2 ⟨fun h => ((e3 n).1 h).1 hfn, e2⟩, fun m => ?_, e4, fun p => ?_⟩
      · rw [List.mem_cons, e3, hfind]
        constructor
        · rintro (rfl | h)
          · exact ⟨Or.inl rfl, hr⟩
          · exact ⟨Or.inr h.1, h.2⟩
        · rintro ⟨h | h, h'⟩
          · exact Or.inl h
          · exact Or.inr ⟨h, h'⟩
      · rw [e5, hfind]
        constructor
        · exact Or.inr
        · rintro (h | h)
          · exact absurd (by rw [← h]; exact Or.inl rfl) hr
          · exact h
    obtain ⟨kind, lo, hi⟩ := n
    cases kind with
    | bottom => exact htemp (by simp [FName.real])
    | top => exact htemp (by simp [FName.real])
    | merge => exact htemp (by simp [FName.real])
    | compact =>
      refine ⟨ns, found, e1, e2, fun m => ?_, e4, fun p => ?_⟩
      · rw [e3, hfind]
        constructor
        · rintro ⟨h, h'⟩; exact ⟨Or.inr h, h'⟩
        · rintro ⟨h | h, h'⟩
          · exact absurd (by rw [h]; exact Or.inr rfl) h'
          · exact ⟨h, h'⟩
      · rw [e5, hfind]; simp
    | shard =>
      have hb := hsp lo hi ((hfind _).2 (Or.inl rfl))
      refine ⟨ns, (lo, hi) :: found, ?_, e2, fun m => ?_, List.nodup_cons.2 ⟨fun h => (e5 _).1 h hfn, e4⟩, fun p => ?_⟩
      · unfold scanDir
        simp only [e1]
        rw [if_pos ⟨hb.1, hb.2⟩]; rfl
      · rw [e3, hfind]
        constructor
        · rintro ⟨h, h'⟩; exact ⟨Or.inr h, h'⟩
        · rintro ⟨h | h, h'⟩
          · exact absurd (by rw [h]; exact Or.inl rfl) h'
          · exact ⟨h, h'⟩
      · rw [List.mem_cons, e5, hfind]
        obtain ⟨a, b⟩ := p
        simp

/-! ## Deleting what is not needed -/

/-- A file that recovery does not need. -/
def Junk (l : List Shard) (n : FName) : Prop := ¬ n.real ∨ ∃ a b, n = ⟨.shard, a, b⟩ ∧ ∀ s ∈ l, (a, b) ≠ (s.lo, s.hi)

theorem Junk.unlink {cfg : Cfg} {F : FS} {l : List Shard} {n : FName} (hj : Junk l n) (h : RecF cfg F l) : RecF cfg (F.upd n none) l := by
  rcases hj with hj | ⟨a, b, rfl, hj⟩
  · exact h.temp hj _
  · exact h.uncover hj

theorem unlinks {cfg : Cfg} {l : List Shard} : ∀ (ns : List FName) (F : FS), RecF cfg F l → ns.Nodup → (∀ n ∈ ns, Junk l n ∧ F n ≠ none) →
    ∃ F', Tr F (ns.map .unlink) F' (fun G => RecF cfg G l) ∧ ∀ n, F' n = if n ∈ ns then none else F n
  | [], F, h, _, _ => ⟨F, Tr.nil h, by simp⟩
  | n :: ns, F, h, hnd, hj => by
    rw [List.nodup_cons] at hnd
    have h1 := (hj n (by simp)).1.unlink h
    obtain ⟨F', g1, g2⟩ := unlinks ns (F.upd n none) h1 hnd.2 (fun m hm => by
      refine ⟨(hj m (List.mem_cons_of_mem _ hm)).1, ?_⟩
      rw [FS.upd_other _ _ (by rintro rfl; exact hnd.1 hm)]
      exact (hj m (List.mem_cons_of_mem _ hm)).2)
    refine ⟨F', Tr.append (xs := [FOp.unlink n]) (Tr.single ?_ (by simp) h h1) g1, fun m => ?_⟩
    · simp only [FOp.appF]
      cases hf : F n with
      | none => exact absurd hf (hj n (by simp)).2
      | some x => rfl
    · rw [g2]
      by_cases e : m ∈ ns
      · simp [e]
      · rw [if_neg e]
        by_cases e' : m = n
        · subst e'; simp [FS.upd_same]
        · rw [FS.upd_other _ _ e', if_neg (by simp [e, e'])]

/-! ## Opening the shards -/

/-- What opening makes of the shard `s`. -/
structure Opened (cfg : Cfg) (s s' : Shard) : Prop where
  lo : s'.lo = s.lo
  hi : s'.hi = s.hi
  quiet : s'.tgt = none
  val : ∀ k, s'.val cfg k = s.val cfg k
  small : s'.Small
  off : s'.src.writeOff ≤ s.proj
  same : s.tgt = none → s' = s

theorem RecF.openOne {cfg : Cfg} {clearBad : Bool} {d : Dir} {F : FS} {pre post : List Shard} {s : Shard} (h : RecF cfg F (pre ++ [s] ++ post)) (hsm : s.Small)
    (h1 : d.find s.srcName = F s.srcName) (h2 : d.find s.tgtName = F s.tgtName) :
    ∃ ops F' s', openShard cfg clearBad d s.span = (ops, .ok s') ∧ Tr F ops F' (Loc cfg pre post (fun k v => s.val cfg k = some v)) ∧
      RecF cfg F' (pre ++ [s'] ++ post) ∧ Opened cfg s s' ∧ F' s'.tgtName = none ∧ ∀ n, n ≠ s.srcName → n ≠ s.tgtName → F' n = F n := by
  have hs := h.src s mem_mid
  have ht := h.tgt s mem_mid
  have hloc : Loc cfg pre post (fun k v => s.val cfg k = some v) F := ⟨_, h, fun k v => Holds.single⟩
  have hm : Tr F [.magic s.srcName] F (Loc cfg pre post (fun k v => s.val cfg k = some v)) :=
    Tr.single (by simp [FOp.appF, hs]) (by simp) hloc hloc
  unfold openShard
  have e1 : d.find ⟨.shard, s.span.1, s.span.2⟩ = some (.good s.src) := h1.trans hs
  have e2 : d.find ⟨.compact, s.span.1, s.span.2⟩ = F s.tgtName := h2
  simp only [e1, e2, openSrc]
  cases hF : F s.tgtName with
  | none =>
    rw [hF] at ht
    have ht' : s.tgt = none := ht.symm
    have es : (⟨s.span.1, s.span.2, s.src, none⟩ : Shard) = s := by
      cases s; simp only [Shard.span] at *; subst ht'; rfl
    refine ⟨_, F, s, by simp only [es]; rfl, hm, h, ⟨rfl, rfl, ht', fun _ => rfl, hsm, ?_, fun _ => rfl⟩, hF, fun _ _ _ => rfl⟩
    unfold Shard.proj; rw [ht']; exact Nat.le_refl _
  | some x =>
    rw [hF] at ht
    have ht' : s.tgt = some x.asFile := ht.symm
    have hF1 : ∃ F1, FOp.appF F (.magic s.tgtName) = some F1 ∧ F1 s.tgtName = some (.good x.asFile) ∧ ∀ n, n ≠ s.tgtName → F1 n = F n := by
      cases x with
      | good f => exact ⟨F, by simp [FOp.appF, hF], hF, fun _ _ => rfl⟩
      | zero => exact ⟨F.upd s.tgtName (some (.good MFile.empty)), by simp [FOp.appF, hF], FS.upd_same _ _ _, fun n hn => FS.upd_other _ _ hn⟩
      | blank => exact ⟨F.upd s.tgtName (some (.good MFile.empty)), by simp [FOp.appF, hF], FS.upd_same _ _ _, fun n hn => FS.upd_other _ _ hn⟩
    obtain ⟨F1, m1, m2, m3⟩ := hF1
    have hR1 : RecF cfg F1 (pre ++ [s] ++ post) := by
      refine h.change rfl rfl (h.ok s mem_mid) (fun n _ hn => m3 n hn) ?_ ?_
      · rw [m3 _ (srcName_ne_tgtName s)]; exact hs
      · rw [m2, ht']; rfl
    have hloc1 : Loc cfg pre post (fun k v => s.val cfg k = some v) F1 := ⟨_, hR1, fun k v => Holds.single⟩
    obtain ⟨ps, c1, c2, c3, c4, c5, c6⟩ := hR1.complete (first := true) ht' m2 hsm (Or.inl rfl)
    simp only [c1]
    refine ⟨_, _, { s with src := x.asFile.run ps, tgt := none }, rfl,
      hm.append ((Tr.append (xs := [FOp.magic s.tgtName]) (Tr.single m1 (by simp) hloc hloc1) c2)), c3, ⟨rfl, rfl, rfl, c4, c5, ?_, ?_⟩, ?_, ?_⟩
    · show (x.asFile.run ps).writeOff ≤ _
      rw [c6]; unfold Shard.proj; rw [ht']; exact Nat.le_max_right _ _
    · intro e; rw [ht'] at e; simp at e
    · show ((F1.upd s.tgtName none).upd s.srcName (some (.good (x.asFile.run ps)))) s.tgtName = none
      rw [FS.upd_other _ _ (srcName_ne_tgtName s).symm, FS.upd_same]
    · intro n n1 n2
      rw [FS.upd_other _ _ n1, FS.upd_other _ _ n2, m3 n n2]

/-- Pointwise relation of two lists. -/
inductive Each (R : Shard → Shard → Prop) : List Shard → List Shard → Prop
  | nil : Each R [] []
  | cons {a b : Shard} {l l' : List Shard} (h : R a b) (t : Each R l l') : Each R (a :: l) (b :: l')

theorem Each.mem {R : Shard → Shard → Prop} {l l' : List Shard} (h : Each R l l') {b : Shard} (hb : b ∈ l') : ∃ a ∈ l, R a b := by
  induction h with
  | nil => simp at hb
  | cons h _ ih =>
    rcases List.mem_cons.1 hb with rfl | hb
    · exact ⟨_, by simp, h⟩
    · obtain ⟨a, h1, h2⟩ := ih hb
      exact ⟨a, List.mem_cons_of_mem _ h1, h2⟩

theorem Each.mem' {R : Shard → Shard → Prop} {l l' : List Shard} (h : Each R l l') {a : Shard} (ha : a ∈ l) : ∃ b ∈ l', R a b := by
  induction h with
  | nil => simp at ha
  | cons h _ ih =>
    rcases List.mem_cons.1 ha with rfl | ha
    · exact ⟨_, by simp, h⟩
    · obtain ⟨b, h1, h2⟩ := ih ha
      exact ⟨b, List.mem_cons_of_mem _ h1, h2⟩

theorem Each.holds {cfg : Cfg} {l l' : List Shard} (h : Each (Opened cfg) l l') (k v : Bytes) : Holds cfg l' k v ↔ Holds cfg l k v := by
  constructor
  · rintro ⟨s, hs, hv⟩
    obtain ⟨a, ha, ho⟩ := h.mem hs
    exact ⟨a, ha, by rw [← ho.val]; exact hv⟩
  · rintro ⟨s, hs, hv⟩
    obtain ⟨b, hb, ho⟩ := h.mem' hs
    exact ⟨b, hb, by rw [ho.val]; exact hv⟩

theorem Each.same {cfg : Cfg} {l l' : List Shard} (h : Each (Opened cfg) l l') (hq : ∀ s ∈ l, s.tgt = none) : l' = l := by
  induction h with
  | nil => rfl
  | cons h _ ih =>
    rw [h.same (hq _ (by simp)), ih (fun s hs => hq s (List.mem_cons_of_mem _ hs))]

theorem RecF.openAll {cfg : Cfg} {clearBad : Bool} {d : Dir} : ∀ (l pre : List Shard) (F : FS), RecF cfg F (pre ++ l) → (∀ s ∈ l, s.Small) →
    (∀ s ∈ l, d.find s.srcName = F s.srcName ∧ d.find s.tgtName = F s.tgtName) →
    ∃ ops F' l', Candy.openAll cfg clearBad d (l.map Shard.span) = (ops, .ok l') ∧ Tr F ops F' (Loc cfg pre [] (Holds cfg l)) ∧
      RecF cfg F' (pre ++ l') ∧ Each (Opened cfg) l l' ∧ (∀ s ∈ l, F' s.tgtName = none) ∧
      ∀ n, (∀ s ∈ l, n ≠ s.srcName ∧ n ≠ s.tgtName) → F' n = F n
  | [], pre, F, h, _, _ => ⟨[], F, [], rfl, Tr.nil ⟨[], by simpa using h, fun _ _ => Iff.rfl⟩, h, .nil, by simp, fun _ _ => rfl⟩
  | s :: l, pre, F, h, hsm, hd => by
    have h' : RecF cfg F (pre ++ [s] ++ l) := by simpa using h
    obtain ⟨o1, F1, s', a1, a2, a3, a4, a5, a6⟩ := h'.openOne (clearBad := clearBad) (d := d) (hsm s (by simp)) (hd s (by simp)).1 (hd s (by simp)).2
    have hdist : ∀ x ∈ l, x.srcName ≠ s.srcName ∧ x.tgtName ≠ s.tgtName := by
      intro x hx
      obtain ⟨m, t1, t2⟩ := h.tiles.split
      cases t2 with
      | cons e1 e2 e3 =>
        have := e3.mem hx
        have := e2.lt
        simp only [Shard.srcName, Shard.tgtName, ne_eq, FName.mk.injEq, true_and, not_and]
        exact ⟨by omega, by omega⟩
    obtain ⟨o2, F2, l', b1, b2, b3, b4, b5, b6⟩ := RecF.openAll (clearBad := clearBad) (d := d) l (pre ++ [s']) F1 a3
      (fun x hx => hsm x (List.mem_cons_of_mem _ hx)) (fun x hx => by
        obtain ⟨d1, d2⟩ := hdist x hx
        rw [a6 _ d1 (by simp [Shard.srcName, Shard.tgtName]), a6 _ (by simp [Shard.srcName, Shard.tgtName]) d2]
        exact hd x (List.mem_cons_of_mem _ hx))
    have e4 : s'.tgtName = s.tgtName := by simp [Shard.tgtName, a4.lo, a4.hi]
    refine ⟨o1 ++ o2, F2, s' :: l', ?_, ?_, by simpa using b3, .cons a4 b4, ?_, ?_⟩
    · rw [List.map_cons]
      unfold Candy.openAll
      simp only [a1, b1]
    · refine (a2.mono ?_).append (b2.mono ?_)
      · intro G hG
        obtain ⟨m, g1, g2⟩ := hG
        refine ⟨m ++ l, by simpa using g1, fun k v => ?_⟩
        rw [Holds.append, g2, show s :: l = [s] ++ l from rfl, Holds.append, Holds.single]
      · intro G hG
        obtain ⟨m, g1, g2⟩ := hG
        refine ⟨[s'] ++ m, by simpa using g1, fun k v => ?_⟩
        rw [Holds.append, g2, Holds.single, a4.val, show s :: l = [s] ++ l from rfl, Holds.append, Holds.single]
    · intro x hx
      rcases List.mem_cons.1 hx with rfl | hx
      · rw [b6 _ (fun y hy => ⟨by simp [Shard.srcName, Shard.tgtName], (hdist y hy).2.symm⟩), ← e4]; exact a5
      · exact b5 x hx
    · intro n hn
      rw [b6 n (fun x hx => hn x (List.mem_cons_of_mem _ hx)), a6 n (hn s (by simp)).1 (hn s (by simp)).2]

/-! ## Loading -/

/-- Loading a recoverable directory: it succeeds; a crash inside leaves a recoverable directory with the same contents; the result has the
same contents, no running compaction, and its files are what the directory then holds. -/
theorem RecF.load {cfg : Cfg} {clearBad : Bool} {d : Dir} {l : List Shard} (hn : d.Nodup) (h : RecF cfg d.find l) (hsm : ∀ s ∈ l, s.Small) :
    ∃ ops d' l', Candy.load cfg clearBad d = (ops, .ok l') ∧ d.run ops = some d' ∧ DirOf d' l' ∧ RecF cfg d'.find l' ∧ Each (Opened cfg) l l' ∧
      ∀ d'', Dir.Crash d ops d'' → d''.Nodup ∧ ∃ m, RecF cfg d''.find m ∧ ∀ k v, Holds cfg m k v ↔ Holds cfg l k v := by
  obtain ⟨ns, found, e1, e2, e3, e4, e5⟩ := scanDir_spec d hn (fun a b hne => by
    obtain ⟨g1, s, g2, g3, g4⟩ := h.shards a b hne
    have := h.tiles.mem g2
    exact ⟨g1, by omega⟩)
  obtain ⟨c1, c2, c3⟩ := consolidate_tiles h.tiles e4 (fun s hs => (e5 _).2 (by
      show d.find s.srcName ≠ none
      rw [h.src s hs]; simp)) (fun p hp => by
      obtain ⟨g1, s, g2, g3, g4⟩ := h.shards p.1 p.2 ((e5 p).1 hp)
      exact ⟨g1, s.span, ⟨s, g2, rfl⟩, g3, g4⟩)
  obtain ⟨F1, t1, u1⟩ := unlinks ns d.find h e2 (fun n hm => ⟨Or.inl ((e3 n).1 hm).2, ((e3 n).1 hm).1⟩)
  have h1 : RecF cfg F1 l := t1.finish
  have hinj : ∀ p q : Span, (⟨.shard, p.1, p.2⟩ : FName) = ⟨.shard, q.1, q.2⟩ → p = q := by
    intro p q e; simp only [FName.mk.injEq, true_and] at e; exact Prod.ext e.1 e.2
  obtain ⟨F2, t2, u2⟩ := unlinks ((consolidate found).2.map (fun p => (⟨.shard, p.1, p.2⟩ : FName))) F1 h1
    (List.Pairwise.map _ (fun a b hab e => hab (hinj a b e)) c2) (fun n hm => by
      obtain ⟨p, hp, rfl⟩ := List.mem_map.1 hm
      obtain ⟨p1, p2⟩ := (c3 p).1 hp
      refine ⟨Or.inr ⟨p.1, p.2, rfl, fun s hs e => p2 ⟨s, hs, e⟩⟩, ?_⟩
      rw [u1, if_neg (fun hc => ((e3 _).1 hc).2 (Or.inl rfl))]
      exact (e5 p).1 p1)
  have h2 : RecF cfg F2 l := t2.finish
  have hkeep : ∀ s ∈ l, d.find s.srcName = F2 s.srcName ∧ d.find s.tgtName = F2 s.tgtName := by
    intro s hs
    refine ⟨?_, ?_⟩
    · rw [u2, if_neg, u1, if_neg (fun hc => ((e3 _).1 hc).2 (Or.inl rfl))]
      intro hm
      obtain ⟨p, hp, e⟩ := List.mem_map.1 hm
      exact ((c3 p).1 hp).2 ⟨s, hs, hinj p s.span e⟩
    · rw [u2, if_neg, u1, if_neg (fun hc => ((e3 _).1 hc).2 (Or.inr rfl))]
      intro hm
      obtain ⟨p, hp, e⟩ := List.mem_map.1 hm
      simp [Shard.tgtName] at e
  obtain ⟨o3, F3, l', b1, b2, b3, b4, b5, b6⟩ := RecF.openAll (clearBad := clearBad) (d := d) l [] F2 (by simpa using h2) hsm hkeep
  have hT : Tr d.find (ns.map .unlink ++ (consolidate found).2.map (fun p => .unlink ⟨.shard, p.1, p.2⟩) ++ o3) F3
      (fun G => ∃ m, RecF cfg G m ∧ ∀ k v, Holds cfg m k v ↔ Holds cfg l k v) := by
    refine Tr.append (Tr.append (t1.mono (fun G hG => ⟨l, hG, fun _ _ => Iff.rfl⟩)) ?_) (b2.mono ?_)
    · have := t2.mono (J := fun G => ∃ m, RecF cfg G m ∧ ∀ k v, Holds cfg m k v ↔ Holds cfg l k v) (fun G hG => ⟨l, hG, fun _ _ => Iff.rfl⟩)
      rw [List.map_map] at this
      exact this
    · rintro G ⟨m, g1, g2⟩
      exact ⟨m, by simpa using g1, g2⟩
  obtain ⟨d', r1, r2, r3⟩ := Dir.run_of hn hT.1
  have hR : RecF cfg F3 l' := by simpa using b3
  have hl' : ∀ s ∈ l', s.tgt = none := fun s hs => by
    obtain ⟨a, ha, ho⟩ := b4.mem hs
    exact ho.quiet
  refine ⟨_, d', l', ?_, r1, ?_, by rw [r3]; exact hR, b4, ?_⟩
  · unfold Candy.load
    simp only [e1, c1, b1]
  · refine DirF.dirOf r2 ?_
    rw [r3]
    have htn : ∀ s ∈ l', F3 s.tgtName = none := fun s hs => by
      obtain ⟨a, ha, ho⟩ := b4.mem hs
      have : s.tgtName = a.tgtName := by simp [Shard.tgtName, ho.lo, ho.hi]
      rw [this]; exact b5 a ha
    refine ⟨hR.src, fun s hs => by rw [htn s hs, hl' s hs]; rfl, fun n hne => ?_⟩
    by_cases hr : n.real
    · obtain ⟨kind, a, b⟩ := n
      rcases hr with hr | hr
      · simp only at hr; subst hr
        by_cases ht : ∃ s ∈ l, a = s.lo ∧ b = s.hi
        · obtain ⟨s, hs, rfl, rfl⟩ := ht
          obtain ⟨s', hs', ho⟩ := b4.mem' hs
          exact ⟨s', hs', Or.inl (by simp [Shard.srcName, ho.lo, ho.hi])⟩
        · exfalso; apply hne
          have hnt : ∀ s ∈ l, (⟨.shard, a, b⟩ : FName) ≠ s.srcName := by
            intro s hs e; simp only [Shard.srcName, FName.mk.injEq, true_and] at e; exact ht ⟨s, hs, e⟩
          rw [b6 _ (fun s hs => ⟨hnt s hs, by simp [Shard.tgtName]⟩), u2]
          split
          · rfl
          · rename_i hm
            rw [u1]
            split
            · rfl
            · cases hf : d.find ⟨.shard, a, b⟩ with
              | none => rfl
              | some x =>
                exfalso; apply hm
                refine List.mem_map.2 ⟨(a, b), (c3 _).2 ⟨(e5 _).2 (by rw [hf]; simp), ?_⟩, rfl⟩
                rintro ⟨s, hs, e⟩
                simp only [Shard.span, Prod.mk.injEq] at e
                exact ht ⟨s, hs, e⟩
      · simp only at hr; subst hr
        obtain ⟨s, hs, rfl, rfl⟩ := hR.compacts a b hne
        exact ⟨s, hs, Or.inr rfl⟩
    · exfalso; apply hne
      rw [b6 n (fun s hs => ⟨by rintro rfl; exact hr (Or.inl rfl), by rintro rfl; exact hr (Or.inr rfl)⟩), u2]
      split
      · rfl
      · rw [u1]
        split
        · rfl
        · rename_i hm
          cases hf : d.find n with
          | none => rfl
          | some x => exact absurd ((e3 n).2 ⟨by rw [hf]; simp, hr⟩) hm
  · intro d'' hc
    obtain ⟨g1, g2⟩ := hc.find hn
    exact ⟨g1, hT.2 _ g2⟩

end Candy
