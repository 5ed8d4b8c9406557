import Verif.Proofs.CrashShard
/-!
# Traces that reorganise shards: background steps, splits, merges
-/
namespace Candy

theorem Ctx.bg {cfg : Cfg} {F : FS} {pre post : List Shard} {s : Shard} (h : Ctx cfg F pre [s] post) (hi : s.Inv cfg) (hsmall : s.Small) :
    ∃ F' s', s.bgStep cfg = some s' ∧ Tr F (s.bgOps cfg) F' (Loc cfg pre post (fun k v => s.val cfg k = some v)) ∧ Ctx cfg F' pre [s'] post := by
  obtain ⟨s', b1, b2, b3, b4, b5, b6, b7, b8⟩ := Shard.bgStep_spec hi hsmall h.rok.acct
  have hrok := b2.rok b6
  have hcr : ∀ t, s.tgt = some t → ∀ G, FS.Crash F (s.bgOps cfg) G → Loc cfg pre post (fun k v => s.val cfg k = some v) G := fun t ht G hG =>
    h.recF.bgCrash ht (by rw [h.tgtF, ht]; rfl) hsmall hG
  unfold Shard.bgStep at b1
  cases ht : s.tgt with
  | none =>
    rw [ht] at b1
    simp only [Option.some.injEq] at b1
    subst b1
    exact ⟨F, s, by unfold Shard.bgStep; rw [ht], by unfold Shard.bgOps; rw [ht]; exact Tr.nil (h.loc (fun k v => Holds.single)), h⟩
  | some t =>
    rw [ht] at b1
    simp only at b1
    have hF : F s.tgtName = some (.good t) := by rw [h.tgtF, ht]; rfl
    by_cases hlt : t.compactedUpTo < NUM_ROWS
    · rw [if_pos hlt] at b1
      unfold compactRow at b1
      cases hps : compactRowPrims cfg (t.compactedUpTo == 0) s.src t with
      | none => rw [hps] at b1; simp at b1
      | some ps =>
        rw [hps] at b1
        simp only [Option.map_some, Option.some.injEq] at b1
        have hops : s.bgOps cfg = onFile s.tgtName ps := by
          unfold Shard.bgOps; rw [ht]; simp only; rw [if_pos hlt, hps]; rfl
        refine ⟨F.upd s.tgtName (some (.good (t.run ps))), s', ?_, ⟨?_, hcr t ht⟩, ?_⟩
        · unfold Shard.bgStep compactRow; rw [ht]; simp only; rw [if_pos hlt, hps]; simp [← b1]
        · rw [hops]
          exact (Tr.onFile (I := fun _ => True) ps hF (fun _ _ => trivial)).1
        · subst b1
          refine h.change rfl rfl hrok (fun n _ hn => FS.upd_other _ _ hn) ?_ ?_
          · rw [FS.upd_other _ _ (srcName_ne_tgtName s)]; exact h.srcF
          · rw [FS.upd_same]; rfl
    · rw [if_neg hlt] at b1
      simp only [Option.some.injEq] at b1
      have hops : s.bgOps cfg = [.rename s.tgtName s.srcName] := by
          unfold Shard.bgOps; rw [ht]; simp only; rw [if_neg hlt]
      refine ⟨(F.upd s.tgtName none).upd s.srcName (some (.good t)), s', ?_, ⟨?_, hcr t ht⟩, ?_⟩
      · unfold Shard.bgStep; rw [ht]; simp only; rw [if_neg hlt, ← b1]
      · rw [hops]; simp [FS.run, FOp.appF, hF]
      · subst b1; exact h.swap ht

theorem Tiles.eq_of_overlap {lo hi : Nat} {l : List Shard} (h : Tiles lo hi l) {s s' : Shard} (hs : s ∈ l) (hs' : s' ∈ l) {x : Nat}
    (h1 : s.lo ≤ x) (h2 : x < s.hi) (h3 : s'.lo ≤ x) (h4 : x < s'.hi) : s = s' := by
  induction h with
  | nil => simp at hs
  | cons a b c ih =>
    rcases List.mem_cons.1 hs with e | m
    · rcases List.mem_cons.1 hs' with e' | m'
      · rw [e, e']
      · have := c.mem m'; subst e; omega
    · rcases List.mem_cons.1 hs' with e' | m'
      · have := c.mem m; subst e'; omega
      · exact ih m m'

/-- An additional shard file covered by a shard does not matter. -/
theorem RecF.cover {cfg : Cfg} {F : FS} {l : List Shard} {s : Shard} {a b : Nat} (h : RecF cfg F l) (hs : s ∈ l) (hlt : a < b)
    (ha : s.lo ≤ a) (hb : b ≤ s.hi) (hn : (a, b) ≠ (s.lo, s.hi)) (x : DFile) : RecF cfg (F.upd ⟨.shard, a, b⟩ (some x)) l where
  tiles := h.tiles
  ok := h.ok
  src := fun s' hs' => by
    have hne : s'.srcName ≠ ⟨.shard, a, b⟩ := by
      intro e
      simp only [Shard.srcName, FName.mk.injEq, true_and] at e
      have := h.tiles.eq_of_overlap (x := a) hs hs' (by omega) (by omega) (by omega) (by omega)
      subst this
      exact hn (by rw [e.1, e.2])
    rw [FS.upd_other _ _ hne]; exact h.src s' hs'
  tgt := fun s' hs' => by
    rw [FS.upd_other _ _ (by simp [Shard.tgtName])]; exact h.tgt s' hs'
  shards := fun a' b' hne => by
    by_cases e : (⟨.shard, a', b'⟩ : FName) = ⟨.shard, a, b⟩
    · simp only [FName.mk.injEq, true_and] at e
      exact ⟨by omega, s, hs, by omega, by omega⟩
    · rw [FS.upd_other _ _ e] at hne
      exact h.shards a' b' hne
  compacts := fun a' b' hne => by
    rw [FS.upd_other _ _ (by simp)] at hne
    exact h.compacts a' b' hne

/-- Removing a shard file that is not one of the shards. -/
theorem RecF.uncover {cfg : Cfg} {F : FS} {l : List Shard} {a b : Nat} (h : RecF cfg F l) (hn : ∀ s ∈ l, (a, b) ≠ (s.lo, s.hi)) :
    RecF cfg (F.upd ⟨.shard, a, b⟩ none) l where
  tiles := h.tiles
  ok := h.ok
  src := fun s' hs' => by
    have hne : s'.srcName ≠ ⟨.shard, a, b⟩ := by
      intro e
      simp only [Shard.srcName, FName.mk.injEq, true_and] at e
      exact hn s' hs' (by rw [e.1, e.2])
    rw [FS.upd_other _ _ hne]; exact h.src s' hs'
  tgt := fun s' hs' => by
    rw [FS.upd_other _ _ (by simp [Shard.tgtName])]; exact h.tgt s' hs'
  shards := fun a' b' hne => by
    by_cases e : (⟨.shard, a', b'⟩ : FName) = ⟨.shard, a, b⟩
    · rw [e, FS.upd_same] at hne; exact absurd rfl hne
    · rw [FS.upd_other _ _ e] at hne
      exact h.shards a' b' hne
  compacts := fun a' b' hne => by
    rw [FS.upd_other _ _ (by simp)] at hne
    exact h.compacts a' b' hne

theorem midOf_pre {lo mid hi : Nat} (h : lo < mid) (hm : mid = midOf lo hi) : mid < hi := by
  unfold midOf at hm; omega

/-- The shards of a split hold what the shard held. -/
theorem split_holds {cfg : Cfg} {s : Shard} {bf tf : MFile} (hi : s.Inv cfg) (hbf : FileOK cfg s.lo (midOf s.lo s.hi) bf)
    (htf : FileOK cfg (midOf s.lo s.hi) s.hi tf)
    (hb : ∀ r, r < NUM_ROWS → bf.liveRow r = ((s.active r).liveRow r).filter (fun kv => decide ((cfg.ph kv.1).shardSel < midOf s.lo s.hi)))
    (ht : ∀ r, r < NUM_ROWS → tf.liveRow r = ((s.active r).liveRow r).filter (fun kv => !decide ((cfg.ph kv.1).shardSel < midOf s.lo s.hi)))
    (k v : Bytes) : Holds cfg [quiet s.lo (midOf s.lo s.hi) bf, quiet (midOf s.lo s.hi) s.hi tf] k v ↔ s.val cfg k = some v := by
  have e1 := Shard.split_val hi hbf hb (fun k => decide ((cfg.ph k).shardSel < midOf s.lo s.hi)) (fun _ _ => rfl) k
  have e2 := Shard.split_val hi htf ht (fun k => !decide ((cfg.ph k).shardSel < midOf s.lo s.hi)) (fun _ _ => rfl) k
  unfold Holds
  simp only [List.mem_cons, List.not_mem_nil, or_false, exists_eq_or_imp, exists_eq_left, e1, e2]
  by_cases e : (cfg.ph k).shardSel < midOf s.lo s.hi <;> simp [e]

theorem fillRows_prims {cfg : Cfg} {contents : Nat → List KV} {rows : List Nat} {f g : MFile} (h : fillRows cfg contents f rows = some g) :
    ∃ ps, fillPrims cfg contents f rows = some ps ∧ f.run ps = g := by
  rw [fillRows_eq] at h
  cases hp : fillPrims cfg contents f rows with
  | none => rw [hp] at h; simp at h
  | some ps => rw [hp] at h; exact ⟨ps, rfl, by simpa using h⟩

/-- Creating a temporary file and storing to it. -/
theorem Tr.temp {cfg : Cfg} {F : FS} {pre post : List Shard} {M} {n : FName} (hn : ¬ n.real) (h : Loc cfg pre post M F) :
    Tr F (createOps n) (F.upd n (some (.good MFile.empty))) (Loc cfg pre post M) := by
  obtain ⟨l, h1, h2⟩ := h
  exact Tr.create ⟨l, h1, h2⟩ (fun x _ => ⟨l, h1.temp hn _, h2⟩)

theorem Tr.tempPrims {cfg : Cfg} {F : FS} {pre post : List Shard} {M} {n : FName} {f : MFile} (hn : ¬ n.real) (hf : F n = some (.good f))
    (ps : List Prim) (h : Loc cfg pre post M F) : Tr F (Candy.onFile n ps) (F.upd n (some (.good (f.run ps)))) (Loc cfg pre post M) := by
  obtain ⟨l, h1, h2⟩ := h
  exact Tr.onFile ps hf (fun g _ => ⟨l, h1.temp hn _, h2⟩)

/-- One shard has been replaced by several. -/
theorem Ctx.replace {cfg : Cfg} {F G : FS} {pre post mid mid' : List Shard} {lo hi : Nat} (h : Ctx cfg F pre mid post) (hm : Tiles lo hi mid) (hlt : lo < hi)
    (hm' : Tiles lo hi mid') (hq : ∀ s ∈ mid, s.tgt = none) (hq' : ∀ s ∈ mid', s.tgt = none) (hok : ∀ s ∈ mid', ROK cfg s)
    (hnew : ∀ s ∈ mid', G s.srcName = some (.good s.src))
    (hother : ∀ n, (∀ s ∈ mid', n ≠ s.srcName) → G n = none ∨ (G n = F n ∧ ∀ s ∈ mid, n ≠ s.srcName))
    (hout : ∀ n : FName, ¬ (lo ≤ n.lo ∧ n.hi ≤ hi) → G n = F n) : Ctx cfg G pre mid' post := by
  obtain ⟨h1, h2, h3⟩ := h.tiles.replace hm hlt hm'
  have hF : ∀ s, s ∈ pre ∨ s ∈ post → ∀ a b, lo ≤ a → b ≤ hi → a < b → ¬ (a = s.lo ∧ b = s.hi) := by
    intro s hs a b ha hb hab e
    rcases hs with hs | hs
    · have := h1.mem hs; omega
    · have := h2.mem hs; omega
  have hnone : ∀ n : FName, lo ≤ n.lo → n.hi ≤ hi → (∀ s ∈ mid, n ≠ s.srcName) → F n = none := by
    intro n ha hb hn
    cases e : F n with
    | none => rfl
    | some x =>
      exfalso
      obtain ⟨s, hs, e'⟩ := h.dir.only n (by rw [e]; simp)
      have hlt' := (h.tiles.mem hs).2.1
      have hlo : n.lo = s.lo ∧ n.hi = s.hi := by rcases e' with rfl | rfl <;> exact ⟨rfl, rfl⟩
      simp only [List.mem_append] at hs
      rcases hs with (hs | hs) | hs
      · exact hF s (Or.inl hs) s.lo s.hi (by omega) (by omega) hlt' ⟨rfl, rfl⟩
      · rcases e' with e' | e'
        · exact hn s hs e'
        · have := h.dir.tgt s (by simp [hs])
          rw [← e', e, hq s hs] at this
          simp at this
      · exact hF s (Or.inr hs) s.lo s.hi (by omega) (by omega) hlt' ⟨rfl, rfl⟩
  refine ⟨?_, h3, ?_⟩
  · refine h.dir.local h.tiles hm hlt hm' hout hnew ?_ ?_
    · intro s hs
      rw [hq' s hs]
      rcases hother s.tgtName (fun s' _ => by simp [Shard.tgtName, Shard.srcName]) with e | ⟨e, _⟩
      · rw [e]; rfl
      · rw [e, hnone _ (hm'.mem hs).1 (hm'.mem hs).2.2 (fun s' _ => by simp [Shard.tgtName, Shard.srcName])]; rfl
    · intro n ha hb hn
      by_cases e : ∃ s ∈ mid', n = s.srcName
      · obtain ⟨s, hs, e⟩ := e; exact ⟨s, hs, Or.inl e⟩
      · exfalso
        rcases hother n (fun s hs e' => e ⟨s, hs, e'⟩) with e' | ⟨e', e''⟩
        · exact hn e'
        · exact hn (by rw [e', hnone n ha hb e''])
  · intro s hs
    simp only [List.mem_append] at hs
    rcases hs with (hs | hs) | hs
    · exact h.ok s (by simp [hs])
    · exact hok s hs
    · exact h.ok s (by simp [hs])

theorem Ctx.split {cfg : Cfg} {F : FS} {pre post : List Shard} {s : Shard} (h : Ctx cfg F pre [s] post) (hi : s.Inv cfg) (hsmall : s.Small)
    (hmid : s.lo < midOf s.lo s.hi) :
    ∃ F' b t, s.split cfg = some (b, t) ∧ Tr F (s.splitOps cfg) F' (Loc cfg pre post (fun k v => s.val cfg k = some v)) ∧
      Ctx cfg F' pre [b, t] post := by
  obtain ⟨bf, tf, p1, p2, p3, p4, p5, p6, p7, p8, p9, p10, p11⟩ := Shard.split_spec hi hsmall h.rok.acct
  obtain ⟨s1, f1, f2, f3, f4, f5, f6, f7, f8, f9⟩ := s.finish_spec hi hsmall h.rok.acct
  obtain ⟨F1, s1', g1, g2, g3⟩ := h.finish hi hsmall
  rw [f1] at g1; simp only [Option.some.injEq] at g1; subst g1
  have hmid' := midOf_pre hmid rfl
  have hsplit := p1
  unfold Shard.split at p1
  rw [f1] at p1
  simp only [f4, f5] at p1
  generalize hm : midOf s.lo s.hi = mid at *
  split at p1
  · rename_i b0 t0 q1 q2
    simp only [Option.some.injEq, Prod.mk.injEq, quiet, Shard.mk.injEq, true_and, and_true] at p1
    obtain ⟨rfl, rfl⟩ := p1
    obtain ⟨ps, r1, r2⟩ := fillRows_prims q1
    obtain ⟨qs, u1, u2⟩ := fillRows_prims q2
    have hend : Ctx cfg ((((((((F1.upd ⟨.bottom, s.lo, mid⟩ (some (.good MFile.empty))).upd ⟨.top, mid, s.hi⟩ (some (.good MFile.empty))).upd
        ⟨.bottom, s.lo, mid⟩ (some (.good b0))).upd ⟨.top, mid, s.hi⟩ (some (.good t0))).upd
        ⟨.bottom, s.lo, mid⟩ none).upd ⟨.shard, s.lo, mid⟩ (some (.good b0))).upd
        ⟨.top, mid, s.hi⟩ none).upd ⟨.shard, mid, s.hi⟩ (some (.good t0)) |>.upd s.srcName none) pre
        [quiet s.lo mid b0, quiet mid s.hi t0] post := by
      have hdy := g3.tiles.dyadic (s := s1) mem_mid
      rw [f4, f5] at hdy
      obtain ⟨d1, d2⟩ := hdy.mid (by omega)
      rw [hm] at d1 d2
      have hts : Tiles s.lo s.hi [s1] := by rw [← f4, ← f5]; exact Tiles.single (by rw [f4, f5]; exact hdy)
      refine g3.replace hts (by omega) (.cons rfl d1 (.cons rfl d2 .nil)) (by simpa using f3) (by simp [quiet]) ?_ ?_ ?_ ?_
      · intro x hx
        simp only [List.mem_cons, List.not_mem_nil, or_false] at hx
        rcases hx with rfl | rfl
        · exact (quiet_inv p2).rok (quiet_acct (ex := false) p4)
        · exact (quiet_inv p3).rok (quiet_acct (ex := false) p5)
      · intro x hx
        simp only [List.mem_cons, List.not_mem_nil, or_false] at hx
        rcases hx with rfl | rfl
        · rw [FS.upd_other _ _ (by simp [Shard.srcName, quiet]; omega), FS.upd_other _ _ (by simp [Shard.srcName, quiet]; omega),
            FS.upd_other _ _ (by simp [Shard.srcName, quiet])]
          exact FS.upd_same _ _ _
        · rw [FS.upd_other _ _ (by simp [Shard.srcName, quiet]; omega)]
          exact FS.upd_same _ _ _
      · intro n hn
        have n1 := hn _ List.mem_cons_self
        have n2 := hn _ (List.mem_cons_of_mem _ List.mem_cons_self)
        simp only [Shard.srcName, quiet] at n1 n2
        by_cases e1 : n = s.srcName
        · left; rw [e1]; exact FS.upd_same _ _ _
        rw [FS.upd_other _ _ e1, FS.upd_other _ _ n2]
        by_cases e2 : n = ⟨.top, mid, s.hi⟩
        · left; rw [e2]; exact FS.upd_same _ _ _
        rw [FS.upd_other _ _ e2, FS.upd_other _ _ n1]
        by_cases e3 : n = ⟨.bottom, s.lo, mid⟩
        · left; rw [e3]; exact FS.upd_same _ _ _
        right
        rw [FS.upd_other _ _ e3, FS.upd_other _ _ e2, FS.upd_other _ _ e3, FS.upd_other _ _ e2, FS.upd_other _ _ e3]
        refine ⟨rfl, fun x hx => ?_⟩
        simp only [List.mem_singleton] at hx
        subst hx
        simp only [Shard.srcName, f4, f5] at e1 ⊢
        exact e1
      · intro n hn
        repeat rw [FS.upd_other]
        all_goals (intro e; subst e; simp only [Shard.srcName] at hn; omega)
    refine ⟨_, _, _, hsplit, ?_, hend⟩
    · unfold Shard.splitOps
      rw [f1]
      simp only [f4, f5, hm]
      rw [r1, u1]
      simp only [Option.getD_some]
      have h1 : Loc cfg pre post (fun k v => s.val cfg k = some v) F1 := g2.finish
      have nb : ¬ (⟨.bottom, s.lo, mid⟩ : FName).real := by simp [FName.real]
      have nt : ¬ (⟨.top, mid, s.hi⟩ : FName).real := by simp [FName.real]
      have t2 := Tr.temp nb h1
      have t3 := Tr.temp nt t2.finish
      have t4 := Tr.tempPrims nb (f := MFile.empty) (F := ((F1.upd ⟨.bottom, s.lo, mid⟩ (some (.good MFile.empty))).upd ⟨.top, mid, s.hi⟩ (some (.good MFile.empty))))
        (by rw [FS.upd_other _ _ (by simp), FS.upd_same]) ps t3.finish
      rw [r2] at t4
      have t5 := Tr.tempPrims nt (f := MFile.empty) (F := ((F1.upd ⟨.bottom, s.lo, mid⟩ (some (.good MFile.empty))).upd ⟨.top, mid, s.hi⟩ (some (.good MFile.empty))).upd ⟨.bottom, s.lo, mid⟩ (some (.good b0)))
        (by rw [FS.upd_other _ _ (by simp), FS.upd_same]) qs t4.finish
      rw [u2] at t5
      -- after the copies, the directory is recovered into `s1`
      have hrec : ∀ {G : FS}, RecF cfg G (pre ++ [s1] ++ post) → Loc cfg pre post (fun k v => s.val cfg k = some v) G := fun hG =>
        ⟨[s1], hG, fun k v => by rw [Holds.single, f8]⟩
      have c1 := g3.recF
      have c5 := ((((c1.temp nb (some (.good MFile.empty))).temp nt (some (.good MFile.empty))).temp nb (some (.good b0))).temp nt (some (.good t0)))
      have c6 := (c5.temp nb none).cover (s := s1) (a := s.lo) (b := mid) mem_mid hmid (by omega) (by omega)
        (by intro e; simp only [Prod.mk.injEq] at e; omega) (.good b0)
      have c7 := (c6.temp nt none).cover (s := s1) (a := mid) (b := s.hi) mem_mid hmid' (by omega) (by omega)
        (by intro e; simp only [Prod.mk.injEq] at e; omega) (.good t0)
      have hsn : s1.srcName = s.srcName := by simp [Shard.srcName, f4, f5]
      have hpre := (((g2.append t2).append t3).append t4).append t5
      suffices hsuff : Tr _ [.rename ⟨.bottom, s.lo, mid⟩ ⟨.shard, s.lo, mid⟩, .rename ⟨.top, mid, s.hi⟩ ⟨.shard, mid, s.hi⟩, .unlink s1.srcName] _ _ by
        have := hpre.append hsuff
        simpa only [List.append_assoc] using this
      refine Tr.append (xs := [_]) (Tr.single ?_ (by simp) (hrec c5) (hrec c6)) (Tr.append (xs := [_]) (Tr.single ?_ (by simp) (hrec c6) (hrec c7)) (Tr.single ?_ (by simp) (hrec c7) ?_))
      · simp only [FOp.appF]
        rw [FS.upd_other _ _ (by simp), FS.upd_same]
      · simp only [FOp.appF]
        rw [FS.upd_other _ _ (by simp), FS.upd_other _ _ (by simp), FS.upd_same]
      · have := c7.src s1 mem_mid
        rw [hsn] at this
        rw [hsn]
        simp only [FOp.appF, this]
      · refine hend.loc (fun k v => ?_)
        have := split_holds (bf := b0) (tf := t0) hi (by rw [hm]; exact p2) (by rw [hm]; exact p3) (by rw [hm]; exact p8) (by rw [hm]; exact p9) k v
        rwa [hm] at this
  · simp at p1

end Candy
