import Verif.Proofs.CrashSplit
/-!
# Traces of merges
-/
namespace Candy

/-- A bigger shard file covers the files of the shards it was merged from. -/
theorem RecF.merge {cfg : Cfg} {F G : FS} {pre post mid : List Shard} {m : Shard} (h : RecF cfg F (pre ++ mid ++ post)) (hm : Tiles m.lo m.hi mid)
    (hd : Dyadic m.lo m.hi) (hq : ∀ s ∈ mid, s.tgt = none) (hqm : m.tgt = none) (hok : ROK cfg m) (hnew : G m.srcName = some (.good m.src))
    (hother : ∀ n : FName, n.real → n ≠ m.srcName → G n = F n) : RecF cfg G (pre ++ [m] ++ post) := by
  have hlt := hd.lt
  obtain ⟨h1, h2, _⟩ := h.tiles.replace hm hlt hm
  have hcomp : ∀ a b, m.lo ≤ a → b ≤ m.hi → G ⟨.compact, a, b⟩ = none := by
    intro a b ha hb
    rw [hother _ (Or.inr rfl) (by simp [Shard.srcName])]
    cases e : F ⟨.compact, a, b⟩ with
    | none => rfl
    | some x =>
      exfalso
      obtain ⟨s, hs, e1, e2⟩ := h.compacts a b (by rw [e]; simp)
      have hlt' := (h.tiles.mem hs).2.1
      have ht := h.tgt s hs
      simp only [List.mem_append] at hs
      rcases hs with (hs | hs) | hs
      · have := h1.mem hs; omega
      · rw [hq s hs, Shard.tgtName, e1, e2, e] at ht; simp at ht
      · have := h2.mem hs; omega
  refine h.local hm hlt (Tiles.single hd) ?_ ?_ ?_ ?_ ?_ ?_
  · intro s hs; simp only [List.mem_singleton] at hs; subst hs; exact hok
  · intro n hr hn
    refine hother n hr ?_
    rintro rfl
    exact hn ⟨Nat.le_refl _, Nat.le_refl _⟩
  · intro s hs; simp only [List.mem_singleton] at hs; subst hs; exact hnew
  · intro s hs; simp only [List.mem_singleton] at hs; subst hs
    rw [Shard.tgtName, hcomp _ _ (Nat.le_refl _) (Nat.le_refl _), hqm]; rfl
  · intro a b ha hb hn
    refine ⟨?_, m, by simp, ha, hb⟩
    by_cases e : (⟨.shard, a, b⟩ : FName) = m.srcName
    · simp only [Shard.srcName, FName.mk.injEq, true_and] at e; omega
    · rw [hother _ (Or.inl rfl) e] at hn
      exact (h.shards a b hn).1
  · intro a b ha hb hn
    exact absurd (hcomp a b ha hb) hn

theorem Ctx.mergeLeaves {cfg : Cfg} {maxFill n : Nat} {F : FS} {pre post : List Shard} {b t : Shard} (h : Ctx cfg F pre [b, t] post)
    (hd : Dyadic b.lo t.hi) (hadj : b.hi = t.lo) (hb : b.Inv cfg) (ht : t.Inv cfg) (hbq : b.tgt = none) (htq : t.tgt = none)
    (hsmall : b.getStats.numItems ≤ maxFill → t.getStats.numItems ≤ maxFill → liveBytes b.src + liveBytes t.src < 4294967296)
    {r : MergeOut} (hr : mergeLeaves cfg maxFill b t n = .ok r) :
    ∃ F', Tr F (mergeLeavesOps cfg maxFill b t) F' (Loc cfg pre post (Holds cfg [b, t])) ∧ Ctx cfg F' pre r.shards post := by
  have hbd := h.tiles.dyadic (s := b) (by simp)
  have htd := h.tiles.dyadic (s := t) (by simp)
  have hbl := hbd.lt
  have htl := htd.lt
  have h0 : Loc cfg pre post (Holds cfg [b, t]) F := h.loc (fun _ _ => Iff.rfl)
  have nt : ¬ (⟨.merge, b.lo, t.hi⟩ : FName).real := by simp [FName.real]
  have hFt : F ⟨.merge, b.lo, t.hi⟩ = none := by
    cases e : F ⟨.merge, b.lo, t.hi⟩ with
    | none => rfl
    | some x =>
      obtain ⟨s, _, e'⟩ := h.dir.only _ (by rw [e]; simp)
      simp [Shard.srcName, Shard.tgtName] at e'
  have t2 := Tr.temp nt h0
  unfold mergeLeavesOps
  unfold Candy.mergeLeaves at hr
  by_cases e1 : b.getStats.numItems > maxFill
  · rw [if_pos e1] at hr ⊢
    simp only [Out.ok.injEq] at hr; subst hr
    exact ⟨F, Tr.nil h0, h⟩
  rw [if_neg e1] at hr ⊢
  by_cases e2 : t.getStats.numItems > maxFill
  · rw [if_pos e2] at hr ⊢
    simp only [Out.ok.injEq] at hr; subst hr
    exact ⟨F, Tr.nil h0, h⟩
  rw [if_neg e2] at hr ⊢
  rcases Shard.merge_spec hb ht hadj (by omega) (by omega) hbq htq (hsmall (by omega) (by omega)) with hm | ⟨f, hm, m1, m2, m3, m4, m5⟩
  · rw [hm] at hr ⊢
    simp only [Out.ok.injEq] at hr; subst hr
    simp only
    generalize ((fillPrims cfg _ MFile.empty _).getD [] : List Prim) = ps
    have t3 := Tr.tempPrims nt (f := MFile.empty) (F := F.upd ⟨.merge, b.lo, t.hi⟩ (some (.good MFile.empty))) (FS.upd_same _ _ _) ps t2.finish
    refine ⟨F, (t2.append t3).append (Tr.single ?_ (by simp) t3.finish h0), h⟩
    simp only [FOp.appF, FS.upd_same, FS.upd_upd]
    rw [← hFt, FS.upd_self]
  · have hm' := hm
    unfold Shard.merge at hm'
    split at hm'
    · split at hm'
      · simp at hm'
      · rename_i f' hfill
        simp only [MergeRes.merged.injEq, quiet, Shard.mk.injEq, true_and, and_true] at hm'
        subst hm'
        obtain ⟨ps, r1, r2⟩ := fillRows_prims hfill
        rw [hm] at hr ⊢
        simp only [Out.ok.injEq] at hr; subst hr
        simp only
        rw [r1]
        simp only [Option.getD_some]
        have t3 := Tr.tempPrims nt (f := MFile.empty) (F := F.upd ⟨.merge, b.lo, t.hi⟩ (some (.good MFile.empty))) (FS.upd_same _ _ _) ps t2.finish
        rw [r2] at t3
        have hqi := quiet_inv m1
        have hqa := quiet_acct (lo := b.lo) (hi := t.hi) (ex := false) m2
        have hts : Tiles b.lo t.hi [b, t] := .cons rfl hbd (.cons hadj.symm htd .nil)
        have hrb : b.srcName ≠ ⟨.shard, b.lo, t.hi⟩ := by simp [Shard.srcName]; omega
        have hrt : t.srcName ≠ ⟨.shard, b.lo, t.hi⟩ := by simp [Shard.srcName]; omega
        have hbt : b.srcName ≠ t.srcName := by simp [Shard.srcName]; omega
        have c3 : RecF cfg ((((F.upd ⟨.merge, b.lo, t.hi⟩ (some (.good MFile.empty))).upd ⟨.merge, b.lo, t.hi⟩ (some (.good f'))).upd
            ⟨.merge, b.lo, t.hi⟩ none).upd ⟨.shard, b.lo, t.hi⟩ (some (.good f'))) (pre ++ [quiet b.lo t.hi f'] ++ post) := by
          refine RecF.merge (m := quiet b.lo t.hi f') h.recF hts hd (by simp [hbq, htq]) rfl (hqi.rok hqa) (FS.upd_same _ _ _) ?_
          intro n hn hne
          have hne' : n ≠ ⟨.merge, b.lo, t.hi⟩ := by rintro rfl; exact nt hn
          rw [FS.upd_other (n := ⟨.shard, b.lo, t.hi⟩) _ _ hne, FS.upd_other _ _ hne', FS.upd_other _ _ hne', FS.upd_other _ _ hne']
        have hcov : ∀ x ∈ pre ++ [quiet b.lo t.hi f'] ++ post, (b.lo, b.hi) ≠ (x.lo, x.hi) ∧ (t.lo, t.hi) ≠ (x.lo, x.hi) := by
          intro x hx
          have hx' := c3.tiles.mem hx
          constructor <;> intro e <;> simp only [Prod.mk.injEq] at e
          · have := c3.tiles.eq_of_overlap (x := b.lo) hx (mem_mid (s := quiet b.lo t.hi f')) (by omega) (by omega) (Nat.le_refl _) hd.lt
            subst this; simp only [quiet] at e; omega
          · have := c3.tiles.eq_of_overlap (x := t.lo) hx (mem_mid (s := quiet b.lo t.hi f')) (by omega) (by omega) (by simp only [quiet]; omega) (by simp only [quiet]; omega)
            subst this; simp only [quiet] at e; omega
        have c4 := c3.uncover (a := b.lo) (b := b.hi) (fun x hx => (hcov x hx).1)
        have c5 := c4.uncover (a := t.lo) (b := t.hi) (fun x hx => (hcov x hx).2)
        have hholds : ∀ k v, Holds cfg [quiet b.lo t.hi f'] k v ↔ Holds cfg [b, t] k v := by
          intro k v
          rw [Holds.single, m5]
          unfold Holds
          simp only [List.mem_cons, List.not_mem_nil, or_false, exists_eq_or_imp, exists_eq_left]
          by_cases e : (cfg.ph k).shardSel < b.hi
          · rw [if_pos e]
            constructor
            · exact Or.inl
            · rintro (hv | hv)
              · exact hv
              · have := ht.val_span hv; omega
          · rw [if_neg e]
            constructor
            · exact Or.inr
            · rintro (hv | hv)
              · have := hb.val_span hv; omega
              · exact hv
        refine ⟨_, (t2.append t3).append (Tr.append (xs := [_]) (Tr.single ?_ (by simp) t3.finish ⟨_, c3, hholds⟩)
          (Tr.append (xs := [_]) (Tr.single ?_ (by simp) ⟨_, c3, hholds⟩ ⟨_, c4, hholds⟩) (Tr.single ?_ (by simp) ⟨_, c4, hholds⟩ ⟨_, c5, hholds⟩))), ?_⟩
        · simp only [FOp.appF, FS.upd_same]
        · simp only [FOp.appF]
          rw [FS.upd_other _ _ hrb, FS.upd_other _ _ (by simp [Shard.srcName]), FS.upd_other _ _ (by simp [Shard.srcName]), FS.upd_other _ _ (by simp [Shard.srcName]),
            h.dir.src b (by simp)]
          rfl
        · simp only [FOp.appF]
          have : t.srcName ≠ ⟨.shard, b.lo, b.hi⟩ := hbt.symm
          rw [FS.upd_other _ _ this, FS.upd_other _ _ hrt, FS.upd_other _ _ (by simp [Shard.srcName]), FS.upd_other _ _ (by simp [Shard.srcName]), FS.upd_other _ _ (by simp [Shard.srcName]),
            h.dir.src t (by simp)]
          rfl
        · have hsrcm : (quiet b.lo t.hi f').srcName ≠ b.srcName := fun e => hrb e.symm
          have hsrcm' : (quiet b.lo t.hi f').srcName ≠ t.srcName := fun e => hrt e.symm
          refine h.replace hts hd.lt (Tiles.single (s := quiet b.lo t.hi f') hd) (by simp [hbq, htq]) (by simp [quiet]) ?_ ?_ ?_ ?_
          · intro x hx; simp only [List.mem_singleton] at hx; subst hx; exact hqi.rok hqa
          · intro x hx; simp only [List.mem_singleton] at hx; subst hx
            rw [FS.upd_other (n := ⟨.shard, t.lo, t.hi⟩) _ _ hsrcm', FS.upd_other (n := ⟨.shard, b.lo, b.hi⟩) _ _ hsrcm]; exact FS.upd_same _ _ _
          · intro x hx
            have hx' := hx _ List.mem_cons_self
            by_cases g1 : x = t.srcName
            · left; rw [g1]; exact FS.upd_same _ _ _
            rw [FS.upd_other (n := ⟨.shard, t.lo, t.hi⟩) _ _ g1]
            by_cases g2 : x = b.srcName
            · left; rw [g2]; exact FS.upd_same _ _ _
            rw [FS.upd_other (n := ⟨.shard, b.lo, b.hi⟩) _ _ g2, FS.upd_other (n := ⟨.shard, b.lo, t.hi⟩) _ _ hx']
            by_cases g3 : x = ⟨.merge, b.lo, t.hi⟩
            · left; rw [g3]; exact FS.upd_same _ _ _
            right
            rw [FS.upd_other _ _ g3, FS.upd_other _ _ g3, FS.upd_other _ _ g3]
            refine ⟨rfl, ?_⟩
            intro y hy
            simp only [List.mem_cons, List.not_mem_nil, or_false] at hy
            rcases hy with rfl | rfl
            · exact g2
            · exact g1
          · intro x hx
            repeat rw [FS.upd_other]
            all_goals (intro e; subst e; simp only [] at hx; omega)
    · simp at hm'

end Candy
