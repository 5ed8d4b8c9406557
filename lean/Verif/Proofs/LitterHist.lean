import Verif.Proofs.LitterFail
/-!
# Histories with I/O errors, with the directory
-/
namespace Candy
open Spec

/-- The deletions of `clear`, whatever the directory holds. -/
theorem clearScan_run' : ∀ (d : Dir) (F : FS), d.Nodup → (∀ n, n ∈ d.map Prod.fst → F n ≠ none) →
    ∃ F', F.run (clearScan d) = some F' ∧ ∀ n, F' n = if n ∈ d.map Prod.fst ∧ n.kind ≠ .merge then none else F n := by
  intro d
  induction d with
  | nil => intro F _ _; exact ⟨F, rfl, fun n => by simp⟩
  | cons e d ih =>
    obtain ⟨m, x⟩ := e
    intro F hn hF
    have hn' : m ∉ d.map Prod.fst ∧ (d.map Prod.fst).Nodup := List.nodup_cons.1 hn
    have hm := hF m (by simp)
    by_cases hk : m.kind = .merge
    · obtain ⟨F', h1, h2⟩ := ih F hn'.2 (fun n hn2 => hF n (List.mem_cons_of_mem _ hn2))
      refine ⟨F', ?_, fun n => ?_⟩
      · rw [clearScan, hk]; exact h1
      · rw [h2]
        by_cases e : n = m
        · subst e; simp [hk]
        · simp only [List.map_cons, List.mem_cons, e, false_or]
    · obtain ⟨F', h1, h2⟩ := ih (F.upd m none) hn'.2 (fun n hn2 => by
        rw [FS.upd_other]
        · exact hF n (List.mem_cons_of_mem _ hn2)
        · rintro rfl; exact hn'.1 hn2)
      have hs : clearScan ((m, x) :: d) = .unlink m :: clearScan d := by
        rw [clearScan]
        split
        · rename_i e; exact absurd e hk
        · rfl
      refine ⟨F', ?_, fun n => ?_⟩
      · rw [hs]
        have : FOp.appF F (.unlink m) = some (F.upd m none) := by
          cases hf : F m with
          | none => exact absurd hf hm
          | some y => simp only [FOp.appF, hf]
        rw [FS.run, this]
        exact h1
      · rw [h2]
        by_cases e : n = m
        · subst e; simp [FS.upd_same, hk]
        · rw [FS.upd_other _ _ e]; simp only [List.map_cons, List.mem_cons, e, false_or]

/-- `clear` leaves the files of a new store, and litter. -/
theorem clear_litter {cfg : Cfg} {t' : Tree} {d d' : Dir} (hn : d.Nodup) (h : Tree.create cfg = some t') (hr : d.run (clearOps cfg d) = some d') :
    Littered d' t'.leaves := by
  have hb := create_bound h
  obtain ⟨u, h1, h2, hnd, _, _, hq, hem, _⟩ := Tree.create_spec hb true
  rw [h1] at h; simp only [Option.some.injEq] at h; subst h
  unfold Tree.create at h1
  cases hl : createInitialShards cfg with
  | none => rw [hl] at h1; cases h1
  | some l =>
    rw [hl] at h1
    have hte : treeify l = some u := h1
    have hle := treeify_leaves hte
    have htl := (h2.tiling hnd dyadic_full).tiles
    rw [hle] at htl
    obtain ⟨F1, g1, g2⟩ := clearScan_run' d d.find hn fun n hm => Dir.mem_names.1 hm
    obtain ⟨F', e1, e2, e3⟩ := create_run l F1 (fun s hs => ⟨hem s (hle ▸ hs), hq s (hle ▸ hs)⟩) htl.names
    have hrun : FS.run d.find (clearOps cfg d) = some F' := by
      unfold clearOps
      rw [hl, FS.run_append, g1]
      exact e1
    obtain ⟨d1, r1, r2, r3⟩ := Dir.run_of hn hrun
    rw [hr] at r1; simp only [Option.some.injEq] at r1; subst r1
    have hF1 : ∀ n : FName, n.kind ≠ .merge → F1 n = none := fun n hk => by
      rw [g2]
      split
      · rfl
      · rename_i hx
        exact Classical.byContradiction fun hne => hx ⟨Dir.mem_names.2 hne, hk⟩
    refine ⟨r2, fun n => if n.kind = .merge then none else F' n, ?_, fun n => ?_⟩
    · rw [hle]
      refine ⟨fun s hs => (e2 s hs).1, fun s hs => ?_, fun n hne => ?_⟩
      · rw [hq s (hle ▸ hs)]
        exact (e2 s hs).2
      · by_cases hk : n.kind = .merge
        · exact absurd (if_pos hk) hne
        · refine Classical.byContradiction fun hex => ?_
          apply hne
          show (if n.kind = .merge then none else F' n) = none
          rw [if_neg hk, e3 n (fun s hs => ⟨fun e => hex ⟨s, hs, Or.inl e⟩, fun e => hex ⟨s, hs, Or.inr e⟩⟩), hF1 n hk]
    · rw [r3]
      by_cases hk : n.kind = .merge
      · cases e : F' n with
        | none => left; show none = if n.kind = .merge then none else F' n; rw [if_pos hk]
        | some x =>
          right
          refine ⟨if_pos hk, x, rfl, ?_⟩
          unfold Litter
          rw [hk]
      · left
        show F' n = if n.kind = .merge then none else F' n
        rw [if_neg hk]

/-- The invariant. -/
theorem DRun.refines {cfg : Cfg} {t t' : Tree} {d d' : Dir} {es : List EEvent} (h : DRun cfg t d es t' d') :
    ∀ w, Sane cfg false t → LTree cfg d t → MAbs cfg (t.get cfg) w →
      ∃ w', SpecRun cfg w (es.map EEvent.asIfDied) w' ∧ Sane cfg false t' ∧ LTree cfg d' t' ∧ MAbs cfg (t'.get cfg) w' := by
  induction h with
  | nil t d => exact fun w hs hl hm => ⟨w, .nil _, hs, hl, hm⟩
  | call h hr hne _ ih =>
    intro w hs hl hm
    obtain ⟨h1, h2, h3⟩ := h.sim hs hl
    obtain ⟨_, h4⟩ := h1.sim hs.ok
    obtain ⟨w1, h5, h6⟩ := call_refines _ hm h4 hr hne
    obtain ⟨w2, h7, h8⟩ := ih w1 h2 h3 h6
    exact ⟨w2, .call h5 h7, h8⟩
  | failed h hsm hf _ ih =>
    intro w hs hl hm
    obtain ⟨h1, h2, h3⟩ := h.sim hs hl
    obtain ⟨⟨x, h4⟩, h5⟩ := hf.litter h2 hsm h3
    have hcf : CallFails cfg _ _ _ x := ⟨_, _, h1, hsm, h4⟩
    obtain ⟨g1, p', g2⟩ := hcf.sim hs.ok
    obtain ⟨w1, g3, g4⟩ := call_crash _ hm g2
    obtain ⟨w2, g5, g6⟩ := ih w1 ⟨hs.bound, g1⟩ h5 g4
    exact ⟨w2, .crash g3 g5, g6⟩
  | bg sel hsm h hd _ ih =>
    intro w hs hl hm
    obtain ⟨h1, h2⟩ := bg_get hs.ok hsm h
    exact ih w ⟨hs.bound, h1⟩ ((RawStep.bg h).littered hl hs hsm hd) (h2 ▸ hm)
  | merge hok h hd _ ih =>
    intro w hs hl hm
    obtain ⟨h1, h2⟩ := merge_get hs hok h
    obtain ⟨w2, h5, h6⟩ := ih w h1 ((RawStep.merge hok h).littered hl hs hok.small hd) (h2 ▸ hm)
    exact ⟨w2, .merge h5, h6⟩
  | @mergeLoad t t1 t2 t' d d1 d2 d' es maxFill b clearBad ops hok h hd hz ho hd2 _ ih =>
    intro w hs hl hm
    obtain ⟨h1, h2⟩ := merge_get hs hok h
    have hl1 : LTree cfg d1 t1 := (RawStep.merge hok h).littered hl hs hok.small hd
    obtain ⟨g1, g2, g3, _, _, g4⟩ := (RestartD.done hz ho hd2).spec (hl1.recJ h1.ok)
    obtain ⟨w2, h5, h6⟩ := ih w ⟨hs.bound, g2⟩ (g1.tree g2 g3) (by rw [g4, h2]; exact hm)
    exact ⟨w2, .merge h5, h6⟩
  | @clear t t1 t' d d1 d' es hq h hd _ ih =>
    intro w hs hl hm
    obtain ⟨h1, h2⟩ := create_sane h
    have hnd : t1.NonDegenerate := by
      obtain ⟨t', e1, _, e2, _⟩ := Tree.create_spec hs.bound true
      have h' := h
      unfold Tree.clear at h'
      rw [e1] at h'; simp only [Option.some.injEq] at h'; subst h'
      exact e2
    obtain ⟨w2, h5, h6⟩ := ih World.new h1.weaken ((clear_litter hl.1 h hd).tree h1.ok hnd) (h2 ▸ MAbs.new cfg)
    exact ⟨w2, .clear h5, h6⟩
  | @reopen t u t1 t' d d1 d2 d' es clearBad hsm hu hd h _ ih =>
    intro w hs hl hm
    obtain ⟨u', e', uok, usm, uq, uspan, uval⟩ := Tree.finishAll_spec hs.ok hsm
    rw [hu] at e'; simp only [Option.some.injEq] at e'; subst e'
    have ug : u.get cfg = t.get cfg := funext fun k => uval k ⟨Nat.zero_le _, (cfg.ph k).shardSel_lt⟩
    have hl1 : LTree cfg d1 u := (RawStep.close hu).littered hl hs hsm hd
    obtain ⟨g1, g2, g3, _, _, g4⟩ := h.spec (hl1.recJ uok)
    obtain ⟨w2, h7, h8⟩ := ih w ⟨hs.bound, g2⟩ (g1.tree g2 g3) (by rw [g4, ug]; exact hm)
    exact ⟨w2, .reopen h7, h8⟩
  | crash h hsm hc hb hr _ ih =>
    intro w hs hl hm
    obtain ⟨h1, h2, h3⟩ := h.sim hs hl
    obtain ⟨_, h4⟩ := h1.sim hs.ok
    obtain ⟨m', p', h5, h6⟩ := hc.recJ h3 h2.ok hsm
    obtain ⟨w1, g3, g4⟩ := call_crash _ hm (h4.trans h5)
    obtain ⟨g1, g2, g5, _, _, g6⟩ := hr.spec (RecJ.bg hb h6)
    obtain ⟨w2, h7, h8⟩ := ih w1 ⟨hs.bound, g2⟩ (g1.tree g2 g5) (g6 ▸ g4)
    exact ⟨w2, .crash g3 h7, h8⟩
  | crashIdle hsm hb hr _ ih =>
    intro w hs hl hm
    obtain ⟨g1, g2, g5, _, _, g6⟩ := hr.spec (RecJ.bg hb (hl.recJ hs.ok))
    obtain ⟨w2, h7, h8⟩ := ih w ⟨hs.bound, g2⟩ (g1.tree g2 g5) (g6 ▸ hm)
    exact ⟨w2, .crash rfl h7, h8⟩
  | crashMerge hok hc hb hr _ ih =>
    intro w hs hl hm
    obtain ⟨ex', ho, hfit⟩ := hok.cases hs
    obtain ⟨g1, g2, g5, _, _, g6⟩ := hr.spec (RecJ.bg hb (MergeCrash.recJ hl hc ho hok.small hfit))
    obtain ⟨w2, h7, h8⟩ := ih w ⟨hs.bound, g2⟩ (g1.tree g2 g5) (g6 ▸ hm)
    exact ⟨w2, .crash rfl h7, h8⟩

theorem DReachable.inv {cfg : Cfg} {es : List EEvent} {t : Tree} {d : Dir} (h : DReachable cfg es t d) :
    ∃ w, SpecRun cfg World.new (es.map EEvent.asIfDied) w ∧ Sane cfg false t ∧ LTree cfg d t ∧ MAbs cfg (t.get cfg) w := by
  obtain ⟨clearBad, ops, t0, d0, h1, h2, h3⟩ := h
  have hc : Tree.create cfg = some t0 := by
    have hl : load cfg clearBad [] = ([], .ok []) := by
      simp [load, scanDir, consolidate, openAll]
    unfold openStore at h1
    rw [hl] at h1
    dsimp only at h1
    unfold Tree.create
    cases e : createInitialShards cfg with
    | none => rw [e] at h1; simp at h1
    | some l =>
      rw [e] at h1
      dsimp only at h1
      cases e2 : treeify l with
      | none => rw [e2] at h1; simp at h1
      | some u => rw [e2] at h1; simp at h1; simp [e2, h1.2]
  obtain ⟨ops', d', e1, e2, e3⟩ := openStore_new hc clearBad
  rw [h1] at e1
  simp only [Prod.mk.injEq] at e1
  obtain ⟨rfl, _⟩ := e1
  rw [h2] at e2; simp only [Option.some.injEq] at e2; subst e2
  obtain ⟨g1, g2⟩ := create_sane hc
  obtain ⟨_, c1, _, c2, _⟩ := Tree.create_spec (create_bound hc) true
  rw [hc] at c1; simp only [Option.some.injEq] at c1; subst c1
  exact h3.refines World.new g1.weaken (e3.littered.tree g1.ok c2) (g2 ▸ MAbs.new cfg)

end Candy
