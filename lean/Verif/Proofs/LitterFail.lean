import Verif.Proofs.LitterRun
import Verif.Proofs.Errors
/-!
# Failed calls in a directory with remains of failed calls
-/
namespace Candy
open Spec

/-- The directory holds the files of the shards `pre ++ l ++ post`, which can be recovered, and litter. -/
def LCtx (cfg : Cfg) (d : Dir) (pre l post : List Shard) : Prop := d.Nodup ∧ ∃ G, Ctx cfg G pre l post ∧ Over true d.find G

theorem LCtx.cast {cfg : Cfg} {d : Dir} {pre l post pre' l' post' : List Shard} (h : LCtx cfg d pre l post)
    (e : pre ++ l ++ post = pre' ++ l' ++ post') : LCtx cfg d pre' l' post' := by
  obtain ⟨hn, G, hc, ho⟩ := h
  exact ⟨hn, G, hc.cast e, ho⟩

theorem LCtx.run {cfg : Cfg} {d d' : Dir} {pre l l' post : List Shard} {ops : List FOp} (h : LCtx cfg d pre l post) (hd : d.run ops = some d')
    (hs : ∀ G, Ctx cfg G pre l post → Keeps G ops ∧ ∃ G', G.run ops = some G' ∧ Ctx cfg G' pre l' post) : LCtx cfg d' pre l' post := by
  obtain ⟨hn, G, hG, ho⟩ := h
  obtain ⟨hk, G', h1, h2⟩ := hs G hG
  obtain ⟨F', h3, h4⟩ := ho.run h1 fun _ => hk
  obtain ⟨d1, r1, r2, r3⟩ := Dir.run_of hn h3
  rw [hd] at r1; simp only [Option.some.injEq] at r1; subst r1
  exact ⟨r2, G', h2, r3 ▸ h4⟩

theorem LCtx.crash {cfg : Cfg} {d d' : Dir} {pre l post : List Shard} {ops : List FOp} (P : FName → Prop) (h : LCtx cfg d pre l post)
    (hc : Dir.Crash d ops d') (hon : ∀ o ∈ ops, FOp.On P o)
    (hP : ∀ G, Ctx cfg G pre l post → Over true d.find G → ∀ n, P n → G n = none ∧ ∀ x, d'.find n = some x → Litter true G n x) : LCtx cfg d' pre l post := by
  obtain ⟨hn, G, hG, ho⟩ := h
  obtain ⟨hn', hf⟩ := hc.find hn
  obtain ⟨_, _, _, hout⟩ := hf.local (P := P) hon (fun n _ => rfl)
  refine ⟨hn', G, hG, fun n => ?_⟩
  by_cases hp : P n
  · obtain ⟨h1, h2⟩ := hP G hG ho n hp
    cases e : d'.find n with
    | none => left; rw [h1]
    | some x => exact Or.inr ⟨h1, x, rfl, h2 x e⟩
  · rw [hout n hp]; exact ho n

/-- A compaction whose file cannot be created. -/
theorem LCtx.begin {cfg : Cfg} {d d' : Dir} {pre post : List Shard} {s : Shard} {off : Nat} (h : LCtx cfg d pre [s] post)
    (hc : Dir.Crash d (s.beginOps off) d') : LCtx cfg d' pre [s] post := by
  have hnil : Dir.Crash d [] d' → LCtx cfg d' pre [s] post := fun hc => by cases hc; exact h
  unfold Shard.beginOps at hc
  split at hc
  · exact hnil hc
  · cases hq : s.tgt with
    | some t => rw [hq] at hc; exact hnil hc
    | none =>
      rw [hq] at hc
      dsimp only at hc
      refine h.crash (fun n => n = s.tgtName) hc (createOps_on rfl) fun G hG ho n hp => ?_
      subst hp
      have hg : G s.tgtName = none := by rw [hG.tgtF, hq]; rfl
      refine ⟨hg, fun x hx => ?_⟩
      show x.asFile = MFile.empty
      obtain ⟨_, hf⟩ := hc.find h.1
      have h0 : ∀ x, d.find s.tgtName = some x → x.asFile = MFile.empty := by
        intro x hx
        rcases ho s.tgtName with e | ⟨_, y, e1, e2⟩
        · rw [hg, hx] at e; cases e
        · rw [hx] at e1; simp only [Option.some.injEq] at e1; subst e1; exact e2
      generalize d.find = F at hf h0
      generalize d'.find = F' at hf hx
      unfold createOps at hf
      cases hf with
      | stop => exact h0 x hx
      | step h1 h2 =>
        simp only [FOp.appF, Option.some.injEq] at h1
        subst h1
        cases h2 with
        | stop => rw [FS.upd_same] at hx; simp only [Option.some.injEq] at hx; subst hx; rfl
        | step h3 h4 =>
          simp only [FOp.appF, FS.upd_same, Option.some.injEq] at h3
          subst h3
          cases h4 with
          | stop => rw [FS.upd_same] at hx; simp only [Option.some.injEq] at hx; subst hx; rfl
          | step h5 h6 =>
            simp only [FOp.appF, FS.upd_same, Option.some.injEq] at h5
            subst h5
            cases h6
            rw [FS.upd_same] at hx; simp only [Option.some.injEq] at hx; subst hx; rfl

/-- A `split` that fails before the file of the shard is deleted. -/
theorem LCtx.split {cfg : Cfg} {d d' : Dir} {pre post : List Shard} {s : Shard} (h : LCtx cfg d pre [s] post) (hq : s.tgt = none) (hw : s.lo + 1 < s.hi)
    (hc : Dir.Crash d (s.splitOps cfg).dropLast d') : LCtx cfg d' pre [s] post := by
  have hm1 : s.lo < midOf s.lo s.hi := by unfold midOf; omega
  have hm2 : midOf s.lo s.hi < s.hi := by unfold midOf; omega
  let P : FName → Prop := fun n => n.kind = .bottom ∨ n.kind = .top ∨ n = ⟨.shard, s.lo, midOf s.lo s.hi⟩ ∨ n = ⟨.shard, midOf s.lo s.hi, s.hi⟩
  have e1 : s.finishOps cfg = [] := by unfold Shard.finishOps; rw [hq]
  have e2 : s.finish cfg = some s := by unfold Shard.finish; rw [hq]
  have hon : ∀ o ∈ (s.splitOps cfg).dropLast, FOp.On P o := by
    intro o ho
    have ho : o ∈ (s.finishOps cfg ++ (match s.finish cfg with | none => [] | some s => _)).dropLast := ho
    rw [e1, e2] at ho
    dsimp only at ho
    rw [List.nil_append, List.dropLast_append_of_ne_nil (by simp)] at ho
    simp only [List.dropLast, List.mem_append, List.mem_cons, List.not_mem_nil, or_false] at ho
    rcases ho with (((ho | ho) | ho) | ho) | ho
    · exact createOps_on (P := P) (Or.inl rfl) o ho
    · exact createOps_on (P := P) (Or.inr (Or.inl rfl)) o ho
    · exact onFile_on (P := P) (Or.inl rfl) _ o ho
    · exact onFile_on (P := P) (Or.inr (Or.inl rfl)) _ o ho
    · rcases ho with rfl | rfl
      · exact ⟨Or.inl rfl, Or.inr (Or.inr (Or.inl rfl))⟩
      · exact ⟨Or.inr (Or.inl rfl), Or.inr (Or.inr (Or.inr rfl))⟩
  refine h.crash P hc hon fun G hG ho n hp => ?_
  have ht := hG.tiles
  obtain ⟨d1, d2⟩ := (ht.dyadic mem_mid).mid hm1
  have hsrc : G ⟨.shard, s.lo, s.hi⟩ ≠ none := by
    have := hG.srcF
    rw [show (⟨.shard, s.lo, s.hi⟩ : FName) = s.srcName from rfl, this]; simp
  have half : ∀ a b, inR s.lo s.hi ⟨.shard, a, b⟩ → ¬ (a = s.lo ∧ b = s.hi) → G ⟨.shard, a, b⟩ = none := by
    intro a b hr hne
    refine Classical.byContradiction fun hg => ?_
    obtain ⟨s', hs', e | e⟩ := hG.dir.only _ hg
    · have h0 := ht.mem hs'
      have rr : inR s'.lo s'.hi ⟨.shard, a, b⟩ := by rw [e]; exact ⟨Nat.le_refl _, h0.2.1, Nat.le_refl _⟩
      have := inR.apart ht mem_mid hs' hr rr
      subst this
      simp only [Shard.srcName, FName.mk.injEq, true_and] at e
      exact hne e
    · cases e
  have hbt : n.kind = .bottom ∨ n.kind = .top → G n = none ∧ ∀ x, d'.find n = some x → Litter true G n x := by
    intro hk
    refine ⟨Classical.byContradiction fun hg => ?_, fun x _ => ?_⟩
    · obtain ⟨s', _, e | e⟩ := hG.dir.only _ hg <;> rw [e] at hk <;> rcases hk with hk | hk <;> cases hk
    · unfold Litter
      rcases hk with hk | hk <;> rw [hk]
  rcases hp with e | e | e | e
  · exact hbt (Or.inl e)
  · exact hbt (Or.inr e)
  · subst e
    exact ⟨half _ _ ⟨Nat.le_refl _, hm1, Nat.le_of_lt hm2⟩ (by omega), fun x _ => ⟨rfl, d1, _, _, hsrc, Nat.le_refl _, Nat.le_of_lt hm2⟩⟩
  · subst e
    exact ⟨half _ _ ⟨Nat.le_of_lt hm1, hm2, Nat.le_refl _⟩ (by omega), fun x _ => ⟨rfl, d2, _, _, hsrc, Nat.le_of_lt hm1, Nat.le_refl _⟩⟩

/-- The stores of `insert` without a new compaction. -/
theorem LCtx.plan {cfg : Cfg} {d d' : Dir} {pre post : List Shard} {s : Shard} {k v : Bytes} {mode : Mode} (h : LCtx cfg d pre [s] post) (hi : s.Inv cfg)
    (hsmall : s.Small) (hk : k.length < 65536) (hv : v.length < 65536) (hlo : s.lo ≤ (cfg.ph k).shardSel) (hhi : (cfg.ph k).shardSel < s.hi)
    (hd : d.run (onFile (s.activeName (cfg.ph k).rowSel) (s.insertPlan cfg (cfg.ph k) k v mode).1) = some d') :
    LCtx cfg d' pre [s.runActive (cfg.ph k).rowSel (s.insertPlan cfg (cfg.ph k) k v mode).1] post := by
  refine h.run hd fun G hG => ⟨Keeps.plain (onFile_plain _ _), ?_⟩
  have hplan := insertPlan_spec (mode := mode) (hi.active (cfg.ph k).rowSel) (hi.val k) hk hv (hsmall.active _)
  rcases hplan with ⟨_, e, _⟩ | ⟨_, he⟩
  · rw [e, Shard.runActive_nil]
    exact ⟨G, rfl, hG⟩
  · obtain ⟨F', g1, g2⟩ := hG.effect hi he hlo hhi
    exact ⟨F', g1.1, g2⟩

theorem LCtx.write {cfg : Cfg} {d : Dir} {pre post : List Shard} {s : Shard} {row : Nat} {g : MFile} {k v : Bytes} (h : LCtx cfg d pre [s] post)
    (hi : s.Inv cfg) (ha : s.AcctInv false) (hw : WriteFails (s.active row) k v g) :
    LCtx cfg (d.put (s.activeName row) (.good g)) pre [s.setActive row g] post := by
  obtain ⟨hn, G, hG, ho⟩ := h
  obtain ⟨h1, h2, _⟩ := hw.shard hi ha
  have h4 := s.setActive_lo row g
  refine ⟨hn.put _ _, G.upd (s.activeName row) (some (.good g)), ?_, by rw [Dir.find_put']; exact ho.updSome _ _⟩
  rcases s.setActive_cases row with ⟨t, e1, e2, e3, e4, e5, e6⟩ | ⟨e1, e3, e4, e5, e6⟩
  · refine hG.change h4.1 h4.2 (h1.rok h2) (fun n _ hn => ?_) ?_ ?_
    · rw [e4]; exact FS.upd_other _ _ hn
    · rw [e4, e5, FS.upd_other _ _ (srcName_ne_tgtName s)]; exact hG.srcF
    · rw [e4, e5, FS.upd_same]; rfl
  · refine hG.change h4.1 h4.2 (h1.rok h2) (fun n hn _ => ?_) ?_ ?_
    · rw [e4]; exact FS.upd_other _ _ hn
    · rw [e4, e5, FS.upd_same]
    · rw [e4, e5, FS.upd_other _ _ (srcName_ne_tgtName s).symm]; exact hG.tgtF

/-- Forgetting the directory. -/
theorem InsFailsD.forget {cfg : Cfg} {ph : PH} {k v : Bytes} {mode : Mode} {t t' : Tree} {d d' : Dir} (h : InsFailsD cfg ph k v mode t d t' d') :
    ∃ x, InsFails cfg ph k v mode t t' x := by
  induction h with
  | read s d => exact ⟨_, .read s⟩
  | write h hw => exact ⟨_, .write h hw⟩
  | sync h hd => exact ⟨_, .sync h⟩
  | begin h hd hc => exact ⟨_, .begin h⟩
  | split h hd hf hd2 hw hc => exact ⟨_, .split h hf⟩
  | afterSplit h hd hs hd2 hw _ ih => obtain ⟨x, ih⟩ := ih; exact ⟨x, .afterSplit h hs ih⟩
  | bottom h _ ih => obtain ⟨x, ih⟩ := ih; exact ⟨x, .bottom h ih⟩
  | top h _ ih => obtain ⟨x, ih⟩ := ih; exact ⟨x, .top h ih⟩

/-- What a shard is when `insert` asks for a split. -/
theorem insert_splitNeeded {cfg : Cfg} {s s' : Shard} {k v : Bytes} {mode : Mode} {ex : Bool} (hinv : s.Inv cfg) (ha : s.AcctInv ex) (hsm : s.Small)
    (hk : k.length < 65536) (hv : v.length < 65536) (hlo : s.lo ≤ (cfg.ph k).shardSel) (hhi : (cfg.ph k).shardSel < s.hi)
    (h : s.insert cfg (cfg.ph k) k v mode = (s', .splitNeeded)) : s'.Inv cfg ∧ s'.AcctInv ex ∧ s'.Small ∧ s'.lo = s.lo ∧ s'.hi = s.hi := by
  obtain ⟨g1, g2, g3, g4⟩ := Shard.insert_spec (mode := mode) hinv (hsm.active (cfg.ph k).rowSel) hk hv hlo hhi
  have ha' := Shard.insert_acct (mode := mode) hinv ha (hsm.active (cfg.ph k).rowSel) hk hv
  have hspl := Shard.insert_split (mode := mode) hinv (hsm.active (cfg.ph k).rowSel) hk hv (by rw [h])
  rw [h] at g1 g2 g3 g4 ha' hspl
  simp only at g1 g2 g3 g4 ha' hspl
  refine ⟨g1, ha', ?_, g2, g3⟩
  rcases hspl with e | ⟨off, e⟩
  · rw [e]; exact hsm
  · rw [e]; exact Shard.beginCompaction_small ha hsm off

theorem LCtx.insertShard {cfg : Cfg} {d d' : Dir} {pre post : List Shard} {s s' : Shard} {st : InsStatus} {k v : Bytes} {mode : Mode}
    (h : LCtx cfg d pre [s] post) (hi : s.Inv cfg)
    (hsmall : s.Small) (hk : k.length < 65536) (hv : v.length < 65536) (hlo : s.lo ≤ (cfg.ph k).shardSel) (hhi : (cfg.ph k).shardSel < s.hi)
    (hs : s.insert cfg (cfg.ph k) k v mode = (s', st)) (hd : d.run (s.insertOps cfg (cfg.ph k) k v mode) = some d') : LCtx cfg d' pre [s'] post := by
  refine h.run hd fun G hG => ⟨Keeps.plain (insertOps_plain _ _ _ _ _ _), ?_⟩
  obtain ⟨F', g1, g2⟩ := hG.insertShard (mode := mode) hi hsmall hk hv hlo hhi
  rw [hs] at g2
  exact ⟨F', g1.1, g2⟩

/-- A failed insertion leaves the files of the shards, and litter. -/
theorem InsFailsD.litter {cfg : Cfg} {k v : Bytes} {mode : Mode} (hk : k.length < 65536) (hv : v.length < 65536) {t t' : Tree} {d d' : Dir}
    (h : InsFailsD cfg (cfg.ph k) k v mode t d t' d') :
    ∀ lo hi pre post, Tree.OK cfg false lo hi t → t.Small → inSpan lo hi (cfg.ph k).shardSel → LCtx cfg d pre t.leaves post → LCtx cfg d' pre t'.leaves post := by
  induction h with
  | read s d => exact fun lo hi pre post _ _ _ hc => hc
  | @write s d g h hw =>
    intro lo hi pre post hok hsm hsel hc
    cases hok with
    | leaf hlo hhi hle hinv ha => exact hc.write hinv ha hw
  | @sync s d d' h hd =>
    intro lo hi pre post hok hsm hsel hc
    cases hok with
    | leaf hlo hhi hle hinv ha =>
      subst hlo hhi
      exact hc.plan hinv (Tree.Small.leaf.1 hsm) hk hv hsel.1 hsel.2 hd
  | @begin s d d1 d' off h hd hcr =>
    intro lo hi pre post hok hsm hsel hc
    cases hok with
    | leaf hlo hhi hle hinv ha =>
      subst hlo hhi
      exact (hc.plan hinv (Tree.Small.leaf.1 hsm) hk hv hsel.1 hsel.2 hd).begin hcr
  | @split s s' s'' d d1 d2 d' h hd hf hd2 hw hcr =>
    intro lo hi pre post hok hsm hsel hc
    cases hok with
    | leaf hlo hhi hle hinv ha =>
      subst hlo hhi
      have hsm := Tree.Small.leaf.1 hsm
      obtain ⟨g1, g2, g3, g4, g5⟩ := insert_splitNeeded hinv ha hsm hk hv hsel.1 hsel.2 h
      obtain ⟨u, e, u1, u2, u3, u4, _⟩ := Shard.finish_spec g1 g3 g2
      rw [hf] at e; simp only [Option.some.injEq] at e; subst e
      have hc1 := LCtx.insertShard (d := d) (pre := pre) (post := post) hc hinv hsm hk hv hsel.1 hsel.2 h hd
      have hc2 : LCtx cfg d2 pre [s''] post := hc1.run hd2 fun G hG => by
        obtain ⟨F', u', q1, q2, q3⟩ := hG.finish g1 g3
        rw [hf] at q1; simp only [Option.some.injEq] at q1; subst q1
        exact ⟨Keeps.plain (finishOps_plain _ _), F', q2.1, q3⟩
      exact hc2.split u2 (by omega) hcr
  | @afterSplit s s' b t u d d1 d2 d' h hd hs hd2 hw _ ih =>
    intro lo hi pre post hok hsm hsel hc
    cases hok with
    | leaf hlo hhi hle hinv ha =>
      subst hlo hhi
      have hsm := Tree.Small.leaf.1 hsm
      obtain ⟨g1, g2, g3, g4, g5⟩ := insert_splitNeeded hinv ha hsm hk hv hsel.1 hsel.2 h
      have hm1 : s'.lo < midOf s'.lo s'.hi := by unfold midOf; omega
      obtain ⟨b', t', p1, p2, p3, p4⟩ := Shard.split_tree g1 g3 g2 (by omega)
      rw [hs] at p1
      simp only [Option.some.injEq, Prod.mk.injEq] at p1
      obtain ⟨rfl, rfl⟩ := p1
      have hc1 := LCtx.insertShard (d := d) (pre := pre) (post := post) hc hinv hsm hk hv hsel.1 hsel.2 h hd
      refine ih _ _ pre post p2 p3 (by rw [g4, g5]; exact hsel) ?_
      refine hc1.run hd2 fun G hG => ?_
      obtain ⟨F', b1, t1, q1, q2, q3⟩ := hG.split g1 g3 hm1
      rw [hs] at q1; simp only [Option.some.injEq, Prod.mk.injEq] at q1
      obtain ⟨rfl, rfl⟩ := q1
      obtain ⟨s1, f1, _, _, f4, f5, _⟩ := s'.finish_spec g1 g3 g2
      exact ⟨split_keeps f1 f4 f5 (hG.tiles.dyadic mem_mid) hm1 G, F', q2.1, q3⟩
  | @bottom b t b' d d' h _ ih =>
    intro lo hi pre post hok hsm hsel hc
    cases hok with
    | vertex hle hb ht =>
      rw [Tree.Small.vertex] at hsm
      rw [hb.hi_eq] at h
      have := ih _ _ pre (t.leaves ++ post) hb hsm.1 ⟨hsel.1, h⟩ (hc.cast (by rw [Tree.leaves_vertex]; simp))
      exact this.cast (by rw [Tree.leaves_vertex]; simp)
  | @top b t t' d d' h _ ih =>
    intro lo hi pre post hok hsm hsel hc
    cases hok with
    | vertex hle hb ht =>
      rw [Tree.Small.vertex] at hsm
      rw [hb.hi_eq] at h
      have := ih _ _ (pre ++ b.leaves) post ht hsm.2 ⟨by omega, hsel.2⟩ (hc.cast (by rw [Tree.leaves_vertex]; simp))
      exact this.cast (by rw [Tree.leaves_vertex]; simp)

/-! ## Whole trees -/

/-- The directory holds the files of the tree, and litter. -/
abbrev LTree (cfg : Cfg) (d : Dir) (t : Tree) : Prop := LCtx cfg d [] t.leaves []

theorem LTree.nonDegenerate {cfg : Cfg} {d : Dir} {t : Tree} (h : LTree cfg d t) : t.NonDegenerate := by
  obtain ⟨_, G, hc, _⟩ := h
  intro s hs
  exact (hc.tiles.mem (by simpa using hs)).2.1

theorem Littered.tree {cfg : Cfg} {ex : Bool} {d : Dir} {t : Tree} (h : Littered d t.leaves) (hok : Tree.OK cfg ex 0 END_OF_SHARDS t) (hn : t.NonDegenerate) :
    LTree cfg d t := by
  obtain ⟨h1, G, h2, h3⟩ := h
  exact ⟨h1, G, hok.ctx hn h2, h3⟩

theorem RawStep.litter {cfg : Cfg} {ex : Bool} {t t' : Tree} {ops : List FOp} (h : RawStep cfg t ops t') {d : Dir} (hd : LTree cfg d t)
    (hsane : Sane cfg ex t) (hsm : t.Small) : ∃ d', d.run ops = some d' ∧ LTree cfg d' t' := by
  have hn := hd.nonDegenerate
  obtain ⟨h1, G, hG, ho⟩ := hd
  obtain ⟨hk, G', g1, g2⟩ := h.filesF hG.dirF hsane hsm hn
  obtain ⟨F', h3, h4⟩ := ho.run g1 fun _ => hk
  obtain ⟨d', r1, r2, r3⟩ := Dir.run_of h1 h3
  exact ⟨d', r1, r2, G', g2, r3 ▸ h4⟩

theorem RawStep.littered {cfg : Cfg} {ex : Bool} {t t' : Tree} {ops : List FOp} (h : RawStep cfg t ops t') {d d' : Dir} (hd : LTree cfg d t)
    (hsane : Sane cfg ex t) (hsm : t.Small) (hr : d.run ops = some d') : LTree cfg d' t' := by
  obtain ⟨d1, h1, h2⟩ := h.litter hd hsane hsm
  rw [hr] at h1; simp only [Option.some.injEq] at h1; subst h1
  exact h2

theorem Dir.run_nil {d d' : Dir} (h : d.run [] = some d') : d' = d := by
  simp only [Dir.run, Option.some.injEq] at h; exact h.symm

theorem DStep.forget {cfg : Cfg} {α : Type} {t t' : Tree} {p p' : Prog α} {ops : List FOp} (h : DStep cfg t p t' p' ops) :
    CStep cfg t p t' p' ∧ ((ops = [] ∧ t' = t) ∨ RawStep cfg t ops t') := by
  cases h with
  | get k c => exact ⟨.get _ _ _, .inl ⟨rfl, rfl⟩⟩
  | insErr k v mode c e hs => exact ⟨.insErr _ _ _ _ _ _ hs, .inl ⟨rfl, rfl⟩⟩
  | ins _ k v mode c st n hs h hn => exact ⟨.ins _ _ _ _ _ _ _ _ hs h, .inr (.ins hs h hn)⟩
  | rem k c => exact ⟨.rem _ _ _, .inr (.rem _ _)⟩
  | byHash ph suf c => exact ⟨.byHash _ _ _ _, .inl ⟨rfl, rfl⟩⟩
  | lock i c => exact ⟨.lock _ _ _, .inl ⟨rfl, rfl⟩⟩
  | unlock c => exact ⟨.unlock _ _, .inl ⟨rfl, rfl⟩⟩

theorem DExec.sim {cfg : Cfg} {α : Type} {t t' : Tree} {d d' : Dir} {p p' : Prog α} (h : DExec cfg t d p t' d' p') :
    Sane cfg false t → LTree cfg d t → CExec cfg Tree.Small t p t' p' ∧ Sane cfg false t' ∧ LTree cfg d' t' := by
  induction h with
  | refl t d p => exact fun hs hl => ⟨.refl _ _, hs, hl⟩
  | step hsm h hd _ ih =>
    intro hs hl
    obtain ⟨h1, h2⟩ := h.forget
    have hok := (h1.sim hs.ok hsm).1
    obtain ⟨g1, g2⟩ := ih ⟨hs.bound, hok⟩ (by
      rcases h2 with ⟨e1, e2⟩ | h2
      · rw [e1] at hd
        rw [Dir.run_nil hd, e2]; exact hl
      · exact h2.littered hl hs hsm hd)
    exact ⟨.step hsm h1 g1, g2⟩
  | bg sel hsm h hd _ ih =>
    intro hs hl
    have hok := (bg_get hs.ok hsm h).1
    obtain ⟨g1, g2⟩ := ih ⟨hs.bound, hok⟩ ((RawStep.bg h).littered hl hs hsm hd)
    exact ⟨.bg sel hsm h g1, g2⟩

theorem OpFailsD.litter {cfg : Cfg} {α : Type} {t t' : Tree} {d d' : Dir} {p : Prog α} (h : OpFailsD cfg t d p t' d') (hs : Sane cfg false t)
    (hsm : t.Small) (hl : LTree cfg d t) : (∃ x, OpFails cfg t p t' x) ∧ LTree cfg d' t' := by
  cases h with
  | get k c => exact ⟨⟨_, .get k c⟩, hl⟩
  | byHash ph suf c => exact ⟨⟨_, .byHash ph suf c⟩, hl⟩
  | rem k c => exact ⟨⟨_, .rem k c⟩, hl⟩
  | remSync k c hd => exact ⟨⟨_, .remSync k c⟩, (RawStep.rem t k).littered hl hs hsm hd⟩
  | ins c hz h =>
    have hz' := sizeErr_lt hz
    obtain ⟨x, hx⟩ := h.forget
    exact ⟨⟨x, .ins c hz hx⟩, h.litter hz'.1 hz'.2 0 END_OF_SHARDS [] [] hs.ok hsm (inSpan_full _) hl⟩

theorem Loc.recJ {cfg : Cfg} {d : Dir} {G : FS} {M : Bytes → Bytes → Prop} {m : Map} (hn : d.Nodup) (ho : Over true d.find G) (h : Loc cfg [] [] M G)
    (hm : ∀ k v, M k v ↔ m k = some v) : RecJ cfg d m := by
  obtain ⟨l, h1, h2⟩ := h
  refine RecJ.of_over hn ho h1 fun k v => ?_
  have e : [] ++ l ++ [] = l := by simp
  rw [e]
  exact (h2 k v).trans (hm k v)

theorem LTree.recJ {cfg : Cfg} {ex : Bool} {d : Dir} {t : Tree} (h : LTree cfg d t) (hok : Tree.OK cfg ex 0 END_OF_SHARDS t) : RecJ cfg d (t.get cfg) := by
  obtain ⟨h1, G, h2, h3⟩ := h
  exact Loc.recJ h1 h3 (h2.loc fun _ _ => Iff.rfl) hok.holds_get

/-- A crash inside a raw operation leaves the contents before or after it. -/
theorem OpCrash.recJ {cfg : Cfg} {ex : Bool} {t : Tree} {α : Type} {p : Prog α} {d d' : Dir} (h : OpCrash cfg t p d d') (hd : LTree cfg d t)
    (hok : Tree.OK cfg ex 0 END_OF_SHARDS t) (hsm : t.Small) : ∃ m' p', AExec cfg (t.get cfg) p m' p' ∧ RecJ cfg d' m' := by
  have hd0 := hd
  obtain ⟨hd1, G, hc, hov⟩ := hd
  cases h with
  | idle => exact ⟨_, _, .refl _ _, hd0.recJ hok⟩
  | ins k v mode c n t' st d d' hs h hnd hcr =>
    have hz := sizeErr_lt hs
    obtain ⟨F', h1, h2⟩ := Ctx.insert hz.1 hz.2 n t 0 END_OF_SHARDS G [] [] t' st hc hok hsm (inSpan_full _) h hnd
    have hk := insert_keeps hz.1 hz.2 n t 0 END_OF_SHARDS t' st hok hsm (inSpan_full _) h hnd dyadic_full G
    obtain ⟨hn', hcr'⟩ := hcr.find hd1
    obtain ⟨G', hcG, ho'⟩ := hov.crash hcr' (by rw [h1.1]; simp) fun _ => hk
    rcases Tree.insert_spec (mode := mode) (k := k) (v := v) hz.1 hz.2 n t 0 END_OF_SHARDS hok hsm (inSpan_full _) with
      e | ⟨t2, e1, e2, e3⟩
    · rw [e] at h; simp at h
    · rw [e1] at h
      simp only [Out.ok.injEq, Prod.mk.injEq] at h
      obtain ⟨rfl, rfl⟩ := h
      have eg : t2.get cfg = (Map.upd (t.get cfg) k (insertAt (t.get cfg k) v mode).1) := by
        funext k'; exact e3 k' (inSpan_full _)
      rcases h1.2 _ hcG with hL | hL
      · exact ⟨_, _, .refl _ _, hL.recJ hn' ho' hok.holds_get⟩
      · refine ⟨_, _, .step (.ins _ _ _ _ _ hs) (.refl _ _), hL.recJ hn' ho' ?_⟩
        rw [← eg]; exact e2.holds_get
  | rem k c d d' hcr =>
    obtain ⟨F', h1, h2⟩ := hc.remove hok (k := k) (inSpan_full _)
    obtain ⟨hn', hcr'⟩ := hcr.find hd1
    obtain ⟨G', hcG, ho'⟩ := hov.crash hcr' (by rw [h1.1]; simp) fun _ => Keeps.plain (onFile_plain _ _)
    obtain ⟨e1, e2, e3⟩ := Tree.remove_spec hok (k := k) (inSpan_full _)
    have eg : (t.remove cfg k).1.get cfg = Map.upd (t.get cfg) k none := by
      funext k'; exact e3 k' (inSpan_full _)
    rcases h1.2 _ hcG with hL | hL
    · exact ⟨_, _, .refl _ _, hL.recJ hn' ho' hok.holds_get⟩
    · refine ⟨_, _, .step (.rem _ _ _) (.refl _ _), hL.recJ hn' ho' ?_⟩
      rw [← eg]; exact e1.holds_get

/-- A crash in `merge_small_shards` changes nothing, even if it has deadlocked. -/
theorem MergeCrash.recJ {cfg : Cfg} {ex : Bool} {maxFill : Nat} {t : Tree} {d d1 : Dir} (hd : LTree cfg d t)
    (h1 : Dir.Crash d (t.mergeSmallOps cfg maxFill) d1) (hok : Tree.OK cfg ex 0 END_OF_SHARDS t) (hsm : t.Small)
    (hfit : (ex = true ∧ maxFill ≤ 14745) ∨ t.pot < 4294967296) : RecJ cfg d1 (t.get cfg) := by
  have hn := hd.nonDegenerate
  obtain ⟨hd1, G, hc, hov⟩ := hd
  obtain ⟨hn', hcr⟩ := h1.find hd1
  have ht := hok.tiling hn dyadic_full
  obtain ⟨F', u, e, htr, hc', hh⟩ := Ctx.finishTree t G [] [] hc (fun s hs => ⟨(ht.mem hs).2.2.2.1, hsm s hs⟩)
  obtain ⟨uok, usm, uq, un, ug, uf⟩ := finished_fits (maxFill := maxFill) hok hn hsm hfit e
  unfold Tree.mergeSmallOps at hcr
  rw [e] at hcr
  have key : ∀ ops2, FS.Crash d.find (t.finishOps cfg ++ ops2) d1.find → (F'.run ops2 ≠ none ∧ Keeps F' ops2 ∧
      ∀ G', FS.Crash F' ops2 G' → Loc cfg [] [] (Holds cfg t.leaves) G') → RecJ cfg d1 (t.get cfg) := by
    intro ops2 hcr ⟨h2, h3, h4⟩
    obtain ⟨G', hcG, ho'⟩ := hov.crash hcr (by rw [FS.run_append, htr.1]; exact h2) fun _ => (Keeps.plain (finishTree_plain _ _)).append fun G1 hG1 => by
      rw [htr.1] at hG1; simp only [Option.some.injEq] at hG1; subst hG1; exact h3
    rcases hcG.append with hcG | ⟨F1, hrun, hcG⟩
    · exact (htr.2 _ hcG).recJ hn' ho' hok.holds_get
    · rw [htr.1] at hrun
      simp only [Option.some.injEq] at hrun
      subst hrun
      exact (h4 _ hcG).recJ hn' ho' hok.holds_get
  refine key _ hcr ?_
  have hnil : (F'.run [] ≠ none ∧ Keeps F' [] ∧ ∀ G', FS.Crash F' [] G' → Loc cfg [] [] (Holds cfg t.leaves) G') :=
    ⟨by simp [FS.run], trivial, fun G' hG => by cases hG; exact htr.finish⟩
  dsimp only
  split
  · exact hnil
  · split
    · exact hnil
    · rename_i needed _ _
      obtain ⟨F2, htr2, _⟩ := Ctx.mergeRec (ex := ex) (maxFill := maxFill) u (u.leaves.length - needed) 0 65536 F' [] [] hc' uok uq un dyadic_full
        (uq.small_iff.1 usm) uf
      exact ⟨by rw [htr2.1]; simp, mergeRec_keeps u _ 0 65536 uok uq un dyadic_full (uq.small_iff.1 usm) uf F',
        fun G' hG => (htr2.2 _ hG).congr (fun k v => hh k v)⟩

end Candy
