import Verif.Proofs.CrashMerge
import Verif.Proofs.Pairs
/-!
# Traces of the operations of the shard tree
-/
namespace Candy

theorem Ctx.cast {cfg : Cfg} {F : FS} {pre l post pre' l' post' : List Shard} (h : Ctx cfg F pre l post)
    (e : pre ++ l ++ post = pre' ++ l' ++ post') : Ctx cfg F pre' l' post' :=
  ⟨by rw [← e]; exact h.dir, by rw [← e]; exact h.tiles, by rw [← e]; exact h.ok⟩

theorem Loc.congr {cfg : Cfg} {G : FS} {pre post : List Shard} {M M' : Bytes → Bytes → Prop} (h : Loc cfg pre post M G) (e : ∀ k v, M k v ↔ M' k v) :
    Loc cfg pre post M' G := by
  obtain ⟨l, h1, h2⟩ := h
  exact ⟨l, h1, fun k v => (h2 k v).trans (e k v)⟩

theorem Loc.right {cfg : Cfg} {G : FS} {pre post m : List Shard} {M : Bytes → Bytes → Prop} (h : Loc cfg pre (m ++ post) M G) :
    Loc cfg pre post (fun k v => M k v ∨ Holds cfg m k v) G := by
  obtain ⟨l, h1, h2⟩ := h
  refine ⟨l ++ m, by simpa only [List.append_assoc] using h1, fun k v => ?_⟩
  rw [Holds.append, h2]

theorem Loc.left {cfg : Cfg} {G : FS} {pre post m : List Shard} {M : Bytes → Bytes → Prop} (h : Loc cfg (pre ++ m) post M G) :
    Loc cfg pre post (fun k v => Holds cfg m k v ∨ M k v) G := by
  obtain ⟨l, h1, h2⟩ := h
  refine ⟨m ++ l, by simpa only [List.append_assoc] using h1, fun k v => ?_⟩
  rw [Holds.append, h2]

theorem Loc.around {cfg : Cfg} {G : FS} {pre post a b : List Shard} {M : Bytes → Bytes → Prop} (h : Loc cfg (pre ++ a) (b ++ post) M G) :
    Loc cfg pre post (fun k v => Holds cfg a k v ∨ M k v ∨ Holds cfg b k v) G := h.right.left

/-! ## One leaf -/

theorem Tree.leaves_find (t : Tree) (sel : Nat) : ∃ a b, t.leaves = a ++ [t.find sel] ++ b ∧ (∀ f, (t.modify sel f).leaves = a ++ [f (t.find sel)] ++ b) ∧
    (∀ cfg t', t.bgStep cfg sel = some t' → ∃ s', (t.find sel).bgStep cfg = some s' ∧ t'.leaves = a ++ [s'] ++ b) := by
  induction t with
  | leaf s =>
    refine ⟨[], [], rfl, fun _ => rfl, fun cfg t' h => ?_⟩
    simp only [Tree.bgStep] at h
    rw [Option.map_eq_some_iff] at h
    obtain ⟨s', h1, rfl⟩ := h
    exact ⟨s', h1, rfl⟩
  | vertex b t ihb iht =>
    by_cases e : sel < b.hi
    · obtain ⟨x, y, h1, h2, h3⟩ := ihb
      refine ⟨x, y ++ t.leaves, ?_, ?_, ?_⟩
      · rw [Tree.find_vertex, if_pos e, Tree.leaves_vertex]
        conv => lhs; rw [h1]
        simp
      · intro f
        rw [Tree.find_vertex, if_pos e, Tree.modify_vertex, if_pos e, Tree.leaves_vertex, h2]; simp
      · intro cfg t' h
        simp only [Tree.bgStep, if_pos e] at h
        rw [Option.map_eq_some_iff] at h
        obtain ⟨b', g1, rfl⟩ := h
        obtain ⟨s', g2, g3⟩ := h3 cfg b' g1
        rw [Tree.find_vertex, if_pos e]
        exact ⟨s', g2, by rw [Tree.leaves_vertex, g3]; simp⟩
    · obtain ⟨x, y, h1, h2, h3⟩ := iht
      refine ⟨b.leaves ++ x, y, ?_, ?_, ?_⟩
      · rw [Tree.find_vertex, if_neg e, Tree.leaves_vertex]
        conv => lhs; rw [h1]
        simp
      · intro f
        rw [Tree.find_vertex, if_neg e, Tree.modify_vertex, if_neg e, Tree.leaves_vertex, h2]; simp
      · intro cfg t' h
        simp only [Tree.bgStep, if_neg e] at h
        rw [Option.map_eq_some_iff] at h
        obtain ⟨b', g1, rfl⟩ := h
        obtain ⟨s', g2, g3⟩ := h3 cfg b' g1
        rw [Tree.find_vertex, if_neg e]
        exact ⟨s', g2, by rw [Tree.leaves_vertex, g3]; simp⟩

theorem Holds.three {cfg : Cfg} {a b : List Shard} {s : Shard} {k v : Bytes} :
    Holds cfg (a ++ [s] ++ b) k v ↔ (Holds cfg a k v ∨ s.val cfg k = some v ∨ Holds cfg b k v) := by
  rw [Holds.append, Holds.append, Holds.single, or_assoc]

/-- Before or after. -/
abbrev Either (cfg : Cfg) (pre post l l' : List Shard) (G : FS) : Prop := Loc cfg pre post (Holds cfg l) G ∨ Loc cfg pre post (Holds cfg l') G

theorem Ctx.remove {cfg : Cfg} {F : FS} {pre post : List Shard} {t : Tree} {k : Bytes} {lo hi : Nat} {ex : Bool} (h : Ctx cfg F pre t.leaves post)
    (hok : Tree.OK cfg ex lo hi t) (hk : inSpan lo hi (cfg.ph k).shardSel) :
    ∃ F', Tr F (t.removeOps cfg k) F' (Either cfg pre post t.leaves (t.remove cfg k).1.leaves) ∧ Ctx cfg F' pre (t.remove cfg k).1.leaves post := by
  obtain ⟨a, b, h1, h2, _⟩ := t.leaves_find (cfg.ph k).shardSel
  obtain ⟨hs, hinv, hacct, _⟩ := hok.find hk
  have hc : Ctx cfg F (pre ++ a) [t.find (cfg.ph k).shardSel] (b ++ post) := h.cast (by rw [h1]; simp)
  have hcur := hinv.val k
  obtain ⟨_, he⟩ := removePlan_spec (hinv.active _) hcur
  obtain ⟨F', g1, g2⟩ := hc.effect hinv he hs.1 hs.2
  have hl : (t.remove cfg k).1.leaves = a ++ [(t.find (cfg.ph k).shardSel).runActive (cfg.ph k).rowSel ((t.find (cfg.ph k).shardSel).removePlan (cfg.ph k) k).1] ++ b := h2 _
  refine ⟨F', g1.mono ?_, ?_⟩
  · intro G hG
    rcases hG with hG | hG
    · left; exact hG.around.congr (fun k v => by rw [h1]; exact Holds.three.symm)
    · right; exact hG.around.congr (fun k v => by rw [hl]; exact Holds.three.symm)
  · rw [hl]; exact g2.cast (by simp)

theorem Ctx.bgTree {cfg : Cfg} {F : FS} {pre post : List Shard} {t t' : Tree} {sel : Nat} {lo hi : Nat} {ex : Bool} (h : Ctx cfg F pre t.leaves post)
    (hok : Tree.OK cfg ex lo hi t) (hsm : t.Small) (hb : t.bgStep cfg sel = some t') :
    ∃ F', Tr F (t.bgOps cfg sel) F' (Loc cfg pre post (Holds cfg t.leaves)) ∧ Ctx cfg F' pre t'.leaves post := by
  obtain ⟨a, b, h1, _, h3⟩ := t.leaves_find sel
  have hmem : t.find sel ∈ t.leaves := by rw [h1]; simp
  have hinv := (hok.leaf_inv _ hmem).1
  obtain ⟨s', e1, e2⟩ := h3 cfg t' hb
  have hc : Ctx cfg F (pre ++ a) [t.find sel] (b ++ post) := h.cast (by rw [h1]; simp)
  obtain ⟨F', s'', g1, g2, g3⟩ := hc.bg hinv (hsm _ hmem)
  rw [e1] at g1; simp only [Option.some.injEq] at g1; subst g1
  refine ⟨F', g2.mono ?_, ?_⟩
  · intro G hG
    exact hG.around.congr (fun k v => by rw [h1]; exact Holds.three.symm)
  · rw [e2]; exact g3.cast (by simp)

/-! ## Insertion -/

theorem Ctx.insertShard {cfg : Cfg} {F : FS} {pre post : List Shard} {s : Shard} {k v : Bytes} {mode : Mode} (h : Ctx cfg F pre [s] post) (hi : s.Inv cfg)
    (hsmall : s.Small) (hk : k.length < 65536) (hv : v.length < 65536) (hlo : s.lo ≤ (cfg.ph k).shardSel) (hhi : (cfg.ph k).shardSel < s.hi) :
    ∃ F', Tr F (s.insertOps cfg (cfg.ph k) k v mode) F' (Either cfg pre post [s] [(s.insert cfg (cfg.ph k) k v mode).1]) ∧
      Ctx cfg F' pre [(s.insert cfg (cfg.ph k) k v mode).1] post := by
  have hplan := insertPlan_spec (mode := mode) (hi.active (cfg.ph k).rowSel) (hi.val k) hk hv (hsmall.active _)
  -- the effect on the files, whatever the status
  have heff : ∃ F', Tr F (onFile (s.activeName (cfg.ph k).rowSel) (s.insertPlan cfg (cfg.ph k) k v mode).1) F'
      (Either cfg pre post [s] [s.runActive (cfg.ph k).rowSel (s.insertPlan cfg (cfg.ph k) k v mode).1]) ∧
      Ctx cfg F' pre [s.runActive (cfg.ph k).rowSel (s.insertPlan cfg (cfg.ph k) k v mode).1] post ∧
      (s.runActive (cfg.ph k).rowSel (s.insertPlan cfg (cfg.ph k) k v mode).1).Inv cfg := by
    rcases hplan with ⟨_, e, _⟩ | ⟨_, he⟩
    · rw [e, Shard.runActive_nil]
      exact ⟨F, Tr.nil (Or.inl (h.loc (fun _ _ => Iff.rfl))), h, hi⟩
    · obtain ⟨F', g1, g2⟩ := h.effect hi he hlo hhi
      refine ⟨F', g1.mono ?_, g2, (hi.effect he hlo hhi).1⟩
      intro G hG
      exact hG.imp (fun x => x.congr (fun _ _ => Holds.single.symm)) (fun x => x.congr (fun _ _ => Holds.single.symm))
  obtain ⟨F1, g1, g2, g3⟩ := heff
  unfold Shard.insertOps Shard.insert
  simp only
  cases hoff : (s.insertPlan cfg (cfg.ph k) k v mode).2.2 with
  | none => simp only [List.append_nil]; exact ⟨F1, g1, g2⟩
  | some off =>
    simp only
    obtain ⟨F2, q1, q2⟩ := g2.begin g3 off
    obtain ⟨_, b2, _, _⟩ := Shard.beginCompaction_spec g3 off
    have hv : ∀ k' v', Holds cfg [(s.runActive (cfg.ph k).rowSel (s.insertPlan cfg (cfg.ph k) k v mode).1).beginCompaction off] k' v' ↔
        Holds cfg [s.runActive (cfg.ph k).rowSel (s.insertPlan cfg (cfg.ph k) k v mode).1] k' v' := fun k' v' => by
      rw [Holds.single, Holds.single, Shard.val_congr b2]
    refine ⟨F2, (g1.mono ?_).append (q1.mono ?_), q2⟩
    · intro G hG
      exact hG.imp id (fun x => x.congr (fun k' v' => (hv k' v').symm))
    · intro G hG
      right
      exact hG.congr (fun k' v' => by rw [hv, Holds.single])

theorem Tree.insert_vertex {cfg : Cfg} {ph : PH} {k v : Bytes} {mode : Mode} {n : Nat} {b t t' : Tree} {st}
    (h : (Tree.vertex b t).insert cfg ph k v mode n = .ok (t', st)) : ∃ b' t'', t' = .vertex b' t'' := by
  cases n with
  | zero => simp [Tree.insert] at h
  | succ n =>
    simp only [Tree.insert] at h
    split at h
    · cases hr : Tree.insert cfg ph k v mode n b <;> rw [hr] at h <;> simp [Out.bind] at h
      exact ⟨_, _, h.1.symm⟩
    · cases hr : Tree.insert cfg ph k v mode n t <;> rw [hr] at h <;> simp [Out.bind] at h
      exact ⟨_, _, h.1.symm⟩

theorem Spec.insertAt_ne_split (x : Option Bytes) (v : Bytes) (mode : Mode) : (Spec.insertAt x v mode).2 ≠ .splitNeeded := by
  unfold Spec.insertAt
  repeat' split
  all_goals simp

theorem Ctx.insert {cfg : Cfg} {k v : Bytes} {mode : Mode} {ex : Bool} (hk : k.length < 65536) (hv : v.length < 65536) :
    ∀ (n : Nat) (t : Tree) (lo hi : Nat) (F : FS) (pre post : List Shard) (t' : Tree) (st : InsStatus), Ctx cfg F pre t.leaves post →
      Tree.OK cfg ex lo hi t → t.Small → inSpan lo hi (cfg.ph k).shardSel → t.insert cfg (cfg.ph k) k v mode n = .ok (t', st) → t'.NonDegenerate →
      ∃ F', Tr F (Tree.insertOps cfg (cfg.ph k) k v mode n t) F' (Either cfg pre post t.leaves t'.leaves) ∧ Ctx cfg F' pre t'.leaves post := by
  intro n
  induction n with
  | zero => intro t lo hi F pre post t' st _ _ _ _ h; simp [Tree.insert] at h
  | succ n ih =>
    intro t lo hi F pre post t' st hc hok hsm hspan hins hnd
    cases t with
    | leaf s =>
      cases hok with
      | leaf hlo hhi hle hinv ha =>
        subst hlo hhi
        rw [Tree.Small.leaf] at hsm
        rw [Tree.leaves_leaf] at hc ⊢
        obtain ⟨F1, g1, g2⟩ := hc.insertShard (mode := mode) hinv hsm hk hv hspan.1 hspan.2
        simp only [Tree.insert] at hins
        simp only [Tree.insertOps]
        have hsplit : ∀ s', s.insert cfg (cfg.ph k) k v mode = (s', .splitNeeded) → (∀ k', s'.val cfg k' = s.val cfg k') ∧ s'.Inv cfg ∧ s'.Small ∧ s'.AcctInv ex ∧
            s'.lo = s.lo ∧ s'.hi = s.hi := by
          intro s' e
          have hspec := Shard.insert_spec (mode := mode) hinv (hsm.active _) hk hv hspan.1 hspan.2
          have hacc := Shard.insert_acct (mode := mode) hinv ha (hsm.active _) hk hv
          have hsp := Shard.insert_split (mode := mode) hinv (hsm.active _) hk hv (by rw [e])
          have hnot : ∀ x, (Spec.insertAt x v mode).2 ≠ .splitNeeded := fun x => Spec.insertAt_ne_split x v mode
          rw [e] at hspec hacc hsp
          obtain ⟨a1, a2, a3, a4⟩ := hspec
          refine ⟨?_, a1, ?_, hacc, a2, a3⟩
          · rcases a4 with ⟨_, a4, _⟩ | ⟨a4, _⟩
            · exact a4
            · exact absurd a4.symm (hnot _)
          · rcases hsp with hsp | ⟨off, hsp⟩
            · simp only at hsp; rw [hsp]; exact hsm
            · simp only at hsp; rw [hsp]; exact Shard.beginCompaction_small ha hsm off
        generalize hq : s.insert cfg (cfg.ph k) k v mode = q at hins g1 g2 hsplit
        obtain ⟨s', st'⟩ := q
        cases st' with
        | splitNeeded =>
          simp only at hins ⊢
          obtain ⟨z1, z2, z3, z4, z5, z6⟩ := hsplit s' rfl
          obtain ⟨b0, t0, w1, w2, w3, w4⟩ := Shard.split_tree z2 z3 z4 (by omega)
          rw [w1] at hins ⊢
          simp only at hins ⊢
          rcases Tree.insert_spec (mode := mode) hk hv n _ _ _ w2 w3 (by rw [z5, z6]; exact hspan) with hdiv | ⟨t1, i1, i2, i3⟩
          · rw [hdiv] at hins; simp at hins
          have hins' := hins
          rw [i1] at hins'
          simp only [Out.ok.injEq, Prod.mk.injEq] at hins'
          obtain ⟨rfl, _⟩ := hins'
          have hmid : s'.lo < midOf s'.lo s'.hi := by
            obtain ⟨b', t'', rfl⟩ := Tree.insert_vertex hins
            cases i2 with
            | vertex hle hb ht => exact hb.mid_lt hnd
          obtain ⟨F2, b1, t1', y1, y2, y3⟩ := g2.split z2 z3 hmid
          rw [w1] at y1
          simp only [Option.some.injEq, Prod.mk.injEq] at y1
          obtain ⟨rfl, rfl⟩ := y1
          obtain ⟨F3, x1, x2⟩ := ih (.vertex (.leaf b0) (.leaf t0)) _ _ F2 pre post t1 st y3 w2 w3 (by rw [z5, z6]; exact hspan) hins hnd
          have e1 : ∀ k v, Holds cfg [s'] k v ↔ Holds cfg [s] k v := fun k v => by rw [Holds.single, Holds.single, z1]
          have e2 : ∀ k v, Holds cfg (Tree.vertex (.leaf b0) (.leaf t0)).leaves k v ↔ Holds cfg [s] k v := fun k' v' => by
            have hL := y2.finish
            rw [← e1]
            by_cases hsp : inSpan s'.lo s'.hi (cfg.ph k').shardSel
            · have := w2.get_iff (v := v') hsp
              rw [Holds.single, ← w4 k' hsp, this]
              exact Iff.rfl
            · constructor
              · rintro ⟨x, hx, hv⟩
                have hx' := w2.leaf_inv x hx
                have := hx'.1.val_span hv
                simp only [Tree.leaves_vertex, Tree.leaves_leaf, List.mem_append, List.mem_singleton] at hx
                exfalso; apply hsp
                cases w2 with
                | vertex hle hb ht =>
                  cases hb with
                  | leaf c1 c2 c3 c4 c5 =>
                    cases ht with
                    | leaf d1 d2 d3 d4 d5 =>
                      unfold inSpan
                      rcases hx with rfl | rfl <;> omega
              · rw [Holds.single]; intro hv
                exact absurd (z2.val_span hv) hsp
          refine ⟨F3, (g1.mono ?_).append ((y2.mono ?_).append (x1.mono ?_)), x2⟩
          · intro G hG; left
            rcases hG with hG | hG
            · exact hG
            · exact hG.congr e1
          · intro G hG; left
            exact hG.congr (fun k v => by rw [← e1, Holds.single])
          · intro G hG
            exact hG.imp (fun x => x.congr e2) id
        | added => simp only [Out.ok.injEq, Prod.mk.injEq] at hins; obtain ⟨rfl, _⟩ := hins; simp only [List.append_nil]; exact ⟨F1, g1, g2⟩
        | replaced x => simp only [Out.ok.injEq, Prod.mk.injEq] at hins; obtain ⟨rfl, _⟩ := hins; simp only [List.append_nil]; exact ⟨F1, g1, g2⟩
        | keyDoesNotExist => simp only [Out.ok.injEq, Prod.mk.injEq] at hins; obtain ⟨rfl, _⟩ := hins; simp only [List.append_nil]; exact ⟨F1, g1, g2⟩
        | alreadyExists x => simp only [Out.ok.injEq, Prod.mk.injEq] at hins; obtain ⟨rfl, _⟩ := hins; simp only [List.append_nil]; exact ⟨F1, g1, g2⟩
    | vertex b t =>
      cases hok with
      | vertex hle hb ht =>
        rw [Tree.Small.vertex] at hsm
        simp only [Tree.insert] at hins
        simp only [Tree.insertOps]
        by_cases e : (cfg.ph k).shardSel < b.hi
        · rw [if_pos e] at hins ⊢
          cases hr : Tree.insert cfg (cfg.ph k) k v mode n b <;> rw [hr] at hins <;> simp [Out.bind] at hins
          rename_i r
          obtain ⟨b', st'⟩ := r
          obtain ⟨rfl, _⟩ := hins
          rw [Tree.NonDegenerate.vertex] at hnd
          obtain ⟨F', g1, g2⟩ := ih b _ _ F pre (t.leaves ++ post) b' st' (hc.cast (by rw [Tree.leaves_vertex]; simp)) hb hsm.1
            ⟨hspan.1, by rw [← hb.hi_eq]; exact e⟩ hr hnd.1
          refine ⟨F', g1.mono ?_, g2.cast (by rw [Tree.leaves_vertex]; simp)⟩
          intro G hG
          exact hG.imp (fun x => x.right.congr (fun k v => Holds.append.symm)) (fun x => x.right.congr (fun k v => Holds.append.symm))
        · rw [if_neg e] at hins ⊢
          cases hr : Tree.insert cfg (cfg.ph k) k v mode n t <;> rw [hr] at hins <;> simp [Out.bind] at hins
          rename_i r
          obtain ⟨t1, st'⟩ := r
          obtain ⟨rfl, _⟩ := hins
          rw [Tree.NonDegenerate.vertex] at hnd
          obtain ⟨F', g1, g2⟩ := ih t _ _ F (pre ++ b.leaves) post t1 st' (hc.cast (by rw [Tree.leaves_vertex]; simp)) ht hsm.2
            ⟨by rw [← hb.hi_eq]; omega, hspan.2⟩ hr hnd.2
          refine ⟨F', g1.mono ?_, g2.cast (by rw [Tree.leaves_vertex]; simp)⟩
          intro G hG
          exact hG.imp (fun x => x.left.congr (fun k v => Holds.append.symm)) (fun x => x.left.congr (fun k v => Holds.append.symm))

/-! ## Waiting for all compactions; merging -/

theorem Ctx.finishTree {cfg : Cfg} : ∀ (t : Tree) (F : FS) (pre post : List Shard), Ctx cfg F pre t.leaves post → (∀ s ∈ t.leaves, s.Inv cfg ∧ s.Small) →
    ∃ F' t', t.finishAll cfg = some t' ∧ Tr F (t.finishOps cfg) F' (Loc cfg pre post (Holds cfg t.leaves)) ∧ Ctx cfg F' pre t'.leaves post ∧
      ∀ k v, Holds cfg t'.leaves k v ↔ Holds cfg t.leaves k v := by
  intro t
  induction t with
  | leaf s =>
    intro F pre post hc hs
    obtain ⟨hi, hsm⟩ := hs s (by simp [Tree.leaves])
    obtain ⟨F', s', g1, g2, g3⟩ := hc.finish hi hsm
    obtain ⟨s1, f1, _, _, _, _, _, _, f8, _⟩ := s.finish_spec hi hsm hc.rok.acct
    rw [f1] at g1; simp only [Option.some.injEq] at g1; subst g1
    refine ⟨F', .leaf s1, by simp [Tree.finishAll, f1], ?_, g3, ?_⟩
    · have e : (Tree.leaf s).finishOps cfg = s.finishOps cfg := by simp [Tree.finishOps, Tree.leaves]
      rw [e]
      exact g2.mono (fun G hG => hG.congr (fun k v => Holds.single.symm))
    · intro k v
      rw [Tree.leaves_leaf, Tree.leaves_leaf, Holds.single, Holds.single, f8]
  | vertex b t ihb iht =>
    intro F pre post hc hs
    rw [Tree.leaves_vertex] at hc hs
    obtain ⟨F1, b', g1, g2, g3, g4⟩ := ihb F pre (t.leaves ++ post) (hc.cast (by simp)) (fun s h => hs s (List.mem_append_left _ h))
    obtain ⟨F2, t', h1, h2, h3, h4⟩ := iht F1 (pre ++ b'.leaves) post (g3.cast (by simp)) (fun s h => hs s (List.mem_append_right _ h))
    refine ⟨F2, .vertex b' t', by simp [Tree.finishAll, g1, h1], ?_, h3.cast (by rw [Tree.leaves_vertex]; simp), ?_⟩
    · have e : (Tree.vertex b t).finishOps cfg = b.finishOps cfg ++ t.finishOps cfg := by simp [Tree.finishOps, Tree.leaves_vertex]
      rw [e, Tree.leaves_vertex]
      refine (g2.mono ?_).append (h2.mono ?_)
      · intro G hG; exact hG.right.congr (fun k v => Holds.append.symm)
      · intro G hG; exact hG.left.congr (fun k v => by rw [Holds.append, g4])
    · intro k v
      rw [Tree.leaves_vertex, Tree.leaves_vertex, Holds.append, Holds.append, g4, h4]

theorem Ctx.mergeFit {cfg : Cfg} {ex : Bool} {maxFill lo hi n : Nat} {F : FS} {pre post : List Shard} {b t : Shard} (h : Ctx cfg F pre [b, t] post)
    (hd : Dyadic lo hi) (hbl : b.lo = lo) (hadj : b.hi = t.lo) (hth : t.hi = hi) (hbd : Dyadic b.lo b.hi) (htd : Dyadic t.lo t.hi)
    (hb : b.Inv cfg) (ht : t.Inv cfg) (hba : b.AcctInv ex) (hta : t.AcctInv ex)
    (hbq : b.tgt = none) (htq : t.tgt = none) (hbs : b.src.writeOff < 4294967296) (hts : t.src.writeOff < 4294967296)
    (hfit : Fits ex maxFill [b, t]) (hn : 0 < n) :
    ∃ F' r, Candy.mergeLeaves cfg maxFill b t n = .ok r ∧ Merged cfg ex lo hi [b, t] n r ∧
      Tr F (mergeLeavesOps cfg maxFill b t) F' (Loc cfg pre post (Holds cfg [b, t])) ∧ Ctx cfg F' pre r.shards post := by
  obtain ⟨r, hr, hm⟩ := mergeLeaves_spec hd hbl hadj hth hbd htd hb ht hba hta hbq htq hbs hts hfit hn
  subst hbl hth
  obtain ⟨F', g1, g2⟩ := h.mergeLeaves (maxFill := maxFill) (n := n) hd hadj hb ht hbq htq (fun h1 h2 => by
    rcases hfit with ⟨rfl, hmf⟩ | hfit
    · have c1 := hba.1.count
      have c2 := hta.1.count
      have l1 := liveBytes_le_mul b.src
      have l2 := liveBytes_le_mul t.src
      simp only [Shard.getStats, ShardStats.numItems] at h1 h2
      omega
    · simp only [totW_cons] at hfit
      have : totW kvSize [] = 0 := rfl
      unfold liveBytes; omega) hr
  exact ⟨F', r, hr, hm, g1, g2⟩

theorem Ctx.mergeRec {cfg : Cfg} {ex : Bool} {maxFill : Nat} : ∀ (t : Tree) (n lo hi : Nat) (F : FS) (pre post : List Shard), Ctx cfg F pre t.leaves post →
    Tree.OK cfg ex lo hi t → t.Quiet → t.NonDegenerate → Dyadic lo hi → (∀ s ∈ t.leaves, s.src.writeOff < 4294967296) → Fits ex maxFill t.leaves →
    ∃ F', Tr F (t.mergeRecOps cfg maxFill n) F' (Loc cfg pre post (Holds cfg t.leaves)) ∧
      ∀ r, t.mergeRec cfg maxFill n = .ok r → Ctx cfg F' pre r.shards post
  | .leaf s, n, lo, hi, F, pre, post, hc, hok, hq, hn, hd, hs, hfit => by
    refine ⟨F, Tr.nil (hc.loc (fun _ _ => Iff.rfl)), fun r hr => ?_⟩
    simp only [Tree.mergeRec, Out.ok.injEq] at hr
    subst hr; exact hc
  | .vertex b t, 0, lo, hi, F, pre, post, hc, hok, hq, hn, hd, hs, hfit => by
    refine ⟨F, Tr.nil (hc.loc (fun _ _ => Iff.rfl)), fun r hr => ?_⟩
    simp only [Tree.mergeRec, Out.ok.injEq] at hr
    subst hr; exact hc
  | .vertex b t, n + 1, lo, hi, F, pre, post, hc, hok, hq, hn, hd, hs, hfit => by
    cases hok with
    | vertex hle hb ht =>
      have hn' := Tree.NonDegenerate.vertex.1 hn
      obtain ⟨hd1, hd2⟩ := hd.mid (hb.mid_lt hn)
      have hqb : b.Quiet := fun s hs => hq s (List.mem_append_left _ hs)
      have hqt : t.Quiet := fun s hs => hq s (List.mem_append_right _ hs)
      have hsb : ∀ s ∈ b.leaves, s.src.writeOff < 4294967296 := fun s hm => hs s (List.mem_append_left _ hm)
      have hst : ∀ s ∈ t.leaves, s.src.writeOff < 4294967296 := fun s hm => hs s (List.mem_append_right _ hm)
      have hfb : Fits ex maxFill b.leaves := hfit.mono (by rw [Tree.leaves_vertex, totW_append]; omega)
      have hft : Fits ex maxFill t.leaves := hfit.mono (by rw [Tree.leaves_vertex, totW_append]; omega)
      have spb := fun m => Tree.mergeRec_spec (maxFill := maxFill) b m _ _ hb hqb hn'.1 hd1 hsb hfb
      have spt := fun m => Tree.mergeRec_spec (maxFill := maxFill) t m _ _ ht hqt hn'.2 hd2 hst hft
      have ihb := fun m F pre post hc => Ctx.mergeRec (maxFill := maxFill) b m _ _ F pre post hc hb hqb hn'.1 hd1 hsb hfb
      have iht := fun m F pre post hc => Ctx.mergeRec (maxFill := maxFill) t m _ _ F pre post hc ht hqt hn'.2 hd2 hst hft
      rw [Tree.leaves_vertex] at hc ⊢
      unfold Tree.mergeRec Tree.mergeRecOps
      rcases ho : b.isLeaf with _ | sb <;> rcases ho' : t.isLeaf with _ | st <;> simp only
      rotate_left 3
      · have e1 := ho; have e2 := ho'
        have e1 := Tree.isLeaf_some e1
        have e2 := Tree.isLeaf_some e2
        subst e1 e2
        cases hb with
        | leaf hlo hhi hle hinv ha =>
          cases ht with
          | leaf hlo' hhi' hle' hinv' ha' =>
            rw [Tree.leaves_leaf] at *
            obtain ⟨F', r, g1, g2, g3, g4⟩ := Ctx.mergeFit (ex := ex) (maxFill := maxFill) (n := n + 1) (b := sb) (t := st) hc hd hlo (hhi.trans hlo'.symm) hhi'
              (by rw [hlo, hhi]; exact hd1) (by rw [hlo', hhi']; exact hd2) hinv hinv' ha ha' (hqb sb (List.mem_singleton.2 rfl)) (hqt st (List.mem_singleton.2 rfl))
              (hsb sb (List.mem_singleton.2 rfl)) (hst st (List.mem_singleton.2 rfl)) hfit (by omega)
            refine ⟨F', g3, fun r' hr' => ?_⟩
            have : r = r' := by rw [g1] at hr'; simpa using hr'
            exact this ▸ g4
      rotate_left 2
      · have e1 := ho
        have e1 := Tree.isLeaf_some e1
        subst e1
        obtain ⟨F', g1, g2⟩ := iht (n + 1) F (pre ++ [sb]) post (hc.cast (by rw [Tree.leaves_leaf]; simp))
        refine ⟨F', g1.mono (fun G hG => hG.left.congr (fun k v => Holds.append.symm)), fun r hr => ?_⟩
        cases hq1 : Tree.mergeRec cfg maxFill t (n + 1) with
        | ok r1 =>
          rw [hq1] at hr
          have := g2 r1 hq1
          simp only [Out.bind] at hr
          split at hr <;> simp at hr
          all_goals
            subst hr
            exact this.cast (by simp)
        | _ => rw [hq1] at hr; simp [Out.bind] at hr
      rotate_left 1
      · have e2 := ho'
        have e2 := Tree.isLeaf_some e2
        subst e2
        obtain ⟨F', g1, g2⟩ := ihb (n + 1) F pre ([st] ++ post) (hc.cast (by rw [Tree.leaves_leaf]; simp))
        refine ⟨F', g1.mono (fun G hG => hG.right.congr (fun k v => Holds.append.symm)), fun r hr => ?_⟩
        cases hq1 : Tree.mergeRec cfg maxFill b (n + 1) with
        | ok r1 =>
          rw [hq1] at hr
          have := g2 r1 hq1
          simp only [Out.bind] at hr
          split at hr <;> simp at hr
          all_goals
            subst hr
            exact this.cast (by simp)
        | _ => rw [hq1] at hr; simp [Out.bind] at hr
      · obtain ⟨F1, g1, g2⟩ := ihb (n + 1) F pre (t.leaves ++ post) (hc.cast (by simp))
        have g1' : Tr F (b.mergeRecOps cfg maxFill (n + 1)) F1 (Loc cfg pre post (Holds cfg (b.leaves ++ t.leaves))) :=
          g1.mono (fun G hG => hG.right.congr (fun k v => Holds.append.symm))
        rcases spb (n + 1) with e | ⟨r1, e, hr1⟩
        · rw [e]
          refine ⟨F1, by simpa using g1', fun r hr => by simp [Out.bind] at hr⟩
        rw [e]
        simp only [Out.bind]
        have c1 := g2 r1 e
        obtain ⟨F2, k1, k2⟩ := iht r1.remaining F1 (pre ++ r1.shards) post (c1.cast (by simp))
        have k1' : Tr F1 (t.mergeRecOps cfg maxFill r1.remaining) F2 (Loc cfg pre post (Holds cfg (b.leaves ++ t.leaves))) :=
          k1.mono (fun G hG => hG.left.congr (fun k v => by rw [Holds.append, hr1.holds]))
        rcases spt r1.remaining with e' | ⟨r2, e', hr2⟩
        · rw [e']
          refine ⟨F2, by simpa using g1'.append k1', fun r hr => by simp at hr⟩
        rw [e']
        simp only
        have c2 := k2 r2 e'
        have hj := Merged.join hr1 hr2 rfl
        cases hm1 : r1.merged with
        | none =>
          simp only
          refine ⟨F2, by simpa using g1'.append k1', fun r hr => ?_⟩
          split at hr <;> first | (simp only [Out.ok.injEq] at hr; subst hr; exact c2.cast (by simp)) | simp_all
        | some m1 =>
          cases hm2 : r2.merged with
          | none =>
            simp only
            refine ⟨F2, by simpa using g1'.append k1', fun r hr => ?_⟩
            split at hr <;> first | (simp only [Out.ok.injEq] at hr; subst hr; exact c2.cast (by simp)) | simp_all
          | some m2 =>
            cases hrem : r2.remaining with
            | zero =>
              simp only
              refine ⟨F2, by simpa using g1'.append k1', fun r hr => ?_⟩
              simp at hr
              subst hr; exact c2.cast (by simp)
            | succ m =>
              simp only
              obtain ⟨s1, l1, u1⟩ := hr1.merged m1 hm1
              obtain ⟨s2, l2, u2⟩ := hr2.merged m2 hm2
              have i1 := hr1.tiling.mem (s := m1) (by rw [s1]; exact List.mem_singleton.2 rfl)
              have i2 := hr2.tiling.mem (s := m2) (by rw [s2]; exact List.mem_singleton.2 rfl)
              have hw := hj.weight kvSize
              have hfit' : Fits ex maxFill [m1, m2] := hfit.mono (by
                rw [Tree.leaves_vertex, ← hw]; show _ ≤ totW kvSize (r1.shards ++ r2.shards)
                rw [s1, s2]; exact Nat.le_refl _)
              have c2' : Ctx cfg F2 pre [m1, m2] post := c2.cast (by rw [s1, s2]; simp)
              obtain ⟨F3, r, y1, y2, y3, y4⟩ := c2'.mergeFit (ex := ex) (maxFill := maxFill) (n := m + 1) hd l1 (u1.trans l2.symm) u2 i1.2.2.1 i2.2.2.1 i1.2.2.2.1 i2.2.2.2.1
                i1.2.2.2.2 i2.2.2.2.2 (hr1.quiet m1 (by rw [s1]; exact List.mem_singleton.2 rfl)) (hr2.quiet m2 (by rw [s2]; exact List.mem_singleton.2 rfl))
                (hr1.small m1 (by rw [s1]; exact List.mem_singleton.2 rfl)) (hr2.small m2 (by rw [s2]; exact List.mem_singleton.2 rfl)) hfit' (by omega)
              refine ⟨F3, g1'.append (k1'.append (y3.mono (fun G hG => hG.congr (fun k v => ?_)))), fun r' hr' => ?_⟩
              · have := hj.holds k v
                rw [← this]
                show _ ↔ Holds cfg (r1.shards ++ r2.shards) k v
                rw [s1, s2]; exact Iff.rfl
              · have : r = r' := by rw [y1] at hr'; simpa using hr'
                exact this ▸ y4

end Candy
