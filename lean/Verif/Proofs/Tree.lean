import Verif.Proofs.Reorg
import Verif.Model.Router
/-!
# The shard tree refines the ideal map
-/
namespace Candy

/-- Well-formed tree over the selectors `lo..hi`: the halves of every vertex meet in the middle, every shard is well formed and
accounts for its contents (exactly, if `ex`). -/
inductive Tree.OK (cfg : Cfg) (ex : Bool) : Nat → Nat → Tree → Prop
  | leaf {lo hi : Nat} {s : Shard} (hlo : s.lo = lo) (hhi : s.hi = hi) (hle : lo ≤ hi) (hinv : s.Inv cfg) (ha : s.AcctInv ex) :
      Tree.OK cfg ex lo hi (.leaf s)
  | vertex {lo hi : Nat} {b t : Tree} (hle : lo ≤ hi) (hb : Tree.OK cfg ex lo (midOf lo hi) b)
      (ht : Tree.OK cfg ex (midOf lo hi) hi t) : Tree.OK cfg ex lo hi (.vertex b t)

theorem Tree.leaves_vertex (b t : Tree) : (Tree.vertex b t).leaves = b.leaves ++ t.leaves := rfl
theorem Tree.leaves_leaf (s : Shard) : (Tree.leaf s).leaves = [s] := rfl
theorem Tree.find_vertex (b t : Tree) (sel : Nat) :
    (Tree.vertex b t).find sel = if sel < b.hi then b.find sel else t.find sel := rfl
theorem Tree.find_leaf (s : Shard) (sel : Nat) : (Tree.leaf s).find sel = s := rfl
theorem Tree.modify_vertex (b t : Tree) (sel : Nat) (f : Shard → Shard) :
    (Tree.vertex b t).modify sel f = if sel < b.hi then .vertex (b.modify sel f) t else .vertex b (t.modify sel f) := rfl

/-- Every shard of the tree is below 4 GiB (see `Shard.Small`). -/
def Tree.Small (t : Tree) : Prop := ∀ s ∈ t.leaves, s.Small

theorem Tree.Small.vertex {b t : Tree} : (Tree.vertex b t).Small ↔ b.Small ∧ t.Small := by
  unfold Tree.Small
  simp only [Tree.leaves_vertex, List.mem_append]
  exact ⟨fun h => ⟨fun s hs => h s (Or.inl hs), fun s hs => h s (Or.inr hs)⟩, fun h s hs => hs.elim (h.1 s) (h.2 s)⟩

theorem Tree.Small.leaf {s : Shard} : (Tree.leaf s).Small ↔ s.Small := by
  simp [Tree.Small, Tree.leaves]

theorem Tree.OK.lo_eq {cfg ex lo hi t} (h : Tree.OK cfg ex lo hi t) : t.lo = lo := by
  induction h with
  | leaf hlo => exact hlo
  | vertex _ _ _ ih _ => exact ih

theorem Tree.OK.hi_eq {cfg ex lo hi t} (h : Tree.OK cfg ex lo hi t) : t.hi = hi := by
  induction h with
  | leaf _ hhi => exact hhi
  | vertex _ _ _ _ ih => exact ih

theorem Tree.OK.le {cfg ex lo hi t} (h : Tree.OK cfg ex lo hi t) : lo ≤ hi := by
  cases h <;> assumption

theorem midOf_bounds {lo hi : Nat} (h : lo ≤ hi) : lo ≤ midOf lo hi ∧ midOf lo hi ≤ hi := by
  unfold midOf; omega

theorem Tree.OK.weaken {cfg ex lo hi t} (h : Tree.OK cfg ex lo hi t) : Tree.OK cfg false lo hi t := by
  induction h with
  | leaf a b c d e => exact .leaf a b c d ⟨e.1.weaken, fun t ht => (e.2 t ht).weaken⟩
  | vertex a _ _ ih1 ih2 => exact .vertex a ih1 ih2

/-- Membership of a selector in a span. -/
def inSpan (lo hi sel : Nat) : Prop := lo ≤ sel ∧ sel < hi

theorem Tree.OK.find {cfg ex lo hi t} (h : Tree.OK cfg ex lo hi t) {sel : Nat} (hs : inSpan lo hi sel) :
    inSpan (t.find sel).lo (t.find sel).hi sel ∧ (t.find sel).Inv cfg ∧ (t.find sel).AcctInv ex ∧ t.find sel ∈ t.leaves := by
  induction h with
  | leaf hlo hhi hle hinv ha =>
    subst hlo hhi; exact ⟨hs, hinv, ha, List.mem_singleton.2 rfl⟩
  | @vertex lo hi b t hle hb ht ih1 ih2 =>
    rw [Tree.find_vertex, Tree.leaves_vertex, hb.hi_eq]
    split
    · obtain ⟨h1, h2, h3, h4⟩ := ih1 ⟨hs.1, by assumption⟩
      exact ⟨h1, h2, h3, List.mem_append_left _ h4⟩
    · obtain ⟨h1, h2, h3, h4⟩ := ih2 ⟨by omega, hs.2⟩
      exact ⟨h1, h2, h3, List.mem_append_right _ h4⟩

/-- Two keys routed to the same shard, or one of them elsewhere: the shard found depends only on the selector. -/
theorem Tree.get_vertex (cfg : Cfg) (b t : Tree) (k : Bytes) :
    (Tree.vertex b t).get cfg k = if (cfg.ph k).shardSel < b.hi then b.get cfg k else t.get cfg k := by
  unfold Tree.get
  rw [Tree.find_vertex]
  split <;> rfl

theorem Tree.get_leaf (cfg : Cfg) (s : Shard) (k : Bytes) : (Tree.leaf s).get cfg k = s.val cfg k := rfl

/-- Applying an effect keeps the accounting. -/
theorem Shard.AcctInv.effect {cfg : Cfg} {s : Shard} {k : Bytes} {ps cur new ex} (h : s.Inv cfg) (ha : s.AcctInv ex)
    (he : Effect cfg (s.active (cfg.ph k).rowSel) (cfg.ph k).rowSel k cur ps new) :
    (s.runActive (cfg.ph k).rowSel ps).AcctInv ex := by
  have hr := (cfg.ph k).rowSel_lt
  have hx := (h.active (cfg.ph k).rowSel).ext
  have key : FileAcct ex (s.active (cfg.ph k).rowSel) → FileAcct ex ((s.active (cfg.ph k).rowSel).run ps) := by
    rintro ⟨d, e, a, hex⟩
    exact ⟨d, e, he.acct hx hr a, hex⟩
  revert key
  unfold Shard.active Shard.runActive
  cases ht : s.tgt with
  | none => intro key; exact ⟨key ha.1, fun t e => absurd e (by simp)⟩
  | some t =>
    simp only
    split
    · intro key
      refine ⟨ha.1, fun t' e => ?_⟩
      simp at e; subst e; exact key (ha.2 t ht)
    · intro key
      refine ⟨key ha.1, fun t' e => ?_⟩
      exact ha.2 t' (ht.trans e)

theorem Shard.remove_acct {cfg : Cfg} {s : Shard} {k : Bytes} {ex} (h : s.Inv cfg) (ha : s.AcctInv ex) :
    (s.remove (cfg.ph k) k).1.AcctInv ex :=
  ha.effect h (removePlan_spec (h.active (cfg.ph k).rowSel) (h.val k)).2

theorem Shard.beginCompaction_acct {s : Shard} {ex} (ha : s.AcctInv ex) (off : Nat) : (s.beginCompaction off).AcctInv ex := by
  unfold Shard.beginCompaction
  split
  · exact ha
  · cases ht : s.tgt with
    | some t => exact ha
    | none => exact ⟨ha.1, fun t e => by simp at e; subst e; exact FileAcct.empty ex⟩

theorem Shard.insert_acct {cfg : Cfg} {s : Shard} {k v : Bytes} {mode : Mode} {ex} (h : s.Inv cfg) (ha : s.AcctInv ex)
    (hsmall : (s.active (cfg.ph k).rowSel).writeOff < 4294967296) (hk : k.length < 65536) (hv : v.length < 65536) :
    (s.insert cfg (cfg.ph k) k v mode).1.AcctInv ex := by
  have hplan := insertPlan_spec (mode := mode) (h.active (cfg.ph k).rowSel) (h.val k) hk hv hsmall
  unfold Shard.insert
  generalize s.insertPlan cfg (cfg.ph k) k v mode = p at hplan
  obtain ⟨ps, st0, sc⟩ := p
  simp only at hplan ⊢
  have : (s.runActive (cfg.ph k).rowSel ps).AcctInv ex := by
    rcases hplan with ⟨_, h2, _⟩ | ⟨_, h2⟩
    · subst h2; rw [Shard.runActive_nil]; exact ha
    · exact ha.effect h h2
  cases sc with
  | none => exact this
  | some off => exact Shard.beginCompaction_acct this off

theorem quiet_small {lo hi : Nat} {f : MFile} (h : f.writeOff < 4294967296) : (quiet lo hi f).Small :=
  ⟨h, fun t e => absurd e (by simp [quiet])⟩

theorem quiet_acct {lo hi : Nat} {f : MFile} {ex} (h : Acct 0 0 f) : (quiet lo hi f).AcctInv ex :=
  ⟨⟨0, 0, h, fun _ => ⟨rfl, rfl⟩⟩, fun t e => absurd e (by simp [quiet])⟩

/-- `remove` on the tree. -/
theorem Tree.remove_spec {cfg ex lo hi t} (h : Tree.OK cfg ex lo hi t) {k : Bytes} (hk : inSpan lo hi (cfg.ph k).shardSel) :
    Tree.OK cfg ex lo hi (t.remove cfg k).1 ∧ (t.remove cfg k).2 = t.get cfg k ∧
    ∀ k', inSpan lo hi (cfg.ph k').shardSel → (t.remove cfg k).1.get cfg k' = Spec.Map.upd (t.get cfg) k none k' := by
  induction h with
  | @leaf lo hi s hlo hhi hle hinv ha =>
    subst hlo hhi
    obtain ⟨h1, h2, h3, h4, h5⟩ := Shard.remove_spec hinv hk.1 hk.2
    refine ⟨.leaf h2 h3 hle h1 (Shard.remove_acct hinv ha), h4, fun k' _ => h5 k'⟩
  | @vertex lo hi b t hle hb ht ih1 ih2 =>
    have hbh := hb.hi_eq
    have e : ((Tree.vertex b t).remove cfg k) =
        if (cfg.ph k).shardSel < b.hi then (.vertex (b.remove cfg k).1 t, (b.remove cfg k).2)
        else (.vertex b (t.remove cfg k).1, (t.remove cfg k).2) := by
      unfold Tree.remove
      simp only [Tree.modify_vertex, Tree.find_vertex]
      split <;> rfl
    rw [e, Tree.get_vertex]
    by_cases hlt : (cfg.ph k).shardSel < b.hi
    · simp only [if_pos hlt]
      obtain ⟨i1, i2, i3⟩ := ih1 ⟨hk.1, by rw [← hbh]; exact hlt⟩
      refine ⟨.vertex hle i1 ht, i2, ?_⟩
      intro k' hk'
      rw [Tree.get_vertex, i1.hi_eq]
      by_cases e' : (cfg.ph k').shardSel < midOf lo hi
      · rw [if_pos e', i3 k' ⟨hk'.1, e'⟩]
        unfold Spec.Map.upd; split
        · rfl
        · rw [Tree.get_vertex, hbh, if_pos e']
      · rw [if_neg e', Spec.Map.upd_other _ _ (by rintro rfl; rw [hbh] at hlt; exact e' hlt), Tree.get_vertex, hbh, if_neg e']
    · simp only [if_neg hlt]
      obtain ⟨i1, i2, i3⟩ := ih2 ⟨by rw [hbh] at hlt; omega, hk.2⟩
      refine ⟨.vertex hle hb i1, i2, ?_⟩
      intro k' hk'
      rw [Tree.get_vertex, hbh]
      by_cases e' : (cfg.ph k').shardSel < midOf lo hi
      · rw [if_pos e', Spec.Map.upd_other _ _ (by rintro rfl; rw [hbh] at hlt; exact hlt e'), Tree.get_vertex, hbh, if_pos e']
      · rw [if_neg e', i3 k' ⟨by omega, hk'.2⟩]
        unfold Spec.Map.upd; split
        · rfl
        · rw [Tree.get_vertex, hbh, if_neg e']

/-- Changing one key in the lower half changes that key in the whole. -/
theorem Tree.get_left {cfg ex lo hi} {b b' t : Tree} {k : Bytes} {x} (hb : Tree.OK cfg ex lo (midOf lo hi) b)
    (hb' : Tree.OK cfg ex lo (midOf lo hi) b') (hk : (cfg.ph k).shardSel < midOf lo hi)
    (h : ∀ k', inSpan lo (midOf lo hi) (cfg.ph k').shardSel → b'.get cfg k' = Spec.Map.upd (b.get cfg) k x k')
    (k' : Bytes) (hk' : inSpan lo hi (cfg.ph k').shardSel) :
    (Tree.vertex b' t).get cfg k' = Spec.Map.upd ((Tree.vertex b t).get cfg) k x k' := by
  rw [Tree.get_vertex, hb'.hi_eq]
  by_cases e' : (cfg.ph k').shardSel < midOf lo hi
  · rw [if_pos e', h k' ⟨hk'.1, e'⟩]
    unfold Spec.Map.upd; split
    · rfl
    · rw [Tree.get_vertex, hb.hi_eq, if_pos e']
  · rw [if_neg e', Spec.Map.upd_other _ _ (by rintro rfl; exact e' hk), Tree.get_vertex, hb.hi_eq, if_neg e']

/-- Changing one key in the upper half changes that key in the whole. -/
theorem Tree.get_right {cfg ex lo hi} {b t t' : Tree} {k : Bytes} {x} (hb : Tree.OK cfg ex lo (midOf lo hi) b)
    (hk : ¬ (cfg.ph k).shardSel < midOf lo hi)
    (h : ∀ k', inSpan (midOf lo hi) hi (cfg.ph k').shardSel → t'.get cfg k' = Spec.Map.upd (t.get cfg) k x k')
    (k' : Bytes) (hk' : inSpan lo hi (cfg.ph k').shardSel) :
    (Tree.vertex b t').get cfg k' = Spec.Map.upd ((Tree.vertex b t).get cfg) k x k' := by
  rw [Tree.get_vertex, hb.hi_eq]
  by_cases e' : (cfg.ph k').shardSel < midOf lo hi
  · rw [if_pos e', Spec.Map.upd_other _ _ (by rintro rfl; exact hk e'), Tree.get_vertex, hb.hi_eq, if_pos e']
  · rw [if_neg e', h k' ⟨by omega, hk'.2⟩]
    unfold Spec.Map.upd; split
    · rfl
    · rw [Tree.get_vertex, hb.hi_eq, if_neg e']

theorem Shard.beginCompaction_small {s : Shard} {ex} (ha : s.AcctInv ex) (h : s.Small) (off : Nat) :
    (s.beginCompaction off).Small := by
  unfold Shard.beginCompaction
  split
  · exact h
  · cases ht : s.tgt with
    | some t => exact h
    | none =>
      refine ⟨h.1, fun t e => ?_⟩
      simp at e; subst e
      have h1 : remW kvSize s.src 0 ≤ s.src.writeOff := by rw [remW_zero]; exact ha.1.bytes
      have h2 := h.1
      show 0 + remW kvSize s.src 0 < _
      omega

/-- If `insert` asks for a split it has stored nothing (it may have started a compaction). -/
theorem Shard.insert_split {cfg : Cfg} {s : Shard} {k v : Bytes} {mode : Mode} (h : s.Inv cfg)
    (hsmall : (s.active (cfg.ph k).rowSel).writeOff < 4294967296) (hk : k.length < 65536) (hv : v.length < 65536)
    (hst : (s.insert cfg (cfg.ph k) k v mode).2 = .splitNeeded) :
    (s.insert cfg (cfg.ph k) k v mode).1 = s ∨ ∃ off, (s.insert cfg (cfg.ph k) k v mode).1 = s.beginCompaction off := by
  have hplan := insertPlan_spec (mode := mode) (h.active (cfg.ph k).rowSel) (h.val k) hk hv hsmall
  unfold Shard.insert at *
  generalize s.insertPlan cfg (cfg.ph k) k v mode = p at hplan hst
  obtain ⟨ps, st0, sc⟩ := p
  simp only at hplan hst ⊢
  rcases hplan with ⟨_, h2, _⟩ | ⟨h1, _⟩
  · subst h2
    rw [Shard.runActive_nil]
    cases sc with
    | none => exact Or.inl rfl
    | some off => exact Or.inr ⟨off, rfl⟩
  · exfalso
    rw [hst] at h1
    revert h1
    unfold Spec.insertAt
    split <;> (try split) <;> intro h1 <;> exact absurd h1 (by simp)

/-- Splitting a shard gives a tree with the same contents. -/
theorem Shard.split_tree {cfg : Cfg} {s : Shard} {ex : Bool} (h : s.Inv cfg) (hsmall : s.Small) (ha : s.AcctInv ex)
    (hle : s.lo ≤ s.hi) :
    ∃ b t, s.split cfg = some (b, t) ∧ Tree.OK cfg ex s.lo s.hi (.vertex (.leaf b) (.leaf t)) ∧
      (Tree.vertex (.leaf b) (.leaf t)).Small ∧
      ∀ k, inSpan s.lo s.hi (cfg.ph k).shardSel → (Tree.vertex (.leaf b) (.leaf t)).get cfg k = s.val cfg k := by
  obtain ⟨bf, tf, h1, h2, h3, h4, h5, _, _, h6, h7, _, h8⟩ := s.split_spec h hsmall ha
  have hm := midOf_bounds hle
  refine ⟨_, _, h1, ?_, ?_, ?_⟩
  · exact .vertex hle (.leaf rfl rfl hm.1 (quiet_inv h2) (quiet_acct h4)) (.leaf rfl rfl hm.2 (quiet_inv h3) (quiet_acct h5))
  · rw [Tree.Small.vertex, Tree.Small.leaf, Tree.Small.leaf]
    exact ⟨quiet_small (by omega), quiet_small (by omega)⟩
  · intro k _
    rw [Tree.get_vertex, Tree.get_leaf, Tree.get_leaf]
    have hb := Shard.split_val h h2 h6 (fun k => decide ((cfg.ph k).shardSel < midOf s.lo s.hi)) (fun _ _ => rfl) k
    have ht := Shard.split_val h h3 h7 (fun k => !decide ((cfg.ph k).shardSel < midOf s.lo s.hi)) (fun _ _ => rfl) k
    rw [hb, ht]
    show (if (cfg.ph k).shardSel < midOf s.lo s.hi then _ else _) = _
    by_cases e : (cfg.ph k).shardSel < midOf s.lo s.hi
    · rw [if_pos e, if_pos (by simpa using e)]
    · rw [if_neg e, if_pos (by simpa using e)]

/-- `insert` on the tree refines the ideal map; the only other outcome is running out of fuel. -/
theorem Tree.insert_spec {cfg : Cfg} {ex : Bool} {k v : Bytes} {mode : Mode} (hk : k.length < 65536) (hv : v.length < 65536) :
    ∀ (n : Nat) (t : Tree) (lo hi : Nat), Tree.OK cfg ex lo hi t → t.Small → inSpan lo hi (cfg.ph k).shardSel →
      t.insert cfg (cfg.ph k) k v mode n = .diverge ∨
      ∃ t' , t.insert cfg (cfg.ph k) k v mode n = .ok (t', (Spec.insertAt (t.get cfg k) v mode).2) ∧ Tree.OK cfg ex lo hi t' ∧
        ∀ k', inSpan lo hi (cfg.ph k').shardSel →
          t'.get cfg k' = Spec.Map.upd (t.get cfg) k (Spec.insertAt (t.get cfg k) v mode).1 k'
  | 0, _, _, _, _, _, _ => Or.inl rfl
  | n + 1, .leaf s, lo, hi, hok, hsm, hsel => by
    cases hok with
    | leaf hlo hhi hle hinv ha =>
      subst hlo hhi
      rw [Tree.Small.leaf] at hsm
      have hoff := hsm.active (cfg.ph k).rowSel
      obtain ⟨g1, g2, g3, g4⟩ := Shard.insert_spec (mode := mode) hinv hoff hk hv hsel.1 hsel.2
      have ha' := Shard.insert_acct (mode := mode) hinv ha hoff hk hv
      have hsplit := Shard.insert_split (mode := mode) hinv hoff hk hv
      unfold Tree.insert
      generalize s.insert cfg (cfg.ph k) k v mode = p at g1 g2 g3 g4 ha' hsplit
      obtain ⟨s', st⟩ := p
      simp only at g1 g2 g3 g4 ha' hsplit
      rcases g4 with ⟨e, hval, _⟩ | ⟨e, hval⟩
      · subst e
        have hsm' : s'.Small := by
          rcases hsplit rfl with e | ⟨off, e⟩
          · rw [e]; exact hsm
          · rw [e]; exact Shard.beginCompaction_small ha hsm off
        obtain ⟨b, t, p1, p2, p3, p4⟩ := Shard.split_tree g1 hsm' ha' (by omega)
        rw [g2, g3] at p2 p4
        simp only [p1]
        rcases Tree.insert_spec (mode := mode) hk hv n _ s.lo s.hi p2 p3 hsel with hd | ⟨t', q1, q2, q3⟩
        · exact Or.inl hd
        · right
          rw [p4 k hsel, hval k] at q1 q3
          refine ⟨t', q1, q2, ?_⟩
          intro k' hk'
          rw [q3 k' hk']
          unfold Spec.Map.upd
          split
          · rfl
          · rw [p4 k' hk', hval k']; rfl
      · right
        have hne : st ≠ .splitNeeded := by
          rw [e]; unfold Spec.insertAt
          split <;> (try split) <;> simp
        refine ⟨.leaf s', ?_, .leaf g2 g3 hle g1 ha', fun k' _ => hval k'⟩
        rw [Tree.get_leaf, ← e]
        cases st with
        | splitNeeded => exact absurd rfl hne
        | _ => rfl
  | n + 1, .vertex b t, lo, hi, hok, hsm, hsel => by
    cases hok with
    | vertex hle hb ht =>
      rw [Tree.Small.vertex] at hsm
      unfold Tree.insert
      rw [Tree.get_vertex, hb.hi_eq]
      by_cases hlt : (cfg.ph k).shardSel < midOf lo hi
      · rw [if_pos hlt, if_pos hlt]
        rcases Tree.insert_spec (mode := mode) hk hv n b lo (midOf lo hi) hb hsm.1 ⟨hsel.1, hlt⟩ with hd | ⟨b', q1, q2, q3⟩
        · left; rw [hd]; rfl
        · right
          exact ⟨.vertex b' t, by rw [q1]; rfl, .vertex hle q2 ht, Tree.get_left hb q2 hlt q3⟩
      · rw [if_neg hlt, if_neg hlt]
        rcases Tree.insert_spec (mode := mode) hk hv n t (midOf lo hi) hi ht hsm.2 ⟨by omega, hsel.2⟩ with hd | ⟨t', q1, q2, q3⟩
        · left; rw [hd]; rfl
        · right
          exact ⟨.vertex b t', by rw [q1]; rfl, .vertex hle hb q2, Tree.get_right hb hlt q3⟩

end Candy
