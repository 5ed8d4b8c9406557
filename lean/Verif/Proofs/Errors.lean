import Verif.Proofs.CrashLocal
import Verif.Model.Errors
import Verif.Proofs.History
/-!
# A call that fails with an I/O error leaves the store as a call that is cut off
-/
namespace Candy
open Spec

theorem WriteFails.grown {f g : MFile} {k v : Bytes} (h : WriteFails f k v g) :
    Grown f g ∧ g.writeOff = f.writeOff + (k.length + v.length) := by
  obtain ⟨data, hd, rfl⟩ := h
  exact ⟨⟨rfl, fun i hi => hd i (by omega), Nat.le_add_right _ _, rfl, rfl⟩, rfl⟩

/-- A failed write changes nothing that can be seen. -/
theorem WriteFails.shard {cfg : Cfg} {s : Shard} {row : Nat} {g : MFile} {k v : Bytes} (h : s.Inv cfg) (ha : s.AcctInv false)
    (hw : WriteFails (s.active row) k v g) :
    (s.setActive row g).Inv cfg ∧ (s.setActive row g).AcctInv false ∧ ∀ k', (s.setActive row g).val cfg k' = s.val cfg k' := by
  obtain ⟨hg, _⟩ := hw.grown
  have ho : OneOf cfg s.lo s.hi (s.active row) { s.active row with writeOff := g.writeOff } g :=
    OneOf.of_grown (h.active row) hg (Nat.le_refl _)
  have hgrow : Grown (s.active row) { s.active row with writeOff := g.writeOff } :=
    ⟨rfl, fun _ _ => rfl, hg.off, rfl, rfl⟩
  have hInv : Shard.Inv cfg (s.setActive row { s.active row with writeOff := g.writeOff }) := by
    rcases s.setActive_cases row with ⟨t, h1, h2, h3, h4, h5, h6⟩ | ⟨h1, h3, h4, h5, h6⟩
    · rw [h5]
      rw [h3] at hgrow ⊢
      refine ⟨h.src, ?_, ?_, ?_⟩
      · intro x hx; simp only [Option.some.injEq] at hx; subst hx; exact hgrow.ok (h.tgt t h1)
      · intro x hx; simp only [Option.some.injEq] at hx; subst hx; exact h.cu t h1
      · intro x hx; simp only [Option.some.injEq] at hx; subst hx; exact h.fresh t h1
    · rw [h5]
      rw [h3] at hgrow ⊢
      exact ⟨hgrow.ok h.src, h.tgt, h.cu, h.fresh⟩
  obtain ⟨a, b⟩ := ho.shard h ha hInv rfl
  refine ⟨a, b, fun k' => ?_⟩
  refine (Shard.val_eq_of_rows h a (fun r hr kv => ?_) k')
  have := Shard.setActive_rows s row (g := g) (g' := s.active row) (fun r c hr hc => hg.live (h.active row).extOK hr hc) hg.cu r hr
  rw [Shard.setActive_self] at this
  rw [this]

/-- The stores of `insert` without a new compaction. -/
theorem plan_effect {cfg : Cfg} {s : Shard} {k v : Bytes} {mode : Mode} (h : s.Inv cfg) (ha : s.AcctInv false)
    (hsmall : (s.active (cfg.ph k).rowSel).writeOff < 4294967296) (hk : k.length < 65536) (hv : v.length < 65536)
    (hlo : s.lo ≤ (cfg.ph k).shardSel) (hhi : (cfg.ph k).shardSel < s.hi) :
    let s' := s.runActive (cfg.ph k).rowSel (s.insertPlan cfg (cfg.ph k) k v mode).1
    s'.Inv cfg ∧ s'.AcctInv false ∧ s'.lo = s.lo ∧ s'.hi = s.hi ∧ ((∀ k', s'.val cfg k' = s.val cfg k') ∨
      ∀ k', s'.val cfg k' = Spec.Map.upd (s.val cfg) k (Spec.insertAt (s.val cfg k) v mode).1 k') := by
  intro s'
  have hspan : s'.lo = s.lo ∧ s'.hi = s.hi := by
    show (s.runActive _ _).lo = _ ∧ (s.runActive _ _).hi = _
    rw [Shard.runActive_eq]; exact s.setActive_lo _ _
  have hplan := insertPlan_spec (mode := mode) (h.active (cfg.ph k).rowSel) (h.val k) hk hv hsmall
  rcases hplan with ⟨_, h2, _⟩ | ⟨_, h2⟩
  · have e : s' = s := by show s.runActive _ _ = s; rw [h2]; exact Shard.runActive_nil _ _
    rw [e]
    exact ⟨h, ha, rfl, rfl, Or.inl fun _ => rfl⟩
  · obtain ⟨e1, e2⟩ := h.effect h2 hlo hhi
    exact ⟨e1, ha.effect h h2, hspan.1, hspan.2, Or.inr e2⟩

/-- The two possible outcomes of a failed insertion. -/
def OldOrNew (cfg : Cfg) (lo hi : Nat) (t t' : Tree) (k v : Bytes) (mode : Mode) : Prop :=
  (∀ k', inSpan lo hi (cfg.ph k').shardSel → t'.get cfg k' = t.get cfg k') ∨
  ∀ k', inSpan lo hi (cfg.ph k').shardSel → t'.get cfg k' = Map.upd (t.get cfg) k (insertAt (t.get cfg k) v mode).1 k'

theorem get_left_same {cfg : Cfg} {lo hi : Nat} {b b' t : Tree} (hb : Tree.OK cfg false lo (midOf lo hi) b)
    (hb' : Tree.OK cfg false lo (midOf lo hi) b')
    (h : ∀ k', inSpan lo (midOf lo hi) (cfg.ph k').shardSel → b'.get cfg k' = b.get cfg k') :
    ∀ k', inSpan lo hi (cfg.ph k').shardSel → (Tree.vertex b' t).get cfg k' = (Tree.vertex b t).get cfg k' := by
  intro k' hk'
  rw [Tree.get_vertex, Tree.get_vertex, hb.hi_eq, hb'.hi_eq]
  split
  · rename_i e; exact h k' ⟨hk'.1, e⟩
  · rfl

theorem get_right_same {cfg : Cfg} {lo hi : Nat} {b t t' : Tree} (hb : Tree.OK cfg false lo (midOf lo hi) b)
    (h : ∀ k', inSpan (midOf lo hi) hi (cfg.ph k').shardSel → t'.get cfg k' = t.get cfg k') :
    ∀ k', inSpan lo hi (cfg.ph k').shardSel → (Tree.vertex b t').get cfg k' = (Tree.vertex b t).get cfg k' := by
  intro k' hk'
  rw [Tree.get_vertex, Tree.get_vertex, hb.hi_eq]
  split
  · rfl
  · rename_i e; exact h k' ⟨by omega, hk'.2⟩

/-- A failed insertion leaves a well-formed tree, holding what it held before, or what it would hold after a successful one. -/
theorem InsFails.spec {cfg : Cfg} {k v : Bytes} {mode : Mode} (hk : k.length < 65536) (hv : v.length < 65536) {t t' : Tree} {x : Bool}
    (h : InsFails cfg (cfg.ph k) k v mode t t' x) :
    ∀ lo hi, Tree.OK cfg false lo hi t → t.Small → inSpan lo hi (cfg.ph k).shardSel →
      Tree.OK cfg false lo hi t' ∧ OldOrNew cfg lo hi t t' k v mode := by
  induction h with
  | read s => exact fun lo hi hok _ _ => ⟨hok, Or.inl fun _ _ => rfl⟩
  | @write s g h hw =>
    intro lo hi hok hsm hsel
    cases hok with
    | leaf hlo hhi hle hinv ha =>
      obtain ⟨h1, h2, h3⟩ := hw.shard hinv ha
      have h4 := s.setActive_lo (cfg.ph k).rowSel g
      exact ⟨.leaf (h4.1.trans hlo) (h4.2.trans hhi) hle h1 h2, Or.inl fun k' _ => h3 k'⟩
  | @sync s h =>
    intro lo hi hok hsm hsel
    cases hok with
    | leaf hlo hhi hle hinv ha =>
      subst hlo hhi
      obtain ⟨h1, h2, h3, h4, h5⟩ := plan_effect (mode := mode) hinv ha ((Tree.Small.leaf.1 hsm).active (cfg.ph k).rowSel) hk hv hsel.1 hsel.2
      refine ⟨.leaf h3 h4 hle h1 h2, ?_⟩
      rcases h5 with h5 | h5
      · exact Or.inl fun k' _ => h5 k'
      · exact Or.inr fun k' _ => h5 k'
  | @begin s off h =>
    intro lo hi hok hsm hsel
    cases hok with
    | leaf hlo hhi hle hinv ha =>
      subst hlo hhi
      obtain ⟨h1, h2, h3, h4, h5⟩ := plan_effect (mode := mode) hinv ha ((Tree.Small.leaf.1 hsm).active (cfg.ph k).rowSel) hk hv hsel.1 hsel.2
      refine ⟨.leaf h3 h4 hle h1 h2, ?_⟩
      rcases h5 with h5 | h5
      · exact Or.inl fun k' _ => h5 k'
      · exact Or.inr fun k' _ => h5 k'
  | @split s s' s'' h hf =>
    intro lo hi hok hsm hsel
    cases hok with
    | leaf hlo hhi hle hinv ha =>
      subst hlo hhi
      have hsm := Tree.Small.leaf.1 hsm
      have hoff := hsm.active (cfg.ph k).rowSel
      obtain ⟨g1, g2, g3, g4⟩ := Shard.insert_spec (mode := mode) hinv hoff hk hv hsel.1 hsel.2
      have ha' := Shard.insert_acct (mode := mode) hinv ha hoff hk hv
      have hspl := Shard.insert_split (mode := mode) hinv hoff hk hv (by rw [h])
      rw [h] at g1 g2 g3 g4 ha' hspl
      simp only at g1 g2 g3 g4 ha' hspl
      have hsm' : s'.Small := by
        rcases hspl with e | ⟨off, e⟩
        · rw [e]; exact hsm
        · rw [e]; exact Shard.beginCompaction_small ha hsm off
      obtain ⟨u, e, u1, u2, u3, u4, u5, u6, u7, _⟩ := Shard.finish_spec g1 hsm' ha'
      rw [hf] at e; simp only [Option.some.injEq] at e; subst e
      refine ⟨.leaf (u3.trans g2) (u4.trans g3) hle u1 u6, Or.inl fun k' _ => ?_⟩
      rw [Tree.get_leaf, Tree.get_leaf, u7]
      rcases g4 with ⟨_, g, _⟩ | ⟨e, _⟩
      · exact g k'
      · exfalso
        revert e
        unfold Spec.insertAt
        split <;> (try split) <;> intro h1 <;> exact absurd h1 (by simp)
  | @afterSplit s s' b t u x h hs _ ih =>
    intro lo hi hok hsm hsel
    cases hok with
    | leaf hlo hhi hle hinv ha =>
      subst hlo hhi
      have hsm := Tree.Small.leaf.1 hsm
      have hoff := hsm.active (cfg.ph k).rowSel
      obtain ⟨g1, g2, g3, g4⟩ := Shard.insert_spec (mode := mode) hinv hoff hk hv hsel.1 hsel.2
      have ha' := Shard.insert_acct (mode := mode) hinv ha hoff hk hv
      have hspl := Shard.insert_split (mode := mode) hinv hoff hk hv (by rw [h])
      rw [h] at g1 g2 g3 g4 ha' hspl
      simp only at g1 g2 g3 g4 ha' hspl
      have hsm' : s'.Small := by
        rcases hspl with e | ⟨off, e⟩
        · rw [e]; exact hsm
        · rw [e]; exact Shard.beginCompaction_small ha hsm off
      have hval : ∀ k', s'.val cfg k' = s.val cfg k' := by
        rcases g4 with ⟨_, g, _⟩ | ⟨e, _⟩
        · exact g
        · exfalso
          revert e
          unfold Spec.insertAt
          split <;> (try split) <;> intro h1 <;> exact absurd h1 (by simp)
      obtain ⟨b', t', p1, p2, p3, p4⟩ := Shard.split_tree g1 hsm' ha' (by omega)
      rw [hs] at p1
      simp only [Option.some.injEq, Prod.mk.injEq] at p1
      obtain ⟨rfl, rfl⟩ := p1
      rw [g2, g3] at p2 p4
      obtain ⟨q1, q2⟩ := ih _ _ p2 p3 hsel
      refine ⟨q1, ?_⟩
      rcases q2 with q2 | q2
      · left; intro k' hk'; rw [q2 k' hk', p4 k' hk', hval]; rfl
      · right
        intro k' hk'
        rw [q2 k' hk', p4 k hsel, hval k]
        unfold Spec.Map.upd
        split
        · rfl
        · rw [p4 k' hk', hval k']; rfl
  | @bottom b t b' x h _ ih =>
    intro lo hi hok hsm hsel
    cases hok with
    | vertex hle hb ht =>
      rw [Tree.Small.vertex] at hsm
      rw [hb.hi_eq] at h
      obtain ⟨q1, q2⟩ := ih _ _ hb hsm.1 ⟨hsel.1, h⟩
      refine ⟨.vertex hle q1 ht, ?_⟩
      rcases q2 with q2 | q2
      · exact Or.inl (get_left_same hb q1 q2)
      · right
        rw [Tree.get_vertex, hb.hi_eq, if_pos h]
        exact Tree.get_left hb q1 h q2
  | @top b t t' x h _ ih =>
    intro lo hi hok hsm hsel
    cases hok with
    | vertex hle hb ht =>
      rw [Tree.Small.vertex] at hsm
      rw [hb.hi_eq] at h
      obtain ⟨q1, q2⟩ := ih _ _ ht hsm.2 ⟨by omega, hsel.2⟩
      refine ⟨.vertex hle hb q1, ?_⟩
      rcases q2 with q2 | q2
      · exact Or.inl (get_right_same hb q2)
      · right
        rw [Tree.get_vertex, hb.hi_eq, if_neg h]
        exact Tree.get_right hb h q2

/-- A failed raw operation is one that was done or not done. -/
theorem OpFails.sim {cfg : Cfg} {α : Type} {t t' : Tree} {p : Prog α} {x : Bool} (h : OpFails cfg t p t' x)
    (hok : Tree.OK cfg false 0 END_OF_SHARDS t) (hsm : t.Small) :
    Tree.OK cfg false 0 END_OF_SHARDS t' ∧ ∃ p', AExec cfg (t.get cfg) p (t'.get cfg) p' := by
  cases h with
  | get k c => exact ⟨hok, _, .refl _ _⟩
  | byHash ph suf c => exact ⟨hok, _, .refl _ _⟩
  | rem k c => exact ⟨hok, _, .refl _ _⟩
  | remSync k c =>
    obtain ⟨h1, h2⟩ := (CStep.rem (cfg := cfg) t k c).sim hok hsm
    exact ⟨h1, _, .step h2 (.refl _ _)⟩
  | @ins k v mode _ _ c hs h =>
    have hz := sizeErr_lt hs
    obtain ⟨h1, h2⟩ := h.spec hz.1 hz.2 0 END_OF_SHARDS hok hsm (inSpan_full _)
    refine ⟨h1, ?_⟩
    rcases h2 with h2 | h2
    · have e : t'.get cfg = t.get cfg := funext fun k' => h2 k' (inSpan_full _)
      rw [e]; exact ⟨_, .refl _ _⟩
    · have e : t'.get cfg = Map.upd (t.get cfg) k (insertAt (t.get cfg k) v mode).1 := funext fun k' => h2 k' (inSpan_full _)
      rw [e]
      exact ⟨_, .step (.ins _ _ _ _ _ hs) (.refl _ _)⟩

theorem CallFails.sim {cfg : Cfg} {t t' : Tree} {c : Call} {x : Bool} (h : CallFails cfg t c t' x)
    (hok : Tree.OK cfg false 0 END_OF_SHARDS t) :
    Tree.OK cfg false 0 END_OF_SHARDS t' ∧ ∃ p', AExec cfg (t.get cfg) (c.prog cfg) (t'.get cfg) p' := by
  obtain ⟨t1, p, h1, h2, h3⟩ := h
  obtain ⟨h4, h5⟩ := h1.sim hok
  obtain ⟨h6, p', h7⟩ := h3.sim h4 h2
  exact ⟨h6, p', h5.trans h7⟩

theorem Tiles.mapTgt (g : Shard → Option MFile) {lo hi : Nat} {l : List Shard} (h : Tiles lo hi l) :
    Tiles lo hi (l.map fun s => { s with tgt := g s }) := by
  induction h with
  | nil => exact .nil
  | cons hlo hd _ ih => exact .cons hlo hd ih

/-- Remains of failed calls do not matter for recovery. -/
theorem LeftDir.recov {cfg : Cfg} {d : Dir} {t : Tree} (h : LeftDir d t.leaves) (hok : Tree.OK cfg false 0 END_OF_SHARDS t)
    (hn : t.NonDegenerate) : Recov cfg d (t.get cfg) := by
  have ht := hok.tiling hn dyadic_full
  have key : ∀ s ∈ t.leaves, ROK cfg { s with tgt := (d.find s.tgtName).map DFile.asFile } ∧
      ∀ k, Shard.val cfg { s with tgt := (d.find s.tgtName).map DFile.asFile } k = s.val cfg k := by
    intro s hs
    have hr := (ht.mem hs).2.2.2.1.rok (ht.mem hs).2.2.2.2
    have same : (d.find s.tgtName).map DFile.asFile = s.tgt → ROK cfg { s with tgt := (d.find s.tgtName).map DFile.asFile } ∧
        ∀ k, Shard.val cfg { s with tgt := (d.find s.tgtName).map DFile.asFile } k = s.val cfg k := by
      intro e
      rw [e]
      exact ⟨hr, fun _ => rfl⟩
    rcases h.tgt s hs with e | ⟨e0, e⟩
    · refine same ?_
      rw [e]; cases s.tgt <;> rfl
    · have e1 : (d.find s.tgtName).map DFile.asFile = some MFile.empty := by
        rcases e with e | e | e <;> rw [e] <;> rfl
      have e2 : ({ s with tgt := (d.find s.tgtName).map DFile.asFile } : Shard) = s.beginCompaction 0 := by
        unfold Shard.beginCompaction
        rw [if_neg (Nat.not_lt_zero _), e0, e1]
      have hb := Shard.beginCompaction_spec (ht.mem hs).2.2.2.1 0
      rw [e2]
      refine ⟨hb.1.rok (ex := false) (Shard.beginCompaction_acct (ht.mem hs).2.2.2.2.weaken 0), fun k => ?_⟩
      unfold Shard.val Shard.get
      rw [hb.2.1]
  refine ⟨h.nodup, t.leaves.map fun s => { s with tgt := (d.find s.tgtName).map DFile.asFile }, ⟨ht.tiles.mapTgt _, ?_, ?_, ?_, ?_, ?_⟩, fun k v => ?_⟩
  · intro s hs
    obtain ⟨s0, hs0, rfl⟩ := List.mem_map.1 hs
    exact (key s0 hs0).1
  · intro s hs
    obtain ⟨s0, hs0, rfl⟩ := List.mem_map.1 hs
    exact h.src s0 hs0
  · intro s hs
    obtain ⟨s0, hs0, rfl⟩ := List.mem_map.1 hs
    rfl
  · intro a b hne
    obtain ⟨h1, s, hs, h2⟩ := h.shards a b hne
    exact ⟨h1, _, List.mem_map.2 ⟨s, hs, rfl⟩, h2⟩
  · intro a b hne
    obtain ⟨s, hs, h2⟩ := h.compacts a b hne
    exact ⟨_, List.mem_map.2 ⟨s, hs, rfl⟩, h2⟩
  · rw [← hok.holds_get]
    unfold Holds
    constructor
    · rintro ⟨s, hs, e⟩
      obtain ⟨s0, hs0, rfl⟩ := List.mem_map.1 hs
      exact ⟨s0, hs0, by rw [← (key s0 hs0).2]; exact e⟩
    · rintro ⟨s, hs, e⟩
      exact ⟨_, List.mem_map.2 ⟨s, hs, rfl⟩, by rw [(key s hs).2]; exact e⟩

/-- Operations on files that are not those of the shards, but are temporary or covered by one of them, leave the others alone. -/
theorem LeftDir.crash {d d' : Dir} {l : List Shard} {ops : List FOp} (P : FName → Prop) (h : LeftDir d l) (hc : Dir.Crash d ops d')
    (hon : ∀ o ∈ ops, FOp.On P o) (hsrc : ∀ s ∈ l, ¬ P s.srcName) (htgt : ∀ s ∈ l, P s.tgtName → s.tgt = none ∧
      (d'.find s.tgtName = none ∨ d'.find s.tgtName = some .zero ∨ d'.find s.tgtName = some .blank ∨ d'.find s.tgtName = some (.good MFile.empty)))
    (hsh : ∀ a b, P ⟨.shard, a, b⟩ → a < b ∧ ∃ s ∈ l, s.lo ≤ a ∧ b ≤ s.hi) (hco : ∀ a b, P ⟨.compact, a, b⟩ → ∃ s ∈ l, s.lo = a ∧ s.hi = b) :
    LeftDir d' l := by
  obtain ⟨hn, hf⟩ := hc.find h.nodup
  obtain ⟨_, _, _, hout⟩ := hf.local (P := P) hon (fun n _ => rfl)
  refine ⟨hn, fun s hs => by rw [hout _ (hsrc s hs)]; exact h.src s hs, fun s hs => ?_, fun a b hne => ?_, fun a b hne => ?_⟩
  · by_cases hp : P s.tgtName
    · obtain ⟨h1, h2 | h2⟩ := htgt s hs hp
      · exact Or.inl (by rw [h1, h2]; rfl)
      · exact Or.inr ⟨h1, h2⟩
    · rw [hout _ hp]; exact h.tgt s hs
  · by_cases hp : P ⟨.shard, a, b⟩
    · exact hsh a b hp
    · rw [hout _ hp] at hne; exact h.shards a b hne
  · by_cases hp : P ⟨.compact, a, b⟩
    · exact hco a b hp
    · rw [hout _ hp] at hne; exact h.compacts a b hne

/-- A `split` that fails (before the file of the shard is deleted, which is its last system call) leaves such remains. -/
theorem LeftDir.split {cfg : Cfg} {d d' : Dir} {l : List Shard} {lo hi : Nat} (ht : Tiles lo hi l) (h : LeftDir d l) {s : Shard} (hs : s ∈ l)
    (hq : s.tgt = none) (hw : s.lo + 1 < s.hi) (hc : Dir.Crash d (s.splitOps cfg).dropLast d') : LeftDir d' l := by
  have hm1 : s.lo < midOf s.lo s.hi := by unfold midOf; omega
  have hm2 : midOf s.lo s.hi < s.hi := by unfold midOf; omega
  let P : FName → Prop := fun n => n.kind = .bottom ∨ n.kind = .top ∨ n = ⟨.shard, s.lo, midOf s.lo s.hi⟩ ∨ n = ⟨.shard, midOf s.lo s.hi, s.hi⟩
  have e1 : s.finishOps cfg = [] := by unfold Shard.finishOps; rw [hq]
  have e2 : s.finish cfg = some s := by unfold Shard.finish; rw [hq]
  have hon : ∀ o ∈ (s.splitOps cfg).dropLast, FOp.On P o := by
    intro o ho
    have ho : o ∈ (s.finishOps cfg ++ (match s.finish cfg with | none => [] | some s => _)).dropLast := ho
    rw [e1, e2] at ho
    dsimp only at ho
    rw [List.nil_append, List.dropLast_append_of_ne_nil (by simp)] at ho
    simp only [List.dropLast, List.mem_append, List.mem_cons, List.not_mem_nil, or_false] at ho
    rcases ho with (((ho | ho) | ho) | ho) | ho
    · exact createOps_on (P := P) (Or.inl rfl) o ho
    · exact createOps_on (P := P) (Or.inr (Or.inl rfl)) o ho
    · exact onFile_on (P := P) (Or.inl rfl) _ o ho
    · exact onFile_on (P := P) (Or.inr (Or.inl rfl)) _ o ho
    · rcases ho with rfl | rfl
      · exact ⟨Or.inl rfl, Or.inr (Or.inr (Or.inl rfl))⟩
      · exact ⟨Or.inr (Or.inl rfl), Or.inr (Or.inr (Or.inr rfl))⟩
  have r1 : inR s.lo s.hi ⟨.shard, s.lo, midOf s.lo s.hi⟩ := ⟨Nat.le_refl _, hm1, Nat.le_of_lt hm2⟩
  have r2 : inR s.lo s.hi ⟨.shard, midOf s.lo s.hi, s.hi⟩ := ⟨Nat.le_of_lt hm1, hm2, Nat.le_refl _⟩
  refine h.crash P hc hon (fun s' hs' hp => ?_) (fun s' _ hp => ?_) (fun a b hp => ?_) (fun a b hp => ?_)
  · have h0 := ht.mem hs'
    have rr : inR s'.lo s'.hi s'.srcName := ⟨Nat.le_refl _, h0.2.1, Nat.le_refl _⟩
    rcases hp with e | e | e | e
    · cases e
    · cases e
    · have := inR.apart ht hs hs' r1 (by rw [← e]; exact rr)
      subst this
      simp only [Shard.srcName, FName.mk.injEq, true_and] at e
      omega
    · have := inR.apart ht hs hs' r2 (by rw [← e]; exact rr)
      subst this
      simp only [Shard.srcName, FName.mk.injEq, true_and] at e
      omega
  · rcases hp with e | e | e | e <;> cases e
  · rcases hp with e | e | e | e
    · cases e
    · cases e
    · cases e; exact ⟨hm1, s, hs, Nat.le_refl _, Nat.le_of_lt hm2⟩
    · cases e; exact ⟨hm2, s, hs, Nat.le_of_lt hm1, Nat.le_refl _⟩
  · rcases hp with e | e | e | e <;> cases e

/-- So does a compaction whose file cannot be created. -/
theorem LeftDir.begin {d d' : Dir} {l : List Shard} (h : LeftDir d l) (hu : ∀ s ∈ l, ∀ s' ∈ l, s.tgtName = s'.tgtName → s = s') {s : Shard}
    (hs : s ∈ l) (hq : s.tgt = none) (hc : Dir.Crash d (createOps s.tgtName) d') : LeftDir d' l := by
  refine h.crash (fun n => n = s.tgtName) hc (createOps_on rfl) (fun s' hs' hp => by cases hp) (fun s' hs' hp => ?_) (fun a b hp => by cases hp)
    (fun a b hp => by cases hp; exact ⟨s, hs, rfl, rfl⟩)
  have := hu _ hs' _ hs hp
  subst this
  refine ⟨hq, ?_⟩
  obtain ⟨_, hf⟩ := hc.find h.nodup
  have h0 : d.find s'.tgtName = none ∨ d.find s'.tgtName = some .zero ∨ d.find s'.tgtName = some .blank ∨ d.find s'.tgtName = some (.good MFile.empty) := by
    rcases h.tgt s' hs with e | e
    · rw [hq] at e; exact Or.inl e
    · exact Or.inr e.2
  generalize d.find = F at hf h0
  generalize d'.find = F' at hf
  unfold createOps at hf
  cases hf with
  | stop => exact h0
  | step h1 h2 =>
    simp only [FOp.appF, Option.some.injEq] at h1
    subst h1
    cases h2 with
    | stop => exact Or.inr (Or.inl (FS.upd_same _ _ _))
    | step h3 h4 =>
      simp only [FOp.appF, FS.upd_same, Option.some.injEq] at h3
      subst h3
      cases h4 with
      | stop => exact Or.inr (Or.inr (Or.inl (FS.upd_same _ _ _)))
      | step h5 h6 =>
        simp only [FOp.appF, FS.upd_same, Option.some.injEq] at h5
        subst h5
        cases h6
        exact Or.inr (Or.inr (Or.inr (FS.upd_same _ _ _)))

theorem Spec.SpecRun.append {cfg : Cfg} {w w' w'' : World} {es es' : List Event} (h : SpecRun cfg w es w') (h' : SpecRun cfg w' es' w'') :
    SpecRun cfg w (es ++ es') w'' := by
  induction h with
  | nil => exact h'
  | call a _ ih => exact .call a (ih h')
  | merge _ ih => exact .merge (ih h')
  | clear _ ih => exact .clear (ih h')
  | reopen _ ih => exact .reopen (ih h')
  | crash a _ ih => exact .crash a (ih h')

theorem ERun.refines {cfg : Cfg} {t t' : Tree} {x x' : Bool} {es : List EEvent} (h : ERun cfg t x es t' x') :
    ∀ w, Sane cfg false t → MAbs cfg (t.get cfg) w →
      ∃ w', SpecRun cfg w (es.map EEvent.asIfDied) w' ∧ Sane cfg false t' ∧ MAbs cfg (t'.get cfg) w' := by
  induction h with
  | nil t x => exact fun w hs hm => ⟨w, .nil _, hs, hm⟩
  | @clean t t1 t2 x es es' h _ ih =>
    intro w hs hm
    obtain ⟨w1, h1, h2, h3⟩ := h.refines false w hs hm
    obtain ⟨w2, h4, h5⟩ := ih w1 h2.weaken h3
    refine ⟨w2, ?_, h5⟩
    rw [List.map_append, List.map_map, show EEvent.asIfDied ∘ EEvent.done = id from rfl, List.map_id]
    exact h1.append h4
  | call h hr hne _ ih =>
    intro w hs hm
    obtain ⟨h1, h2⟩ := h.sim hs.ok
    obtain ⟨w1, h3, h4⟩ := call_refines _ hm h2 hr hne
    obtain ⟨w2, h5, h6⟩ := ih w1 ⟨hs.bound, h1⟩ h4
    exact ⟨w2, .call h3 h5, h6⟩
  | failed h _ ih =>
    intro w hs hm
    obtain ⟨h1, p', h2⟩ := h.sim hs.ok
    obtain ⟨w1, h3, h4⟩ := call_crash _ hm h2
    obtain ⟨w2, h5, h6⟩ := ih w1 ⟨hs.bound, h1⟩ h4
    exact ⟨w2, .crash h3 h5, h6⟩
  | bg sel hsm h _ ih =>
    intro w hs hm
    obtain ⟨h1, h2⟩ := bg_get hs.ok hsm h
    exact ih w ⟨hs.bound, h1⟩ (h2 ▸ hm)
  | merge hok h _ ih =>
    intro w hs hm
    obtain ⟨h1, h2⟩ := merge_get hs hok h
    obtain ⟨w2, h5, h6⟩ := ih w h1 (h2 ▸ hm)
    exact ⟨w2, .merge h5, h6⟩
  | clear h _ ih =>
    intro w hs hm
    obtain ⟨h1, h2⟩ := create_sane h
    obtain ⟨w2, h5, h6⟩ := ih World.new h1.weaken (h2 ▸ MAbs.new cfg)
    exact ⟨w2, .clear h5, h6⟩
  | @reopen t u t1 t2 x x' es d cb hsm hn hu hd h _ ih =>
    intro w hs hm
    obtain ⟨u', e', uok, usm, uq, uspan, uval⟩ := Tree.finishAll_spec hs.ok hsm
    rw [hu] at e'; simp only [Option.some.injEq] at e'; subst e'
    have un : u.NonDegenerate := by
      intro s hs
      have : (s.lo, s.hi) ∈ u.leaves.map (fun s => (s.lo, s.hi)) := List.mem_map.2 ⟨s, hs, rfl⟩
      rw [uspan, List.mem_map] at this
      obtain ⟨x, hx, hxe⟩ := this
      have := hn x hx
      simp only [Prod.mk.injEq] at hxe
      omega
    have ug : u.get cfg = t.get cfg := funext fun k => uval k ⟨Nat.zero_le _, (cfg.ph k).shardSel_lt⟩
    obtain ⟨g1, _, _, _, g2⟩ := h.spec (hd.recov uok un)
    obtain ⟨w2, h7, h8⟩ := ih w ⟨hs.bound, g1⟩ (by rw [g2, ug]; exact hm)
    exact ⟨w2, .reopen h7, h8⟩
  | crash hsm hn hd hb hr _ ih =>
    intro w hs hm
    obtain ⟨g1, _, _, _, g2⟩ := hr.spec (Recov.bg hb (hd.recov hs.ok hn))
    obtain ⟨w2, h7, h8⟩ := ih w ⟨hs.bound, g1⟩ (g2 ▸ hm)
    exact ⟨w2, .crash rfl h7, h8⟩

theorem EReachable.world {cfg : Cfg} {es : List EEvent} {t : Tree} (h : EReachable cfg es t) :
    ∃ w, SpecRun cfg World.new (es.map EEvent.asIfDied) w ∧ Sane cfg false t ∧ MAbs cfg (t.get cfg) w := by
  obtain ⟨t0, x, h1, h2⟩ := h
  obtain ⟨h3, h4⟩ := create_sane h1
  exact h2.refines World.new h3.weaken (h4 ▸ MAbs.new cfg)

end Candy
