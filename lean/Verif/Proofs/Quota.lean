import Verif.Model.Quota
import Verif.Proofs.Budget
import Verif.Proofs.Pairs
import Verif.Proofs.DirRun
import Verif.Proofs.CrashRun
/-!
# Files stay below 4 GiB if no compaction lasts too long
-/
namespace Candy
open Spec

/-- The largest pair (`sizeErr`), and the largest total size of the live pairs of a shard. -/
abbrev PAIR : Nat := 81918
abbrev LIVE : Nat := 2684289024

/-- All pairs of the shard are of permitted size. -/
def Shard.Sized (cfg : Cfg) (s : Shard) : Prop := ∀ k v, s.val cfg k = some v → k.length + v.length ≤ PAIR

/-- The live bytes of a shard. -/
def Shard.live (s : Shard) : Nat := sumTo NUM_ROWS (fun r => bytesOf ((s.active r).liveRow r))

theorem sumTo_le_mul {g : Nat → Nat} {b : Nat} : ∀ {n : Nat}, (∀ i, i < n → g i ≤ b) → sumTo n g ≤ n * b
  | 0, _ => by simp [sumTo]
  | n + 1, h => by
    have h1 := sumTo_le_mul (n := n) (fun i hi => h i (by omega))
    have h2 := h n (by omega)
    unfold sumTo
    rw [Nat.succ_mul]; omega

theorem bytesOf_le_mul {b : Nat} : ∀ {l : List KV}, (∀ kv ∈ l, kvSize kv ≤ b) → bytesOf l ≤ l.length * b
  | [], _ => by simp [bytesOf]
  | a :: l, h => by
    have h1 := bytesOf_le_mul (l := l) (fun kv hk => h kv (List.mem_cons_of_mem _ hk))
    have h2 := h a List.mem_cons_self
    unfold bytesOf at *
    rw [List.map_cons, List.sum_cons, List.length_cons, Nat.succ_mul]; omega

theorem Shard.live_le {cfg : Cfg} {s : Shard} (h : s.Inv cfg) (hs : s.Sized cfg) : s.live ≤ LIVE := by
  have : s.live ≤ NUM_ROWS * (ROW_WIDTH * PAIR) := by
    apply sumTo_le_mul
    intro r hr
    refine Nat.le_trans (bytesOf_le_mul (b := PAIR) (fun kv hkv => ?_)) (Nat.mul_le_mul_right _ (liveRow_length _ _))
    obtain ⟨c, hc, hl⟩ := mem_liveRow.1 hkv
    exact hs kv.1 kv.2 (h.val_eq_some.2 ⟨r, c, hr, hc, hl⟩)
  exact this

/-- Bounds on the files of a shard to which `c` bytes were given since its compaction began. -/
def LeafB (mx q c : Nat) (s : Shard) : Prop :=
  match s.tgt with
  | none => s.src.writeOff ≤ max (LIVE + q) mx
  | some f => s.src.writeOff ≤ max (LIVE + q) mx + PAIR + c ∧ f.writeOff + remW kvSize s.src f.compactedUpTo ≤ LIVE + c

theorem LeafB.mono {mx q c c' : Nat} {s : Shard} (h : LeafB mx q c s) (hc : c ≤ c') : LeafB mx q c' s := by
  unfold LeafB at *
  split <;> rename_i ht <;> rw [ht] at h <;> dsimp only at h
  · exact h
  · omega

theorem LeafB.quiet {mx q c c' : Nat} {s : Shard} (h : LeafB mx q c s) (ht : s.tgt = none) : LeafB mx q c' s := by
  unfold LeafB at *
  rw [ht] at h ⊢; exact h

theorem LeafB.small {mx q c : Nat} {s : Shard} (h : LeafB mx q c s) (hc : s.tgt ≠ none → c ≤ q) (h1 : LIVE + q + q + PAIR < 4294967296) (h2 : mx + q + PAIR < 4294967296) : s.Small := by
  unfold LeafB at h
  cases ht : s.tgt with
  | none =>
    rw [ht] at h
    dsimp only at h
    exact ⟨by omega, fun t e => by rw [ht] at e; cases e⟩
  | some f =>
    rw [ht] at h
    dsimp only at h
    have hc := hc (by rw [ht]; simp)
    exact ⟨by omega, fun t e => by rw [ht] at e; cases e; omega⟩

/-- An update of the active file of a shard. -/
theorem LeafB.effect {cfg : Cfg} {s : Shard} {k : Bytes} {ps cur new} {mx q c n : Nat} (hb : LeafB mx q c s) (h : s.Inv cfg)
    (he : Effect cfg (s.active (cfg.ph k).rowSel) (cfg.ph k).rowSel k cur ps new)
    (hn : ((s.active (cfg.ph k).rowSel).run ps).writeOff ≤ (s.active (cfg.ph k).rowSel).writeOff + n) (ht : s.tgt ≠ none ∨ n = 0) :
    LeafB mx q (c + n) (s.runActive (cfg.ph k).rowSel ps) := by
  have hr := (cfg.ph k).rowSel_lt
  have hx := (h.active (cfg.ph k).rowSel).ext
  have hcu := he.cu
  have hrem := fun cu => he.remW_le hx hr cu
  revert hn hcu hrem hb ht
  unfold Shard.active Shard.runActive LeafB
  cases ht : s.tgt with
  | none =>
    intro hb hn h0 _ _
    dsimp only at *
    rcases h0 with h0 | h0
    · exact absurd rfl h0
    · omega
  | some t =>
    simp only
    split
    · intro hb hn _ hcu _
      simp only [hcu]
      omega
    · intro hb hn _ hcu hrem
      have := hrem t.compactedUpTo
      dsimp only
      omega

/-- When `insert` asks for a compaction. -/
theorem Shard.insertPlan_compact {cfg : Cfg} {s : Shard} {ph : PH} {k v : Bytes} {mode : Mode} :
    (s.tgt ≠ none → (s.insertPlan cfg ph k v mode).2.2 = none) ∧
    (s.tgt = none → (s.insertPlan cfg ph k v mode).2.2 = some s.src.writeOff ∨
      ((s.insertPlan cfg ph k v mode).2.2 = none ∧ (s.src.writeOff + (k.length + v.length) ≤ cfg.maxShardSize.toNat ∨ (s.insertPlan cfg ph k v mode).2.1 = .splitNeeded))) := by
  refine ⟨fun h => ?_, fun h => ?_⟩
  · have h' : s.tgt.isSome = true := by revert h; cases s.tgt <;> simp
    unfold Shard.insertPlan
    simp only [h', Bool.not_true, Bool.false_and, Bool.false_eq_true, if_false]
    split
    · rfl
    · rfl
    · split
      · rfl
      · split <;> rfl
  · have h' : s.tgt.isSome = false := by rw [h]; rfl
    have ha : s.active ph.rowSel = s.src := by unfold Shard.active; rw [h]
    unfold Shard.insertPlan
    simp only [h', ha, Bool.not_false, Bool.true_and]
    by_cases hw : cfg.minCompaction.toNat ≤ s.src.wasted
    · left
      simp only [hw, decide_true, Bool.not_true, Bool.false_and, Bool.false_eq_true, if_false, if_true]
      split
      · rfl
      · rfl
      · split
        · rfl
        · split <;> rfl
    · right
      simp only [hw, decide_false, Bool.not_false, Bool.true_and, Bool.false_eq_true, if_false, decide_eq_true_eq]
      by_cases hf : cfg.maxShardSize.toNat < s.src.writeOff + (k.length + v.length)
      · rw [if_pos hf]; exact ⟨rfl, .inr rfl⟩
      · rw [if_neg hf]
        refine ⟨?_, .inl (by omega)⟩
        split
        · rfl
        · rfl
        · split
          · rfl
          · split <;> rfl

theorem Shard.runActive_tgt {s : Shard} {r : Nat} {ps : List Prim} : (s.runActive r ps).tgt = none ↔ s.tgt = none := by
  unfold Shard.runActive
  cases ht : s.tgt with
  | none => simp
  | some t => dsimp only; split <;> simp

theorem insertAt_val (cur : Option Bytes) (v : Bytes) (mode : Mode) : (insertAt cur v mode).1 = some v ∨ (insertAt cur v mode).1 = cur := by
  cases cur with
  | none => cases mode <;> simp [insertAt]
  | some old =>
    cases mode with
    | set => simp [insertAt]
    | getOrCreate => simp [insertAt]
    | replace e =>
      cases e with
      | none => simp [insertAt]
      | some e => simp only [insertAt]; split <;> simp

/-- `Shard::insert` that does not ask for a split. -/
theorem LeafB.insert {cfg : Cfg} {s : Shard} {k v : Bytes} {mode : Mode} {mx q c : Nat} (hmx : cfg.maxShardSize.toNat ≤ mx) (hb : LeafB mx q c s) (h : s.Inv cfg) (hsz : s.Sized cfg)
    (hoff : (s.active (cfg.ph k).rowSel).writeOff < 4294967296) (hk : k.length < 65536) (hv : v.length < 65536) (hn : k.length + v.length ≤ PAIR)
    (hlo : s.lo ≤ (cfg.ph k).shardSel) (hhi : (cfg.ph k).shardSel < s.hi) (hst : (s.insert cfg (cfg.ph k) k v mode).2 ≠ .splitNeeded) :
    LeafB mx q (if s.tgt.isSome then c + (k.length + v.length) else 0) (s.insert cfg (cfg.ph k) k v mode).1 ∧ (s.insert cfg (cfg.ph k) k v mode).1.Sized cfg := by
  obtain ⟨g1, g2, g3, g4⟩ := Shard.insert_spec (mode := mode) h hoff hk hv hlo hhi
  have hsz' : (s.insert cfg (cfg.ph k) k v mode).1.Sized cfg := by
    rcases g4 with ⟨e, _⟩ | ⟨_, e⟩
    · exact absurd e hst
    · intro k' v' hv'
      rw [e] at hv'
      unfold Map.upd at hv'
      split at hv'
      · rename_i ek
        subst ek
        rcases insertAt_val (s.val cfg k') v mode with e2 | e2
        · rw [e2] at hv'; cases hv'; exact hn
        · rw [e2] at hv'; exact hsz k' v' hv'
      · exact hsz k' v' hv'
  refine ⟨?_, hsz'⟩
  have hplan := insertPlan_spec (mode := mode) (h.active (cfg.ph k).rowSel) (h.val k) hk hv hoff
  have hg := s.insertPlan_growth (cfg := cfg) (ph := cfg.ph k) (k := k) (v := v) (mode := mode) (s.active (cfg.ph k).rowSel)
  have hc := s.insertPlan_compact (cfg := cfg) (ph := cfg.ph k) (k := k) (v := v) (mode := mode)
  have hl := Shard.live_le g1 hsz'
  revert hst hl
  unfold Shard.insert
  generalize s.insertPlan cfg (cfg.ph k) k v mode = p at hplan hg hc
  obtain ⟨ps, st0, sc⟩ := p
  simp only at hplan hg hc ⊢
  intro hst hl
  rcases hplan with ⟨e, _⟩ | ⟨_, he⟩
  · exact absurd e hst
  · cases ht : s.tgt with
    | some t =>
      have hsc := hc.1 (by rw [ht]; simp)
      subst hsc
      exact hb.effect h he hg (.inl (by rw [ht]; simp))
    | none =>
      have ha : s.active (cfg.ph k).rowSel = s.src := by unfold Shard.active; rw [ht]
      have hra : s.runActive (cfg.ph k).rowSel ps = { s with src := s.src.run ps } := by unfold Shard.runActive; rw [ht]
      rw [ha] at hg
      rcases hc.2 ht with hsc | ⟨hsc, hsz2⟩
      · subst hsc
        have hmono := he.writeOff_le
        rw [ha] at hmono
        dsimp only at hl ⊢
        rw [hra] at hl ⊢
        have hbc : Shard.beginCompaction { s with src := s.src.run ps } s.src.writeOff = { s with src := s.src.run ps, tgt := some MFile.empty } := by
          unfold Shard.beginCompaction
          rw [if_neg (by dsimp only; omega)]
          dsimp only
          rw [ht]
        rw [hbc] at hl ⊢
        unfold LeafB at hb ⊢
        rw [ht] at hb
        dsimp only at hb ⊢
        have e0 : MFile.empty.writeOff = 0 := rfl
        have e1 : MFile.empty.compactedUpTo = 0 := rfl
        refine ⟨by omega, ?_⟩
        rw [e0, e1, remW_zero]
        have : fileW kvSize (s.src.run ps) = Shard.live { s with src := s.src.run ps, tgt := some MFile.empty } := by
          unfold Shard.live fileW
          apply sumTo_congr
          intro r hr
          rw [bytesOf_liveRow]
          rfl
        rw [this]; omega
      · subst hsc
        rcases hsz2 with hsz2 | hsz2
        · dsimp only
          rw [hra]
          unfold LeafB
          dsimp only
          rw [ht]
          dsimp only
          omega
        · exact absurd hsz2 hst

/-- The halves of a split. -/
theorem LeafB.split {cfg : Cfg} {s : Shard} {ex : Bool} {mx q : Nat} (h : s.Inv cfg) (hsz : s.Sized cfg) (hsmall : s.Small) (ha : s.AcctInv ex) {b t : Shard} (he : s.split cfg = some (b, t)) :
    b.tgt = none ∧ t.tgt = none ∧ (∀ c, LeafB mx q c b) ∧ (∀ c, LeafB mx q c t) ∧ b.Sized cfg ∧ t.Sized cfg := by
  obtain ⟨bf, tf, h1, h2, h3, _, _, _, _, h6, h7, h8, _⟩ := s.split_spec h hsmall ha
  rw [h1] at he
  simp only [Option.some.injEq, Prod.mk.injEq] at he
  obtain ⟨rfl, rfl⟩ := he
  have hl : bf.writeOff + tf.writeOff ≤ LIVE := by
    rw [h8]; exact Shard.live_le h hsz
  refine ⟨rfl, rfl, fun c => ?_, fun c => ?_, fun k v hv => ?_, fun k v hv => ?_⟩
  · show bf.writeOff ≤ max (LIVE + q) mx
    omega
  · show tf.writeOff ≤ max (LIVE + q) mx
    omega
  · rw [Shard.split_val h h2 h6 (fun k => decide ((cfg.ph k).shardSel < midOf s.lo s.hi)) (fun _ _ => rfl) k] at hv
    split at hv
    · exact hsz k v hv
    · cases hv
  · rw [Shard.split_val h h3 h7 (fun k => !decide ((cfg.ph k).shardSel < midOf s.lo s.hi)) (fun _ _ => rfl) k] at hv
    split at hv
    · exact hsz k v hv
    · cases hv

/-- Every shard of the tree is within its bounds and has pairs of permitted size. -/
def TreeB (cfg : Cfg) (mx q : Nat) (w : Charged) (t : Tree) : Prop := ∀ s ∈ t.leaves, LeafB mx q (w (s.lo, s.hi)) s ∧ s.Sized cfg

theorem TreeB.vertex {cfg mx q w b t} : TreeB cfg mx q w (.vertex b t) ↔ TreeB cfg mx q w b ∧ TreeB cfg mx q w t := by
  unfold TreeB
  simp only [Tree.leaves_vertex, List.mem_append]
  exact ⟨fun h => ⟨fun s hs => h s (.inl hs), fun s hs => h s (.inr hs)⟩, fun h s hs => hs.elim (h.1 s) (h.2 s)⟩

theorem TreeB.leaf {cfg mx q w s} : TreeB cfg mx q w (.leaf s) ↔ LeafB mx q (w (s.lo, s.hi)) s ∧ s.Sized cfg := by
  simp [TreeB, Tree.leaves]

theorem TreeB.insert {cfg : Cfg} {ex : Bool} {k v : Bytes} {mode : Mode} {mx q : Nat} {w' : Charged} (hmx : cfg.maxShardSize.toNat ≤ mx) (hk : k.length < 65536) (hv : v.length < 65536)
    (hp : k.length + v.length ≤ PAIR) :
    ∀ (n : Nat) (t : Tree) (lo hi : Nat) (w : Charged) (r), Tree.OK cfg ex lo hi t → t.Small → TreeB cfg mx q w t → inSpan lo hi (cfg.ph k).shardSel →
      (∀ s ∈ t.leaves, s.tgt ≠ none → w (s.lo, s.hi) ≤ w' (s.lo, s.hi) ∧
        (s.lo ≤ (cfg.ph k).shardSel → (cfg.ph k).shardSel < s.hi → w (s.lo, s.hi) + (k.length + v.length) ≤ w' (s.lo, s.hi))) →
      t.insert cfg (cfg.ph k) k v mode n = .ok r → TreeB cfg mx q w' r.1
  | 0, _, _, _, _, _, _, _, _, _, _, h => by simp [Tree.insert] at h
  | n + 1, .leaf s, lo, hi, w, r, hok, hsm, hb, hsel, hw, h => by
    cases hok with
    | leaf hlo hhi hle hinv ha =>
      subst hlo hhi
      rw [Tree.Small.leaf] at hsm
      rw [TreeB.leaf] at hb
      have hoff := hsm.active (cfg.ph k).rowSel
      obtain ⟨g1, g2, g3, g4⟩ := Shard.insert_spec (mode := mode) hinv hoff hk hv hsel.1 hsel.2
      have ha' := Shard.insert_acct (mode := mode) hinv ha hoff hk hv
      have hsplit := Shard.insert_split (mode := mode) hinv hoff hk hv
      have hli := hb.1.insert (mode := mode) hmx hinv hb.2 hoff hk hv hp hsel.1 hsel.2
      unfold Tree.insert at h
      generalize s.insert cfg (cfg.ph k) k v mode = p at g1 g2 g3 g4 ha' hsplit h hli
      obtain ⟨s', st⟩ := p
      simp only at g1 g2 g3 g4 ha' hsplit h hli
      by_cases e : st = .splitNeeded
      · subst e
        have hsm' : s'.Small := by
          rcases hsplit rfl with e | ⟨off, e⟩
          · rw [e]; exact hsm
          · rw [e]; exact Shard.beginCompaction_small ha hsm off
        have hsz' : s'.Sized cfg := by
          rcases g4 with ⟨_, e, _⟩ | ⟨e, _⟩
          · intro k' v' hv'; rw [e] at hv'; exact hb.2 k' v' hv'
          · exfalso
            revert e
            unfold Spec.insertAt
            split <;> (try split) <;> intro e <;> exact absurd e (by simp)
        obtain ⟨b, t, p1, p2, p3, p4⟩ := Shard.split_tree g1 hsm' ha' (by omega)
        obtain ⟨q1, q2, q3, q4, q5, q6⟩ := LeafB.split (mx := mx) (q := q) g1 hsz' hsm' ha' p1
        rw [g2, g3] at p2
        simp only [p1] at h
        refine TreeB.insert hmx hk hv hp n _ s.lo s.hi w' r p2 p3 (TreeB.vertex.2 ⟨TreeB.leaf.2 ⟨q3 _, q5⟩, TreeB.leaf.2 ⟨q4 _, q6⟩⟩) hsel (fun x hx ht => ?_) h
        simp only [Tree.leaves_vertex, Tree.leaves_leaf, List.mem_append, List.mem_singleton] at hx
        rcases hx with rfl | rfl
        · exact absurd q1 ht
        · exact absurd q2 ht
      · have hr : r = (.leaf s', st) := by
          cases st with
          | splitNeeded => exact absurd rfl e
          | _ => simp at h; exact h.symm
        subst hr
        obtain ⟨l1, l2⟩ := hli e
        refine TreeB.leaf.2 ⟨?_, l2⟩
        rw [g2, g3]
        cases ht : s.tgt with
        | none => rw [ht] at l1; exact l1.mono (Nat.zero_le _)
        | some f =>
          rw [ht] at l1
          exact l1.mono ((hw s (by simp [Tree.leaves]) (by rw [ht]; simp)).2 hsel.1 hsel.2)
  | n + 1, .vertex b t, lo, hi, w, r, hok, hsm, hb, hsel, hw, h => by
    cases hok with
    | vertex hle hob hot =>
      rw [Tree.Small.vertex] at hsm
      rw [TreeB.vertex] at hb
      have hmono : ∀ {x : Tree}, TreeB cfg mx q w x → (∀ s ∈ x.leaves, s ∈ (Tree.vertex b t).leaves) → TreeB cfg mx q w' x := by
        intro x hx hs s hm
        refine ⟨?_, (hx s hm).2⟩
        by_cases ht : s.tgt = none
        · exact (hx s hm).1.quiet ht
        · exact (hx s hm).1.mono (hw s (hs s hm) ht).1
      have hsub1 : ∀ s ∈ b.leaves, s ∈ (Tree.vertex b t).leaves := fun s hs => by rw [Tree.leaves_vertex]; exact List.mem_append_left _ hs
      have hsub2 : ∀ s ∈ t.leaves, s ∈ (Tree.vertex b t).leaves := fun s hs => by rw [Tree.leaves_vertex]; exact List.mem_append_right _ hs
      unfold Tree.insert at h
      rw [hob.hi_eq] at h
      by_cases hlt : (cfg.ph k).shardSel < midOf lo hi
      · rw [if_pos hlt] at h
        cases hx : b.insert cfg (cfg.ph k) k v mode n with
        | ok x =>
          rw [hx] at h
          have := TreeB.insert hmx hk hv hp n b lo _ w x hob hsm.1 hb.1 ⟨hsel.1, hlt⟩ (fun s hs => hw s (hsub1 s hs)) hx
          simp only [Out.bind, Out.ok.injEq] at h
          subst h
          exact TreeB.vertex.2 ⟨this, hmono hb.2 hsub2⟩
        | panic => rw [hx] at h; simp [Out.bind] at h
        | diverge => rw [hx] at h; simp [Out.bind] at h
        | deadlock => rw [hx] at h; simp [Out.bind] at h
      · rw [if_neg hlt] at h
        cases hx : t.insert cfg (cfg.ph k) k v mode n with
        | ok x =>
          rw [hx] at h
          have := TreeB.insert hmx hk hv hp n t _ hi w x hot hsm.2 hb.2 ⟨by omega, hsel.2⟩ (fun s hs => hw s (hsub2 s hs)) hx
          simp only [Out.bind, Out.ok.injEq] at h
          subst h
          exact TreeB.vertex.2 ⟨hmono hb.1 hsub1, this⟩
        | panic => rw [hx] at h; simp [Out.bind] at h
        | diverge => rw [hx] at h; simp [Out.bind] at h
        | deadlock => rw [hx] at h; simp [Out.bind] at h

theorem Shard.remove_span {s : Shard} {ph : PH} {k : Bytes} : (s.remove ph k).1.lo = s.lo ∧ (s.remove ph k).1.hi = s.hi := by
  show (s.runActive _ _).lo = _ ∧ (s.runActive _ _).hi = _
  unfold Shard.runActive
  cases ht : s.tgt with
  | none => simp
  | some t => simp only; split <;> simp

theorem LeafB.remove {cfg : Cfg} {s : Shard} {k : Bytes} {mx q c : Nat} (hb : LeafB mx q c s) (h : s.Inv cfg) : LeafB mx q c (s.remove (cfg.ph k) k).1 := by
  have he := (removePlan_spec (h.active (cfg.ph k).rowSel) (h.val k)).2
  have hrl : ∀ is, ∀ g : MFile, (g.run ((s.active (cfg.ph k).rowSel).removeLoop (cfg.ph k).rowSel k is).1).writeOff ≤ g.writeOff := by
    intro is
    induction is with
    | nil => intro g; exact Nat.le_refl _
    | cons i is ih =>
      intro g
      unfold MFile.removeLoop
      dsimp only
      split
      · exact Nat.le_refl _
      · exact ih g
  exact hb.effect (n := 0) h he (hrl _ _) (.inr rfl)

theorem TreeB.remove {cfg : Cfg} {ex : Bool} {lo hi : Nat} {t : Tree} {mx q : Nat} {w : Charged} {k : Bytes} (h : Tree.OK cfg ex lo hi t) (hb : TreeB cfg mx q w t)
    (hsel : inSpan lo hi (cfg.ph k).shardSel) : TreeB cfg mx q w (t.remove cfg k).1 := by
  induction h with
  | @leaf lo hi s hlo hhi hle hinv ha =>
    subst hlo hhi
    rw [TreeB.leaf] at hb
    obtain ⟨_, g2, g3, _, g4⟩ := Shard.remove_spec hinv hsel.1 hsel.2
    refine TreeB.leaf.2 ⟨?_, fun k' v' hv' => ?_⟩
    · rw [g2, g3]; exact hb.1.remove hinv
    · rw [g4] at hv'
      unfold Map.upd at hv'
      split at hv'
      · cases hv'
      · exact hb.2 k' v' hv'
  | @vertex lo hi b t hle hob hot ih1 ih2 =>
    rw [TreeB.vertex] at hb
    unfold Tree.remove at *
    simp only [Tree.modify_vertex, hob.hi_eq] at *
    split
    · rename_i e
      exact TreeB.vertex.2 ⟨ih1 hb.1 ⟨hsel.1, e⟩, hb.2⟩
    · rename_i e
      exact TreeB.vertex.2 ⟨hb.1, ih2 hb.2 ⟨by omega, hsel.2⟩⟩

theorem LeafB.bg {cfg : Cfg} {s s' : Shard} {ex : Bool} {mx q c : Nat} (hb : LeafB mx q c s) (h : s.Inv cfg) (hsmall : s.Small) (ha : s.AcctInv ex) (hc : s.tgt ≠ none → c ≤ q)
    (he : s.bgStep cfg = some s') : LeafB mx q c s' := by
  unfold Shard.bgStep at he
  cases ht : s.tgt with
  | none => rw [ht] at he; simp at he; subst he; exact hb
  | some t =>
    rw [ht] at he
    simp only at he
    have hc := hc (by rw [ht]; simp)
    unfold LeafB at hb
    rw [ht] at hb
    dsimp only at hb
    by_cases hlt : t.compactedUpTo < NUM_ROWS
    · rw [if_pos hlt] at he
      have hsm := hsmall.2 t ht
      have hst := remW_step kvSize s.src hlt
      obtain ⟨t', h1, h2, h3, h4⟩ := compactRow_spec (first := (t.compactedUpTo == 0)) h.src (h.tgtOK ht) hlt
        (Or.inr (fun c hc => live_eq_none.2 (h.fresh t ht _ c (Nat.le_refl _) hlt hc))) (by omega)
      rw [h1] at he
      simp at he
      subst he
      show _ ∧ t'.writeOff + remW kvSize s.src t'.compactedUpTo ≤ _
      rw [h3.off, h3.cu]; dsimp only; omega
    · rw [if_neg hlt] at he
      simp at he
      subst he
      show t.writeOff ≤ _
      omega

theorem LeafB.finish {cfg : Cfg} {s s' : Shard} {mx q c : Nat} (hb : LeafB mx q c s) (h : s.Inv cfg) (hsmall : s.Small) (hc : s.tgt ≠ none → c ≤ q)
    (he : s.finish cfg = some s') : LeafB mx q c s' := by
  unfold Shard.finish at he
  cases ht : s.tgt with
  | none => rw [ht] at he; simp at he; subst he; exact hb
  | some t =>
    rw [ht] at he
    simp only at he
    have hc := hc (by rw [ht]; simp)
    unfold LeafB at hb
    rw [ht] at hb
    dsimp only at hb
    obtain ⟨t', h1, h2, h3⟩ := compactRows_spec h.src _ t (t.compactedUpTo == 0) rfl (h.tgtOK ht)
      (Or.inr (fun e c hc => live_eq_none.2 (h.fresh t ht _ c (Nat.le_refl _) e hc)))
      (hsmall.2 t ht)
    rw [h1] at he
    simp at he
    subst he
    show t'.writeOff ≤ _
    rw [h3.off]; omega

theorem TreeB.bg {cfg : Cfg} {ex : Bool} {lo hi : Nat} {t t' : Tree} {mx q : Nat} {w : Charged} (h : Tree.OK cfg ex lo hi t) (hb : TreeB cfg mx q w t) (hsm : t.Small)
    (hc : ∀ s ∈ t.leaves, s.tgt ≠ none → w (s.lo, s.hi) ≤ q) (sel : Nat) (he : t.bgStep cfg sel = some t') : TreeB cfg mx q w t' := by
  induction h generalizing t' with
  | @leaf lo hi s hlo hhi hle hinv ha =>
    rw [TreeB.leaf] at hb
    rw [Tree.Small.leaf] at hsm
    obtain ⟨s', h1, h2, h3, h4, h5, h6, h7, _⟩ := s.bgStep_spec hinv hsm ha
    unfold Tree.bgStep at he
    rw [h1] at he
    cases he
    refine TreeB.leaf.2 ⟨?_, fun k v hv => hb.2 k v (by rw [← h7]; exact hv)⟩
    rw [h3, h4]
    exact hb.1.bg hinv hsm ha (hc s (by simp [Tree.leaves])) h1
  | @vertex lo hi b t hle hob hot ih1 ih2 =>
    rw [TreeB.vertex] at hb
    rw [Tree.Small.vertex] at hsm
    simp only [Tree.leaves_vertex, List.mem_append] at hc
    unfold Tree.bgStep at he
    split at he
    · simp at he
      obtain ⟨b', h1, rfl⟩ := he
      exact TreeB.vertex.2 ⟨ih1 hb.1 hsm.1 (fun s hs => hc s (.inl hs)) h1, hb.2⟩
    · simp at he
      obtain ⟨b', h1, rfl⟩ := he
      exact TreeB.vertex.2 ⟨hb.1, ih2 hb.2 hsm.2 (fun s hs => hc s (.inr hs)) h1⟩

theorem TreeB.finishAll {cfg : Cfg} {ex : Bool} {lo hi : Nat} {t t' : Tree} {mx q : Nat} {w : Charged} (h : Tree.OK cfg ex lo hi t) (hb : TreeB cfg mx q w t) (hsm : t.Small)
    (hc : ∀ s ∈ t.leaves, s.tgt ≠ none → w (s.lo, s.hi) ≤ q) (he : t.finishAll cfg = some t') : TreeB cfg mx q w t' := by
  induction h generalizing t' with
  | @leaf lo hi s hlo hhi hle hinv ha =>
    rw [TreeB.leaf] at hb
    rw [Tree.Small.leaf] at hsm
    obtain ⟨s', h1, h2, hq, h3, h4, h5, h6, h7, _⟩ := s.finish_spec hinv hsm ha
    unfold Tree.finishAll at he
    rw [h1] at he
    cases he
    refine TreeB.leaf.2 ⟨?_, fun k v hv => hb.2 k v (by rw [← h7]; exact hv)⟩
    rw [h3, h4]
    exact hb.1.finish hinv hsm (hc s (by simp [Tree.leaves])) h1
  | @vertex lo hi b t hle hob hot ih1 ih2 =>
    rw [TreeB.vertex] at hb
    rw [Tree.Small.vertex] at hsm
    simp only [Tree.leaves_vertex, List.mem_append] at hc
    unfold Tree.finishAll at he
    split at he
    · rename_i b' t'' h1 h2
      simp at he; subst he
      exact TreeB.vertex.2 ⟨ih1 hb.1 hsm.1 (fun s hs => hc s (.inl hs)) h1, ih2 hb.2 hsm.2 (fun s hs => hc s (.inr hs)) h2⟩
    · simp at he


theorem Tree.compacting_iff {t : Tree} {sp : Span} : t.compacting sp = true ↔ ∃ s ∈ t.leaves, (s.lo, s.hi) = sp ∧ s.tgt ≠ none := by
  unfold Tree.compacting
  rw [List.any_eq_true]
  constructor
  · rintro ⟨s, hs, h⟩
    simp only [Bool.and_eq_true, decide_eq_true_eq] at h
    exact ⟨s, hs, Prod.ext h.1.1 h.1.2, fun e => by rw [e] at h; simp at h⟩
  · rintro ⟨s, hs, rfl, ht⟩
    refine ⟨s, hs, ?_⟩
    simp only [decide_true, Bool.true_and]
    cases e : s.tgt with
    | none => exact absurd e ht
    | some _ => rfl

theorem Tree.Within.leaf {q : Nat} {t : Tree} {w : Charged} (h : t.Within q w) : ∀ s ∈ t.leaves, s.tgt ≠ none → w (s.lo, s.hi) ≤ q :=
  fun s hs ht => h _ (Tree.compacting_iff.2 ⟨s, hs, rfl, ht⟩)

theorem Tree.Within.quiet {q : Nat} {t : Tree} {w : Charged} (h : t.Quiet) : t.Within q w := by
  intro sp hc
  obtain ⟨s, hs, _, ht⟩ := Tree.compacting_iff.1 hc
  exact absurd (h s hs) ht

theorem Shard.bgStep_tgt {cfg : Cfg} {s s' : Shard} (h : s.bgStep cfg = some s') : (s'.lo, s'.hi) = (s.lo, s.hi) ∧ (s'.tgt ≠ none → s.tgt ≠ none) := by
  unfold Shard.bgStep at h
  cases ht : s.tgt with
  | none => rw [ht] at h; simp at h; subst h; exact ⟨rfl, fun h => absurd ht h⟩
  | some t =>
    rw [ht] at h
    dsimp only at h
    refine ⟨?_, fun _ => by simp⟩
    split at h
    · rw [Option.map_eq_some_iff] at h
      obtain ⟨x, _, rfl⟩ := h
      rfl
    · simp at h; subst h; rfl

theorem Tree.bgStep_compacting {cfg : Cfg} {sel : Nat} : ∀ {t t' : Tree}, t.bgStep cfg sel = some t' → ∀ sp, t'.compacting sp = true → t.compacting sp = true
  | .leaf s, t', h, sp, hc => by
    unfold Tree.bgStep at h
    cases hs : s.bgStep cfg with
    | none => rw [hs] at h; cases h
    | some s' =>
      rw [hs] at h; cases h
      obtain ⟨x, hx, e, ht⟩ := Tree.compacting_iff.1 hc
      simp [Tree.leaves] at hx
      subst hx
      obtain ⟨h1, h2⟩ := Shard.bgStep_tgt hs
      exact Tree.compacting_iff.2 ⟨s, by simp [Tree.leaves], h1.symm.trans e, h2 ht⟩
  | .vertex b t, t', h, sp, hc => by
    unfold Tree.bgStep at h
    split at h
    · simp at h
      obtain ⟨b', h1, rfl⟩ := h
      obtain ⟨x, hx, e, ht⟩ := Tree.compacting_iff.1 hc
      rw [Tree.leaves_vertex] at hx
      rcases List.mem_append.1 hx with hx | hx
      · obtain ⟨y, hy, e', ht'⟩ := Tree.compacting_iff.1 (Tree.bgStep_compacting h1 sp (Tree.compacting_iff.2 ⟨x, hx, e, ht⟩))
        exact Tree.compacting_iff.2 ⟨y, by rw [Tree.leaves_vertex]; exact List.mem_append_left _ hy, e', ht'⟩
      · exact Tree.compacting_iff.2 ⟨x, by rw [Tree.leaves_vertex]; exact List.mem_append_right _ hx, e, ht⟩
    · simp at h
      obtain ⟨b', h1, rfl⟩ := h
      obtain ⟨x, hx, e, ht⟩ := Tree.compacting_iff.1 hc
      rw [Tree.leaves_vertex] at hx
      rcases List.mem_append.1 hx with hx | hx
      · exact Tree.compacting_iff.2 ⟨x, by rw [Tree.leaves_vertex]; exact List.mem_append_left _ hx, e, ht⟩
      · obtain ⟨y, hy, e', ht'⟩ := Tree.compacting_iff.1 (Tree.bgStep_compacting h1 sp (Tree.compacting_iff.2 ⟨x, hx, e, ht⟩))
        exact Tree.compacting_iff.2 ⟨y, by rw [Tree.leaves_vertex]; exact List.mem_append_right _ hy, e', ht'⟩

theorem Charged.add_le {w : Charged} {t : Tree} {sel n : Nat} {s : Shard} (hs : s ∈ t.leaves) (ht : s.tgt ≠ none) :
    w (s.lo, s.hi) ≤ w.add t sel n (s.lo, s.hi) ∧ (s.lo ≤ sel → sel < s.hi → w (s.lo, s.hi) + n ≤ w.add t sel n (s.lo, s.hi)) := by
  have hc : t.compacting (s.lo, s.hi) = true := Tree.compacting_iff.2 ⟨s, hs, rfl, ht⟩
  unfold Charged.add
  rw [if_pos hc]
  refine ⟨?_, fun h1 h2 => ?_⟩
  · split <;> omega
  · rw [if_pos ⟨h1, h2⟩]; exact Nat.le_refl _

theorem TreeB.mono {cfg : Cfg} {mx q : Nat} {w w' : Charged} {t : Tree} (hb : TreeB cfg mx q w t) (h : ∀ s ∈ t.leaves, s.tgt ≠ none → w (s.lo, s.hi) ≤ w' (s.lo, s.hi)) :
    TreeB cfg mx q w' t := by
  intro s hs
  refine ⟨?_, (hb s hs).2⟩
  by_cases ht : s.tgt = none
  · exact (hb s hs).1.quiet ht
  · exact (hb s hs).1.mono (h s hs ht)

/-- The invariant of executions within the quota. -/
structure Quotad (cfg : Cfg) (mx q : Nat) (w : Charged) (t : Tree) : Prop where
  ok : Tree.OK cfg true 0 END_OF_SHARDS t
  bound : TreeB cfg mx q w t
  within : t.Within q w

/-- The condition on quota and maximal shard size. -/
def QuotaOK (cfg : Cfg) (mx q : Nat) : Prop := cfg.maxShardSize.toNat ≤ mx ∧ LIVE + q + q + PAIR < 4294967296 ∧ mx + q + PAIR < 4294967296

theorem Quotad.small {cfg : Cfg} {mx q : Nat} {w : Charged} {t : Tree} (h : Quotad cfg mx q w t) (hq : QuotaOK cfg mx q) : t.Small :=
  fun s hs => (h.bound s hs).1.small (h.within.leaf s hs) hq.2.1 hq.2.2

theorem sizeErr_pair {cfg : Cfg} {k v : Bytes} (h : sizeErr cfg k v = none) : k.length + v.length ≤ PAIR := by
  unfold sizeErr at h
  split at h
  · cases h
  · split at h
    · cases h
    · rename_i h1 h2
      have e1 : MAX_TOTAL_KEY_SIZE = 16383 := rfl
      have e2 : MAX_TOTAL_VALUE_SIZE = 65535 := rfl
      show _ ≤ 81918
      omega

theorem Quotad.step {cfg : Cfg} {mx q : Nat} {w : Charged} {t t' : Tree} {α : Type} {p p' : Prog α} (h : Quotad cfg mx q w t) (hq : QuotaOK cfg mx q) (hs : CStep cfg t p t' p')
    (hw : t'.Within q (w.step cfg t p)) : Quotad cfg mx q (w.step cfg t p) t' := by
  have hsm := h.small hq
  refine ⟨(hs.sim h.ok hsm).1, ?_, hw⟩
  cases hs with
  | get | byHash | lock | unlock => exact h.bound
  | insErr => exact h.bound.mono (fun s hs ht => (Charged.add_le hs ht).1)
  | ins _ k v mode c st n hs he =>
    have hz := sizeErr_lt hs
    exact TreeB.insert (mode := mode) hq.1 hz.1 hz.2 (sizeErr_pair hs) n t 0 END_OF_SHARDS w _ h.ok hsm h.bound (inSpan_full _) (fun s hs ht => Charged.add_le hs ht) he
  | rem k c => exact h.bound.remove h.ok (inSpan_full _)

theorem Quotad.bg {cfg : Cfg} {mx q : Nat} {w : Charged} {t t' : Tree} {sel : Nat} (h : Quotad cfg mx q w t) (hq : QuotaOK cfg mx q) (hs : t.bgStep cfg sel = some t') : Quotad cfg mx q w t' := by
  have hsm := h.small hq
  exact ⟨(bg_get h.ok hsm hs).1, h.bound.bg h.ok hsm h.within.leaf sel hs, fun sp hc => h.within sp (Tree.bgStep_compacting hs sp hc)⟩

theorem QExec.toExec {cfg : Cfg} {mx q : Nat} {α : Type} {w w' : Charged} {t t' : Tree} {p p' : Prog α} (h : QExec cfg q t w p t' w' p') (hq : QuotaOK cfg mx q) :
    Quotad cfg mx q w t → CExec cfg Tree.Small t p t' p' ∧ Quotad cfg mx q w' t' := by
  induction h with
  | refl => exact fun h => ⟨.refl _ _, h⟩
  | step h hw _ ih => exact fun hI => ⟨.step (hI.small hq) h (ih (hI.step hq h hw)).1, (ih (hI.step hq h hw)).2⟩
  | bg sel h _ ih => exact fun hI => ⟨.bg sel (hI.small hq) h (ih (hI.bg hq h)).1, (ih (hI.bg hq h)).2⟩

/-- All pairs of the tree are of permitted size. -/
def Tree.Sized (cfg : Cfg) (t : Tree) : Prop := ∀ k v, t.get cfg k = some v → k.length + v.length ≤ PAIR

theorem Tree.OK.sized_iff {cfg : Cfg} {ex : Bool} {t : Tree} (h : Tree.OK cfg ex 0 END_OF_SHARDS t) : t.Sized cfg ↔ ∀ s ∈ t.leaves, s.Sized cfg := by
  constructor
  · intro hz s hs k v hv
    exact hz k v ((h.get_iff ⟨Nat.zero_le _, (cfg.ph k).shardSel_lt⟩).2 ⟨s, hs, hv⟩)
  · intro hz k v hv
    obtain ⟨s, hs, hv⟩ := (h.get_iff ⟨Nat.zero_le _, (cfg.ph k).shardSel_lt⟩).1 hv
    exact hz s hs k v hv

theorem Tree.mergeSmall_origin {cfg : Cfg} {ex : Bool} {maxFill : Nat} {t t' u : Tree} {b : Bool} (hok : Tree.OK cfg ex 0 65536 u) (hn : u.NonDegenerate) (hq : u.Quiet)
    (hsm : u.Small) (hfit : ex = true ∧ maxFill ≤ 14745) (hu : t.finishAll cfg = some u) (h : t.mergeSmall cfg maxFill = .ok (t', b)) :
    ∀ s ∈ t'.leaves, s ∈ u.leaves ∨ s.src.writeOff = fileW kvSize s.src := by
  have hc := Tree.mergeSmall_counted h u hu
  unfold Tree.mergeSmall at h
  rw [hu] at h
  dsimp only at h
  rw [hc, if_neg (by simp)] at h
  split at h
  · cases h
  · rename_i needed _
    split at h
    · cases h; exact fun s hs => .inl hs
    · rcases Tree.mergeRec_spec (maxFill := maxFill) u (u.leaves.length - needed) 0 65536 hok hq hn dyadic_full (hq.small_iff.1 hsm) (.inl hfit) with hd | ⟨r, hr, hm⟩
      · rw [hd] at h; cases h
      · rw [hr] at h
        simp only [Out.bind] at h
        split at h
        · cases h
        · rename_i u' hu'
          cases h
          rw [treeify_leaves hu']
          exact hm.origin

theorem fileW_live {s : Shard} (h : s.tgt = none) : fileW kvSize s.src = s.live := by
  unfold fileW Shard.live
  apply sumTo_congr
  intro r hr
  rw [bytesOf_liveRow]
  unfold Shard.active; rw [h]

/-- After the compactions have been waited for. -/
theorem Quotad.finished {cfg : Cfg} {mx q : Nat} {w : Charged} {t u : Tree} (h : Quotad cfg mx q w t) (hq : QuotaOK cfg mx q) (hu : t.finishAll cfg = some u) :
    Quotad cfg mx q w u ∧ u.Quiet := by
  have hsm := h.small hq
  obtain ⟨u', e, uok, usm, uq, uspan, uval⟩ := Tree.finishAll_spec h.ok hsm
  rw [e] at hu; cases hu
  exact ⟨⟨uok, h.bound.finishAll h.ok hsm h.within.leaf e, .quiet uq⟩, uq⟩

theorem NonDegenerate.finishAll {cfg : Cfg} {ex : Bool} {t u : Tree} (hok : Tree.OK cfg ex 0 END_OF_SHARDS t) (hsm : t.Small) (hn : t.NonDegenerate) (hu : t.finishAll cfg = some u) : u.NonDegenerate := by
  obtain ⟨u', e, uok, usm, uq, uspan, uval⟩ := Tree.finishAll_spec hok hsm
  rw [e] at hu
  simp only [Option.some.injEq] at hu
  subst hu
  intro s hs
  have : (s.lo, s.hi) ∈ u'.leaves.map (fun s => (s.lo, s.hi)) := List.mem_map.2 ⟨s, hs, rfl⟩
  rw [uspan, List.mem_map] at this
  obtain ⟨x, hx, hxe⟩ := this
  have := hn x hx
  simp only [Prod.mk.injEq] at hxe
  omega

theorem Quotad.merge {cfg : Cfg} {mx q maxFill : Nat} {w : Charged} {t t' : Tree} {b : Bool} (h : Quotad cfg mx q w t) (hq : QuotaOK cfg mx q) (hb : cfg.expectedKeys ≤ 65536 * 29491) (hm : maxFill ≤ 14745)
    (hn : t.NonDegenerate) (hcap : ∀ t', t.finishAll cfg = some t' → (t'.leaves.map (fun s => s.getStats.numItems)).sum ≤ 65536 * 29491)
    (he : t.mergeSmall cfg maxFill = .ok (t', b)) : Quotad cfg mx q w t' := by
  have hsm := h.small hq
  obtain ⟨u, e, _⟩ := Tree.finishAll_spec h.ok hsm
  obtain ⟨hU, uq⟩ := h.finished hq e
  have un := NonDegenerate.finishAll h.ok hsm hn e
  have ho := Tree.mergeSmall_origin hU.ok un uq (hU.small hq) ⟨rfl, hm⟩ e he
  rcases Tree.mergeSmall_spec h.ok hn hsm (.inl ⟨rfl, hm⟩) hcap hb (Tree.mergeSmall_counted he) with hd | ⟨u', b', h1, h2, _, _, h3, _, _, h4, _⟩
  · rw [hd] at he; cases he
  · rw [h1] at he
    injection he with he; injection he with he _; subst he
    have hz : ∀ s ∈ u'.leaves, s.Sized cfg := h2.sized_iff.1 (fun k v hv => h.ok.sized_iff.2 (fun s hs => (h.bound s hs).2) k v (by rw [← h4]; exact hv))
    refine ⟨h2, fun s hs => ⟨?_, hz s hs⟩, .quiet h3⟩
    rcases ho s hs with hs' | hw
    · exact (hU.bound s hs').1
    · have hl := Shard.live_le (h2.leaf_inv s hs).1 (hz s hs)
      rw [fileW_live (h3 s hs)] at hw
      unfold LeafB
      rw [h3 s hs]
      show s.src.writeOff ≤ max (LIVE + q) mx
      omega

theorem Quotad.create {cfg : Cfg} {mx q : Nat} {w : Charged} {t : Tree} (h : Tree.create cfg = some t) : Quotad cfg mx q w t := by
  obtain ⟨u, e1, uok, _, _, _, uq, e2, e3⟩ := Tree.create_spec (create_bound h) true
  rw [e1] at h; simp only [Option.some.injEq] at h; subst h
  have hz : ∀ s ∈ u.leaves, s.Sized cfg := uok.sized_iff.1 (fun k v hv => by rw [e3] at hv; cases hv)
  refine ⟨uok, fun s hs => ⟨?_, hz s hs⟩, .quiet uq⟩
  unfold LeafB
  rw [uq s hs, e2 s hs]
  exact Nat.zero_le _

theorem Quotad.reopen {cfg : Cfg} {mx q : Nat} {w : Charged} {t u t' : Tree} {d : Dir} {ops : List FOp} {cb : Bool} (h : Quotad cfg mx q w t) (hq : QuotaOK cfg mx q) (hn : t.NonDegenerate)
    (hu : t.finishAll cfg = some u) (hd : DirOf d u.leaves) (ho : openStore cfg cb d = (ops, .ok t')) : Quotad cfg mx q w t' := by
  obtain ⟨hU, uq⟩ := h.finished hq hu
  have un := NonDegenerate.finishAll h.ok (h.small hq) hn hu
  obtain ⟨ops', d', t2, e1, _, _, e2, e3, _, _, e4, _⟩ := hd.reopen (clearBad := cb) hU.ok un uq (hU.small hq)
  rw [e1] at ho
  cases ho
  exact ⟨e3, fun s hs => hU.bound s (e2 ▸ hs), .quiet e4⟩

/-- **Within the quota, every file stays small.** -/
theorem QRun.toRun {cfg : Cfg} {mx q : Nat} {w w' : Charged} {t t' : Tree} {es : List Event} (h : QRun cfg q t w es t' w') (hq : QuotaOK cfg mx q) (hb : cfg.expectedKeys ≤ 65536 * 29491) :
    Quotad cfg mx q w t → Run cfg t es t' ∧ Quotad cfg mx q w' t' := by
  induction h with
  | nil => exact fun h => ⟨.nil _, h⟩
  | call h hr hne _ ih =>
    intro hI
    obtain ⟨a, b⟩ := h.toExec hq hI
    exact ⟨.call a hr hne (ih b).1, (ih b).2⟩
  | bg sel h _ ih =>
    intro hI
    have hI' := hI.bg hq h
    exact ⟨.bg sel (hI.small hq) h (ih hI').1, (ih hI').2⟩
  | merge hm hn hcap h _ ih =>
    intro hI
    have hI' := hI.merge hq hb hm hn hcap h
    exact ⟨.merge ⟨hI.small hq, hn, .inl ⟨fun s hs => (hI.ok.leaf_inv s hs).2, hm⟩, hcap⟩ h (ih hI').1, (ih hI').2⟩
  | clear h _ ih =>
    intro hI
    have hI' := ih (Quotad.create h)
    exact ⟨.clear h hI'.1, hI'.2⟩
  | reopen hn hu hd h _ ih =>
    intro hI
    have hI' := hI.reopen hq hn hu hd h
    exact ⟨.reopen (hI.small hq) hn hu hd h (ih hI').1, (ih hI').2⟩

end Candy
