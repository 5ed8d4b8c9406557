import Verif.Proofs.FineOps
/-!
# The shard tree as a map from selectors to shards
-/
namespace Candy
open Spec

/-- The shape of the tree. -/
inductive Tree.Shape : Nat → Nat → Tree → Prop
  | leaf {lo hi : Nat} {s : Shard} (hlo : s.lo = lo) (hhi : s.hi = hi) (hle : lo ≤ hi) : Tree.Shape lo hi (.leaf s)
  | vertex {lo hi : Nat} {b t : Tree} (hle : lo ≤ hi) (hb : Tree.Shape lo (midOf lo hi) b) (ht : Tree.Shape (midOf lo hi) hi t) :
      Tree.Shape lo hi (.vertex b t)

theorem Tree.OK.shape {cfg : Cfg} {ex : Bool} {lo hi : Nat} {t : Tree} (h : Tree.OK cfg ex lo hi t) : Tree.Shape lo hi t := by
  induction h with
  | leaf hlo hhi hle _ _ => exact .leaf hlo hhi hle
  | vertex hle _ _ ih1 ih2 => exact .vertex hle ih1 ih2

theorem Tree.Shape.hi_eq {lo hi : Nat} {t : Tree} (h : Tree.Shape lo hi t) : t.hi = hi := by
  induction h with
  | leaf _ hhi _ => exact hhi
  | vertex _ _ _ _ ih2 => exact ih2

theorem Tree.Shape.find {lo hi : Nat} {t : Tree} (h : Tree.Shape lo hi t) {sel : Nat} (hs : inSpan lo hi sel) :
    inSpan (t.find sel).lo (t.find sel).hi sel ∧ lo ≤ (t.find sel).lo ∧ (t.find sel).hi ≤ hi := by
  induction h with
  | leaf hlo hhi hle => subst hlo hhi; exact ⟨hs, Nat.le_refl _, Nat.le_refl _⟩
  | @vertex lo hi b t hle hb ht ih1 ih2 =>
    have hm := midOf_bounds hle
    rw [Tree.find_vertex, hb.hi_eq]
    split
    · have := ih1 ⟨hs.1, by assumption⟩; exact ⟨this.1, this.2.1, by omega⟩
    · have := ih2 ⟨by omega, hs.2⟩; exact ⟨this.1, by omega, this.2.2⟩

theorem Tree.Shape.find_same {lo hi : Nat} {t : Tree} (h : Tree.Shape lo hi t) {sel sel' : Nat} (hs : inSpan lo hi sel)
    (hs' : inSpan (t.find sel).lo (t.find sel).hi sel') : t.find sel' = t.find sel := by
  induction h with
  | leaf hlo hhi hle => rfl
  | @vertex lo hi b t hle hb ht ih1 ih2 =>
    have hm := midOf_bounds hle
    rw [Tree.find_vertex, hb.hi_eq] at hs'
    rw [Tree.find_vertex, Tree.find_vertex, hb.hi_eq]
    by_cases e : sel < midOf lo hi
    · rw [if_pos e] at hs' ⊢
      have hsp : inSpan lo (midOf lo hi) sel := ⟨hs.1, e⟩
      have hb' := hb.find hsp
      rw [if_pos (by have := hs'.2; omega)]
      exact ih1 hsp hs'
    · rw [if_neg e] at hs' ⊢
      have hsp : inSpan (midOf lo hi) hi sel := ⟨by omega, hs.2⟩
      have hb' := ht.find hsp
      rw [if_neg (by have := hs'.1; omega)]
      exact ih2 hsp hs'

theorem Tree.Shape.find_lo {lo hi : Nat} {t : Tree} (h : Tree.Shape lo hi t) {sel sel' : Nat} (hs : inSpan lo hi sel) (hs' : inSpan lo hi sel')
    (e : (t.find sel).lo = (t.find sel').lo) : t.find sel = t.find sel' := by
  have h1 := (h.find hs).1
  have h2 := (h.find hs').1
  by_cases hh : (t.find sel).hi ≤ (t.find sel').hi
  · exact h.find_same hs' ⟨by rw [← e]; exact h1.1, Nat.lt_of_lt_of_le h1.2 hh⟩
  · exact (h.find_same hs ⟨by rw [e]; exact h2.1, by have := h2.2; omega⟩).symm

theorem Tree.Shape.modify {lo hi : Nat} {t : Tree} (h : Tree.Shape lo hi t) {sel : Nat} (hs : inSpan lo hi sel) {f : Shard → Shard}
    (hlo : (f (t.find sel)).lo = (t.find sel).lo) (hhi : (f (t.find sel)).hi = (t.find sel).hi) :
    Tree.Shape lo hi (t.modify sel f) ∧ ∀ sel', inSpan lo hi sel' →
      (t.modify sel f).find sel' = if (t.find sel).lo ≤ sel' ∧ sel' < (t.find sel).hi then f (t.find sel) else t.find sel' := by
  induction h with
  | @leaf lo hi s h1 h2 hle =>
    subst h1 h2
    exact ⟨.leaf hlo hhi hle, fun sel' hs' => by rw [if_pos ⟨hs'.1, hs'.2⟩]; rfl⟩
  | @vertex lo hi b t hle hb ht ih1 ih2 =>
    have hm := midOf_bounds hle
    rw [Tree.find_vertex, hb.hi_eq] at hlo hhi ⊢
    rw [Tree.modify_vertex, hb.hi_eq]
    by_cases e : sel < midOf lo hi
    · rw [if_pos e] at hlo hhi ⊢
      rw [if_pos e]
      have hsp : inSpan lo (midOf lo hi) sel := ⟨hs.1, e⟩
      have hb' := hb.find hsp
      obtain ⟨i1, i2⟩ := ih1 hsp hlo hhi
      refine ⟨.vertex hle i1 ht, fun sel' hs' => ?_⟩
      rw [Tree.find_vertex, Tree.find_vertex, i1.hi_eq, hb.hi_eq]
      by_cases e' : sel' < midOf lo hi
      · rw [if_pos e', if_pos e']; exact i2 sel' ⟨hs'.1, e'⟩
      · rw [if_neg e', if_neg e', if_neg (by omega)]
    · rw [if_neg e] at hlo hhi ⊢
      rw [if_neg e]
      have hsp : inSpan (midOf lo hi) hi sel := ⟨by omega, hs.2⟩
      have hb' := ht.find hsp
      obtain ⟨i1, i2⟩ := ih2 hsp hlo hhi
      refine ⟨.vertex hle hb i1, fun sel' hs' => ?_⟩
      rw [Tree.find_vertex, Tree.find_vertex, hb.hi_eq]
      by_cases e' : sel' < midOf lo hi
      · rw [if_pos e', if_pos e', if_neg (by omega)]
      · rw [if_neg e', if_neg e']; exact i2 sel' ⟨by omega, hs'.2⟩

theorem Tree.Shape.splitAt {cfg : Cfg} {lo hi : Nat} {t : Tree} (h : Tree.Shape lo hi t) {sel : Nat} (hs : inSpan lo hi sel) {t' : Tree}
    (hsp : t.splitAt cfg sel = some t')
    (hpost : ∀ b u, (t.find sel).split cfg = some (b, u) → b.lo = (t.find sel).lo ∧ b.hi = midOf (t.find sel).lo (t.find sel).hi ∧
      u.lo = midOf (t.find sel).lo (t.find sel).hi ∧ u.hi = (t.find sel).hi) :
    ∃ b u, (t.find sel).split cfg = some (b, u) ∧ Tree.Shape lo hi t' ∧ ∀ sel', inSpan lo hi sel' →
      t'.find sel' = if (t.find sel).lo ≤ sel' ∧ sel' < (t.find sel).hi then (if sel' < midOf (t.find sel).lo (t.find sel).hi then b else u) else t.find sel' := by
  induction h generalizing t' with
  | @leaf lo hi s h1 h2 hle =>
    subst h1 h2
    unfold Tree.splitAt at hsp
    rw [Option.map_eq_some_iff] at hsp
    obtain ⟨⟨b, u⟩, h1, rfl⟩ := hsp
    obtain ⟨p1, p2, p3, p4⟩ := hpost b u h1
    rw [Tree.find_leaf] at p1 p2 p3 p4 ⊢
    have hm := midOf_bounds hle
    refine ⟨b, u, h1, .vertex hle (.leaf p1 p2 hm.1) (.leaf p3 p4 hm.2), fun sel' hs' => ?_⟩
    rw [if_pos ⟨hs'.1, hs'.2⟩, Tree.find_vertex, Tree.find_leaf, Tree.find_leaf]
    show (if sel' < b.hi then b else u) = _
    rw [p2]
  | @vertex lo hi b t hle hb ht ih1 ih2 =>
    have hm := midOf_bounds hle
    rw [Tree.find_vertex, hb.hi_eq] at hpost ⊢
    unfold Tree.splitAt at hsp
    rw [hb.hi_eq] at hsp
    by_cases e : sel < midOf lo hi
    · rw [if_pos e] at hpost hsp ⊢
      rw [Option.map_eq_some_iff] at hsp
      obtain ⟨b', g1, rfl⟩ := hsp
      have hspn : inSpan lo (midOf lo hi) sel := ⟨hs.1, e⟩
      have hb' := hb.find hspn
      obtain ⟨x, y, i0, i1, i2⟩ := ih1 hspn g1 hpost
      refine ⟨x, y, i0, .vertex hle i1 ht, fun sel' hs' => ?_⟩
      rw [Tree.find_vertex, Tree.find_vertex, i1.hi_eq, hb.hi_eq]
      by_cases e' : sel' < midOf lo hi
      · rw [if_pos e', if_pos e']; exact i2 sel' ⟨hs'.1, e'⟩
      · rw [if_neg e', if_neg e', if_neg (by omega)]
    · rw [if_neg e] at hpost hsp ⊢
      rw [Option.map_eq_some_iff] at hsp
      obtain ⟨t', g1, rfl⟩ := hsp
      have hspn : inSpan (midOf lo hi) hi sel := ⟨by omega, hs.2⟩
      have hb' := ht.find hspn
      obtain ⟨x, y, i0, i1, i2⟩ := ih2 hspn g1 hpost
      refine ⟨x, y, i0, .vertex hle hb i1, fun sel' hs' => ?_⟩
      rw [Tree.find_vertex, Tree.find_vertex, hb.hi_eq]
      by_cases e' : sel' < midOf lo hi
      · rw [if_pos e', if_pos e', if_neg (by omega)]
      · rw [if_neg e', if_neg e']; exact i2 sel' ⟨by omega, hs'.2⟩

theorem Tree.get_find (cfg : Cfg) (t : Tree) (k : Bytes) : t.get cfg k = (t.find (cfg.ph k).shardSel).val cfg k := rfl

/-! ## Splitting a shard whose counters say nothing -/

theorem MFile.liveRow_congr {f g : MFile} (hs : g.slot = f.slot) (hd : g.data = f.data) (r : Nat) : g.liveRow r = f.liveRow r := by
  rw [liveRow_eq, liveRow_eq]
  congr 1
  funext c
  exact live_congr' (by rw [hs]) (fun _ b _ => by rw [hd])

set_option maxRecDepth 20000 in
theorem split_congr {cfg : Cfg} {f g : MFile} (lo hi : Nat) (h : ∀ r, g.liveRow r = f.liveRow r) :
    (Candy.quiet lo hi g).split cfg = (Candy.quiet lo hi f).split cfg := by
  have e : (fun r => g.liveRow r) = fun r => f.liveRow r := funext h
  have key : ∀ f : MFile, (Candy.quiet lo hi f).split cfg =
      (fun (R : Nat → List KV) => match fillRows cfg (fun r => (R r).filter (fun kv => decide ((cfg.ph kv.1).shardSel < midOf lo hi))) MFile.empty (List.range NUM_ROWS),
          fillRows cfg (fun r => (R r).filter (fun kv => !decide ((cfg.ph kv.1).shardSel < midOf lo hi))) MFile.empty (List.range NUM_ROWS) with
        | some b, some t => some (Shard.mk lo (midOf lo hi) b none, Shard.mk (midOf lo hi) hi t none)
        | _, _ => none) (fun r => f.liveRow r) := by
    intro f
    unfold Shard.split
    rw [show Shard.finish cfg (Candy.quiet lo hi f) = some (Candy.quiet lo hi f) from by unfold Shard.finish; rfl]
    rfl
  rw [key, key, e]

theorem Shard.split_fine {cfg : Cfg} {s : Shard} (hq : s.tgt = none) (hok : FileOK cfg s.lo s.hi s.src) (hf : s.Fits) (hl : liveBytes s.src < 4294967296) :
    ∃ bf tf, s.split cfg = some (Candy.quiet s.lo (midOf s.lo s.hi) bf, Candy.quiet (midOf s.lo s.hi) s.hi tf) ∧
      FileOK cfg s.lo (midOf s.lo s.hi) bf ∧ FileOK cfg (midOf s.lo s.hi) s.hi tf ∧
      (∀ k, (Candy.quiet s.lo (midOf s.lo s.hi) bf).val cfg k = if (cfg.ph k).shardSel < midOf s.lo s.hi then s.val cfg k else none) ∧
      (∀ k, (Candy.quiet (midOf s.lo s.hi) s.hi tf).val cfg k = if (cfg.ph k).shardSel < midOf s.lo s.hi then none else s.val cfg k) ∧
      Acct 0 0 bf ∧ Acct 0 0 tf := by
  obtain ⟨lo, hi, f, tg⟩ := s
  simp only at hq hok
  subst hq
  -- the same contents with fitting counters
  have hmax : f.writeOff ≤ max f.writeOff (liveBytes f) := Nat.le_max_left _ _
  let g : MFile := { f with writeOff := max f.writeOff (liveBytes f), wasted := 0 }
  have hg : FileOK cfg lo hi g := hok.congr rfl rfl hmax
  have hlb : liveBytes g = liveBytes f := by
    unfold liveBytes fileW
    congr 1
  have hlr : ∀ r, g.liveRow r = f.liveRow r := fun r => MFile.liveRow_congr rfl rfl r
  have hinv : (Candy.quiet lo hi g).Inv cfg := quiet_inv hg
  have hsm : (Candy.quiet lo hi g).Small := quiet_small (by
    show max f.writeOff (liveBytes f) < _
    have h1 := hf.1
    simp only at h1 hl
    omega)
  have hac : (Candy.quiet lo hi g).AcctInv false := by
    refine ⟨⟨max f.writeOff (liveBytes f) - liveBytes f, (g.numInserts : Int) - ((liveCount g : Int) + g.numRemovals), ⟨?_, ?_⟩, fun h => by cases h⟩, fun t e => by cases e⟩
    · show liveBytes g + 0 + (max f.writeOff (liveBytes f) - liveBytes f) = max f.writeOff (liveBytes f)
      rw [hlb]; omega
    · show (liveCount g : Int) + g.numRemovals + _ = g.numInserts
      omega
  obtain ⟨bf, tf, h1, h2, h3, h4, h5, _, _, h8, h9, _⟩ := Shard.split_spec hinv hsm hac
  refine ⟨bf, tf, ?_, h2, h3, ?_, ?_, h4, h5⟩
  · rw [show (Shard.mk lo hi f none).split cfg = (Candy.quiet lo hi g).split cfg from ?_]
    · exact h1
    · exact (split_congr lo hi hlr).symm
  · intro k
    have := Shard.split_val hinv h2 h8 (fun k => decide ((cfg.ph k).shardSel < midOf lo hi)) (fun k v => rfl) k
    rw [show (Shard.mk lo hi f none).val cfg k = (Candy.quiet lo hi g).val cfg k from ?_]
    · refine this.trans ?_
      by_cases e : (cfg.ph k).shardSel < midOf lo hi <;> simp [e]
    · exact (Shard.Inv.val_of hinv (RowVal.congr (fun c _ => live_congr' rfl (fun _ _ _ => rfl)) ((quiet_inv hok).val k))).symm
  · intro k
    have := Shard.split_val hinv h3 h9 (fun k => !decide ((cfg.ph k).shardSel < midOf lo hi)) (fun k v => rfl) k
    rw [show (Shard.mk lo hi f none).val cfg k = (Candy.quiet lo hi g).val cfg k from ?_]
    · refine this.trans ?_
      by_cases e : (cfg.ph k).shardSel < midOf lo hi <;> simp [e]
    · exact (Shard.Inv.val_of hinv (RowVal.congr (fun c _ => live_congr' rfl (fun _ _ _ => rfl)) ((quiet_inv hok).val k))).symm

end Candy
