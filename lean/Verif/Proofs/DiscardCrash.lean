import Verif.Proofs.ListCrash
/-!
# What a list shows after a crash inside `discard_list`
-/
namespace Candy
open Spec LItems

/-- While list `L` is discarded: the items `P` are gone, except that the last of them may still be stored; the others are in place. -/
def DiscMid (cfg : Cfg) (lk : Bytes) (m : Map) (L : List Entry) (m' : Map) : Prop :=
  ∃ P R, L = P ++ R ∧ ShowsList cfg lk (vis R) m' ∧ (∀ e ∈ R, m' (itemKey (cfg.listPh lk) e.2.1) = m (itemKey (cfg.listPh lk) e.2.1)) ∧
    (∀ e ∈ P.dropLast, m' (itemKey (cfg.listPh lk) e.2.1) = none) ∧
    ∀ k, m' (itemKey (cfg.listPh lk) k) = m (itemKey (cfg.listPh lk) k) ∨ m' (itemKey (cfg.listPh lk) k) = none

/-- The record `x` and the items `R` in their places. -/
theorem shows_whole {cfg m lk} {x : Meta} {R : List Entry} (hlt : x.head < U64 ∧ x.tail < U64 ∧ x.num < U64) (hl : LItems cfg m (cfg.listPh lk) R)
    (hrec : m (listKey lk) = some (encMeta x.head x.tail x.num)) (hb : ∀ e ∈ R, x.head ≤ e.1 ∧ e.1 < x.tail) : ShowsList cfg lk (vis R) m := by
  refine shows_of (ν := some x) (L := R) (g := byIdx R) hrec (fun y hy => by cases hy; exact hlt) (fun i hi Q hQ => hl.wp_getAtIndexT hi trivial hQ) (by simp) ?_
  intro y fwd hy
  cases hy
  exact filterMap_idxs hl.sorted hb fwd

/-- The same without the chain entry of `e0`. -/
theorem shows_chainless {cfg m lk} {x : Meta} {R : List Entry} {e0 : Entry} (hlt : x.head < U64 ∧ x.tail < U64 ∧ x.num < U64) (hl : LItems cfg m (cfg.listPh lk) R)
    (hrec : m (listKey lk) = some (encMeta x.head x.tail x.num)) (hb : ∀ e ∈ R, x.head ≤ e.1 ∧ e.1 < x.tail) (h0 : e0 ∈ R) :
    ShowsList cfg lk (vis (dropIdx R e0.1)) (m.upd (chainKey (cfg.listPh lk) e0.1) none) := by
  refine shows_of (ν := some x) (L := dropIdx R e0.1) (g := byIdx (dropIdx R e0.1)) ?_ (fun y hy => by cases hy; exact hlt) ?_ (by simp) ?_
  · rw [Map.upd_other _ _ (listKey_ne_chain _ _ _)]; exact hrec
  · intro i hi Q hQ
    by_cases hie : i = e0.1
    · subst hie
      rw [byIdx_dropIdx_same] at hQ
      unfold getAtIndexT getAtIndex
      rw [wp_bind, wp_bind, wp_getRaw]
      refine ⟨trivial, ?_⟩
      dsimp only [seqPost]
      rw [Map.upd_same]
      exact ⟨trivial, trivial, hQ⟩
    · rw [byIdx_dropIdx hie] at hQ
      have hh := hl.wp_getAtIndexT (I := noInv) hi trivial (Q := fun _ r => r = .ok ((byIdx R i).map Prod.snd)) rfl
      unfold getAtIndexT at hh ⊢
      rw [wp_bind] at hh ⊢
      refine wp_getAtIndex_congr (m := m) ?_ ?_ trivial ?_ hh
      · exact Map.upd_other _ _ (fun e => hie (chainKey_inj hi (hl.lt e0 h0) e).2)
      · intro k
        exact Map.upd_other _ _ (itemKey_ne_chain _ _ k _)
      · intro r hr
        cases r with
        | ok a =>
          cases a with
          | none => have hr := hr.2; simp only at hr; rw [← hr] at hQ; exact ⟨trivial, hQ⟩
          | some a => have hr := hr.2; simp only at hr; rw [← hr] at hQ; exact ⟨trivial, hQ⟩
        | err e => simp [seqPost] at hr
        | panic => simp [seqPost] at hr
        | exhausted => simp [seqPost] at hr
  · intro y fwd hy
    cases hy
    exact filterMap_idxs (List.Pairwise.filter _ hl.sorted) (fun e he => hb e (mem_dropIdx.1 he).1) fwd

/-- The loop of `discard_list`, at every moment. -/
theorem wp_discardMid {cfg lk} {m0 : Map} {x : Meta} {L : List Entry} (hx : x.head < U64 ∧ x.tail < U64 ∧ x.num < U64) :
    ∀ (is : List Nat) (P R : List Entry) (m : Map), L = P ++ R → LItems cfg m (cfg.listPh lk) R → m (listKey lk) = some (encMeta x.head x.tail x.num) →
    (∀ e ∈ R, x.head ≤ e.1 ∧ e.1 < x.tail) → (∀ e ∈ R, e.1 ∈ is) → is.Pairwise (· < ·) → (∀ i ∈ is, i < U64) →
    (∀ e ∈ R, m (itemKey (cfg.listPh lk) e.2.1) = m0 (itemKey (cfg.listPh lk) e.2.1)) → (∀ e ∈ P, m (itemKey (cfg.listPh lk) e.2.1) = none) →
    (∀ k, m (itemKey (cfg.listPh lk) k) = m0 (itemKey (cfg.listPh lk) k) ∨ m (itemKey (cfg.listPh lk) k) = none) →
    wp cfg (DiscMid cfg lk m0 L) (discardIdx (cfg.listPh lk) is) m (fun m' _ => LItems cfg m' (cfg.listPh lk) [] ∧ m' (listKey lk) = some (encMeta x.head x.tail x.num) ∧
      (∀ e ∈ L, m' (itemKey (cfg.listPh lk) e.2.1) = none) ∧
      ∀ k, m' (itemKey (cfg.listPh lk) k) = m0 (itemKey (cfg.listPh lk) k) ∨ m' (itemKey (cfg.listPh lk) k) = none)
  | [], P, R, m, hL, hl, hrec, hb, hin, _, _, hk, hp, hor => by
    have hR : R = [] := List.eq_nil_iff_forall_not_mem.2 (fun e he => by have := hin e he; cases this)
    subst hR
    rw [List.append_nil] at hL
    subst hL
    exact ⟨⟨L, [], by simp, shows_whole hx hl hrec hb, hk, fun e he => hp e ((List.dropLast_sublist _).subset he), hor⟩, hl, hrec, hp, hor⟩
  | i :: is, P, R, m, hL, hl, hrec, hb, hin, hpw, hlt, hk, hp, hor => by
    have hA : DiscMid cfg lk m0 L m := ⟨P, R, hL, shows_whole hx hl hrec hb, hk, fun e he => hp e ((List.dropLast_sublist _).subset he), hor⟩
    obtain ⟨hpi, hpw'⟩ := List.pairwise_cons.1 hpw
    have hlt' : ∀ j ∈ is, j < U64 := fun j hj => hlt j (List.mem_cons_of_mem _ hj)
    unfold discardIdx
    rw [wp_bind]
    apply hl.wp_getAtIndex (hlt i (by simp)) hA
    dsimp only [seqPost]
    cases hbi : byIdx R i with
    | none =>
      refine wp_discardMid hx is P R m hL hl hrec hb (fun e he => ?_) hpw' hlt' hk hp hor
      exact (List.mem_cons.1 (hin e he)).resolve_left (byIdx_none hbi e he)
    | some e0 =>
      obtain ⟨h0, rfl⟩ := byIdx_some hbi
      -- `e0` is the first remaining item
      obtain ⟨R', rfl⟩ : ∃ R', R = e0 :: R' := by
        cases R with
        | nil => cases h0
        | cons e R' =>
          refine ⟨R', ?_⟩
          rcases List.mem_cons.1 h0 with h | h
          · rw [h]
          · have h1 := (List.pairwise_cons.1 hl.sorted).1 e0 h
            rcases List.mem_cons.1 (hin e (by simp)) with h2 | h2
            · omega
            · have := hpi e.1 h2
              omega
      have hso := (List.pairwise_cons.1 hl.sorted).1
      have hdr : dropIdx (e0 :: R') e0.1 = R' := by
        unfold dropIdx
        rw [List.filter_cons_of_neg (by simp), List.filter_eq_self.2]
        intro e he
        have := hso e he
        simp only [decide_eq_true_eq]
        omega
      have hne : ∀ e ∈ R', e.2.1 ≠ e0.2.1 := by
        intro e he hk
        have := hl.key_unique (List.mem_cons_of_mem _ he) h0 hk
        have h2 := hso e he
        rw [this] at h2
        omega
      have hL' : L = (P ++ [e0]) ++ R' := by rw [hL]; simp
      have hB : DiscMid cfg lk m0 L (m.upd (chainKey (cfg.listPh lk) e0.1) none) := by
        have hit : ∀ k, (m.upd (chainKey (cfg.listPh lk) e0.1) none) (itemKey (cfg.listPh lk) k) = m (itemKey (cfg.listPh lk) k) :=
          fun k => Map.upd_other _ _ (itemKey_ne_chain _ _ k _)
        refine ⟨P ++ [e0], R', hL', ?_, fun e he => ?_, fun e he => ?_, fun k => ?_⟩
        · have := shows_chainless hx hl hrec hb h0
          rwa [hdr] at this
        · rw [hit]; exact hk e (List.mem_cons_of_mem _ he)
        · rw [List.dropLast_concat] at he
          rw [hit]; exact hp e he
        · rw [hit]; exact hor k
      have hl2 := hl.remove_item h0
      rw [hdr] at hl2
      have hrec2 : ((m.upd (chainKey (cfg.listPh lk) e0.1) none).upd (itemKey (cfg.listPh lk) e0.2.1) none) (listKey lk) = some (encMeta x.head x.tail x.num) := by
        rw [Map.upd_other _ _ (listKey_ne_item _ _ _), Map.upd_other _ _ (listKey_ne_chain _ _ _)]; exact hrec
      have hit2 : ∀ k, k ≠ e0.2.1 → ((m.upd (chainKey (cfg.listPh lk) e0.1) none).upd (itemKey (cfg.listPh lk) e0.2.1) none) (itemKey (cfg.listPh lk) k) =
          m (itemKey (cfg.listPh lk) k) := fun k hk => by
        rw [Map.upd_other _ _ (fun e => hk (itemKey_inj e).2), Map.upd_other _ _ (itemKey_ne_chain _ _ k _)]
      have hb2 : ∀ e ∈ R', x.head ≤ e.1 ∧ e.1 < x.tail := fun e he => hb e (List.mem_cons_of_mem _ he)
      have hk2 : ∀ e ∈ R', ((m.upd (chainKey (cfg.listPh lk) e0.1) none).upd (itemKey (cfg.listPh lk) e0.2.1) none) (itemKey (cfg.listPh lk) e.2.1) =
          m0 (itemKey (cfg.listPh lk) e.2.1) := fun e he => by rw [hit2 _ (hne e he)]; exact hk e (List.mem_cons_of_mem _ he)
      have hp2 : ∀ e ∈ P ++ [e0], ((m.upd (chainKey (cfg.listPh lk) e0.1) none).upd (itemKey (cfg.listPh lk) e0.2.1) none) (itemKey (cfg.listPh lk) e.2.1) = none := by
        intro e he
        by_cases h : e.2.1 = e0.2.1
        · rw [h, Map.upd_same]
        · rw [hit2 _ h]
          rcases List.mem_append.1 he with he | he
          · exact hp e he
          · rw [List.mem_singleton] at he
            rw [he] at h
            exact absurd rfl h
      have hor2 : ∀ k, ((m.upd (chainKey (cfg.listPh lk) e0.1) none).upd (itemKey (cfg.listPh lk) e0.2.1) none) (itemKey (cfg.listPh lk) k) =
          m0 (itemKey (cfg.listPh lk) k) ∨ ((m.upd (chainKey (cfg.listPh lk) e0.1) none).upd (itemKey (cfg.listPh lk) e0.2.1) none) (itemKey (cfg.listPh lk) k) = none := by
        intro k
        by_cases h : k = e0.2.1
        · rw [h, Map.upd_same]; exact Or.inr rfl
        · rw [hit2 _ h]; exact hor k
      have hC : DiscMid cfg lk m0 L ((m.upd (chainKey (cfg.listPh lk) e0.1) none).upd (itemKey (cfg.listPh lk) e0.2.1) none) :=
        ⟨P ++ [e0], R', hL', shows_whole hx hl2 hrec2 hb2, hk2, fun e he => hp2 e ((List.dropLast_sublist _).subset he), hor2⟩
      dsimp only [Option.map_some]
      rw [wp_bind, wp_removeRaw]
      refine ⟨hA, hB, ?_⟩
      dsimp only [seqPost]
      rw [wp_bind, wp_removeRaw]
      refine ⟨hB, hC, ?_⟩
      dsimp only [seqPost]
      refine wp_discardMid hx is (P ++ [e0]) R' _ hL' hl2 hrec2 hb2 (fun e he => ?_) hpw' hlt' hk2 hp2 hor2
      have h1 := hso e he
      exact (List.mem_cons.1 (hin e (List.mem_cons_of_mem _ he))).resolve_left (by omega)

/-- `discard_list`, at every moment. -/
theorem wp_discardListMid {cfg m lk μ L} (h : LRep cfg m lk μ L) :
    wp cfg (DiscMid cfg lk m L) (discardListBody cfg lk) m (fun _ _ => True) := by
  have h00 : DiscMid cfg lk m L m := ⟨[], L, rfl, h.shows, fun _ _ => rfl, (fun e he => by cases he), fun _ => Or.inl rfl⟩
  unfold discardListBody
  rw [wp_bind, wp_getRaw]
  refine ⟨h00, ?_⟩
  dsimp only [seqPost]
  rw [h.record]
  cases μ with
  | none => exact ⟨h00, trivial⟩
  | some x =>
    have h1 := h.span x rfl
    have h2 := h.tail_lt x rfl
    have hx : x.head < U64 ∧ x.tail < U64 ∧ x.num < U64 := ⟨by omega, h2, by omega⟩
    dsimp only [Option.map_some]
    rw [wp_bind, wp_decMeta hx.1 hx.2.1 hx.2.2]
    refine ⟨h00, ?_⟩
    dsimp only [seqPost]
    rw [wp_bind]
    refine (wp_discardMid (m0 := m) hx _ [] L m rfl h.items (by rw [h.record]; rfl) (h.bnd x rfl) (fun e he => mem_idxs.2 (h.bnd x rfl e he))
      (by simpa [idxs] using List.pairwise_lt_range') (fun i hi => by have := mem_idxs.1 hi; omega) (fun _ _ => rfl) (fun e he => by cases he)
      (fun _ => Or.inl rfl)).conseqI ?_
    rintro m' r hI ⟨h3, h4, h5, h6⟩
    cases r with
    | ok u =>
      dsimp only [seqPost]
      rw [wp_bind, wp_removeRaw]
      have hit : ∀ k, (m'.upd (listKey lk) none) (itemKey (cfg.listPh lk) k) = m' (itemKey (cfg.listPh lk) k) :=
        fun k => Map.upd_other _ _ (fun e => listKey_ne_item lk _ k e.symm)
      have hD : DiscMid cfg lk m L (m'.upd (listKey lk) none) := by
        refine ⟨L, [], by simp, ?_, (fun e he => by cases he), fun e he => ?_, fun k => ?_⟩
        · refine LRep.shows (μ := none) (L := []) ⟨h3.upd_other (fun ik => listKey_ne_item lk _ ik) (fun i => listKey_ne_chain lk _ i), by simp, fun _ => rfl,
            by simp, by simp, by simp, by simp, by simp⟩
        · rw [hit]; exact h5 e ((List.dropLast_sublist _).subset he)
        · rw [hit]; exact h6 k
      exact ⟨hI, hD, hD, trivial⟩
    | _ => trivial

/-- A crash inside `discard_list`. -/
theorem listDiscard_crash {cfg m m' lk s p} (h : ListAbs cfg m lk s) (hx : AExec cfg m (LOp.discard.prog cfg lk) m' p) :
    ∃ L, s.items = vis L ∧ DiscMid cfg lk m L m' := by
  obtain ⟨μ, L, h1, h2, _⟩ := h
  refine ⟨L, h2.symm, (wp.exec hx (Q := fun _ _ => True) (wp_tag_true (f := .flag) (Q := fun _ _ => True) ?_)).inv⟩
  unfold discardList
  rw [wp_withLock]
  exact wp_discardListMid h1

end Candy
