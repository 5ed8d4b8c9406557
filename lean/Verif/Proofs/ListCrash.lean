import Verif.Proofs.CrashCall
/-!
# What a list shows right after a crash inside a removal (C30)
-/
namespace Candy
open Spec LItems

/-- `get_from_list_at_index` reads one chain entry and the items. -/
theorem wp_getAtIndex_congr {cfg : Cfg} {m m' : Map} {lph : PH} {i : Nat} {I : Map → Prop} {Q Q' : Map → Res (Option (PH × Bytes × Bytes)) → Prop}
    (h1 : m' (chainKey lph i) = m (chainKey lph i)) (h2 : ∀ k, m' (itemKey lph k) = m (itemKey lph k))
    (hI : I m') (hQ : ∀ r, Q' m r → Q m' r) (h : wp cfg noInv (getAtIndex lph i) m Q') : wp cfg I (getAtIndex lph i) m' Q := by
  unfold getAtIndex at h ⊢
  rw [wp_bind, wp_getRaw] at h ⊢
  refine ⟨hI, ?_⟩
  have h := h.2
  dsimp only [seqPost] at h ⊢
  rw [h1]
  cases hc : m (chainKey lph i) with
  | none => rw [hc] at h; exact ⟨hI, hQ _ h.2⟩
  | some b =>
    rw [hc] at h
    dsimp only at h ⊢
    by_cases hb : b.length ≠ 8
    · rw [if_pos hb] at h ⊢; exact ⟨hI, hQ _ h.2⟩
    · rw [if_neg hb] at h ⊢
      refine ⟨hI, fun l hl => ?_⟩
      have hl' : ByHash cfg m (BitVec.ofNat 64 (dec64 b)) (itemSuffix lph) l := by
        refine ⟨hl.suffix, fun hs kv hkv => ?_, fun hs k v hk hp he => ?_, hl.sigs, hl.distinct⟩
        · obtain ⟨ik, hik⟩ := endsWith_item.1 (hl.suffix kv hkv)
          rw [hik, ← h2, ← hik]; exact hl.sound hs kv hkv
        · obtain ⟨ik, rfl⟩ := endsWith_item.1 he
          exact hl.complete hs _ v (by rw [h2]; exact hk) hp he
      have h := h.2 l hl'
      dsimp only at h ⊢
      cases hf : l.find? (fun kv => endsWith kv.2 (enc64 i)) with
      | none => rw [hf] at h; exact ⟨hI, hQ _ h.2⟩
      | some kv => rw [hf] at h; exact ⟨hI, hQ _ h.2⟩

/-- Reading a list by its indices, given what each index shows. -/
theorem wp_collect_of {cfg : Cfg} {m : Map} {lph : PH} {I : Map → Prop} (hI : I m) {g : Nat → Option Entry}
    (hg : ∀ i, i < U64 → ∀ Q : Map → Res (Option KV) → Prop, Q m (.ok ((g i).map Prod.snd)) → wp cfg I (getAtIndexT lph i) m Q) :
    ∀ (is : List Nat), (∀ i ∈ is, i < U64) → wp cfg I (collectIdx lph is) m (fun m' r => m' = m ∧ r = .ok ((is.filterMap g).map Prod.snd))
  | [], _ => ⟨hI, rfl, rfl⟩
  | i :: is, hlt => by
    have ih := wp_collect_of hI hg is (fun j hj => hlt j (List.mem_cons_of_mem _ hj))
    unfold collectIdx
    rw [wp_bind]
    apply hg i (hlt i (by simp))
    dsimp only [seqPost]
    cases hb : g i with
    | none => rw [List.filterMap_cons_none hb]; exact ih
    | some e =>
      rw [List.filterMap_cons_some hb]
      dsimp only [Option.map_some]
      rw [wp_bind]
      refine ih.conseq ?_
      rintro m' r ⟨rfl, rfl⟩
      exact ⟨hI, rfl, rfl⟩

/-- The list shows the items `l`. -/
def ShowsList (cfg : Cfg) (lk : Bytes) (l : OList) (m : Map) : Prop :=
  ∀ fwd, wp cfg noInv (iterList cfg lk fwd) m (fun _ r => r = .ok (dirOrder fwd l))

theorem LRep.shows {cfg m lk μ L} (h : LRep cfg m lk μ L) : ShowsList cfg lk (vis L) m :=
  fun fwd => (wp_iterList fwd h trivial).conseq (fun _ _ hh => hh.2)

/-- A record, and what each index shows. -/
theorem shows_of {cfg m lk} {ν : Option Meta} {L : List Entry} {g : Nat → Option Entry} (hrec : m (listKey lk) = ν.map (fun x => encMeta x.head x.tail x.num))
    (hlt : ∀ x, ν = some x → x.head < U64 ∧ x.tail < U64 ∧ x.num < U64)
    (hg : ∀ i, i < U64 → ∀ Q : Map → Res (Option KV) → Prop, Q m (.ok ((g i).map Prod.snd)) → wp cfg noInv (getAtIndexT (cfg.listPh lk) i) m Q)
    (hnil : ν = none → L = []) (hL : ∀ x fwd, ν = some x → (idxs fwd x.head x.tail).filterMap g = if fwd then L else L.reverse) :
    ShowsList cfg lk (vis L) m := by
  intro fwd
  unfold iterList listRange
  rw [wp_bind, wp_bind, wp_withLock, wp_getRaw]
  refine ⟨trivial, ?_⟩
  · dsimp only [seqPost]
    rw [hrec]
    cases ν with
    | none => refine ⟨trivial, trivial, ?_⟩; rw [hnil rfl]; cases fwd <;> rfl
    | some x =>
      obtain ⟨a1, a2, a3⟩ := hlt x rfl
      dsimp only [Option.map_some]
      rw [wp_bind, wp_decMeta a1 a2 a3]
      refine ⟨trivial, trivial, ?_⟩
      dsimp only [seqPost]
      refine (wp_collect_of (I := noInv) trivial hg _ (fun i hi => by have := mem_idxs.1 hi; omega)).conseq ?_
      rintro m' r ⟨rfl, rfl⟩
      rw [hL x fwd rfl]
      cases fwd <;> simp [dirOrder, vis]

theorem byIdx_dropIdx {L : List Entry} {i j : Nat} (h : i ≠ j) : byIdx (dropIdx L j) i = byIdx L i := by
  unfold byIdx dropIdx
  rw [List.find?_filter]
  congr 1
  funext e
  by_cases he : e.1 = i
  · simp [he, h]
  · simp [he]

theorem byIdx_dropIdx_same {L : List Entry} {j : Nat} : byIdx (dropIdx L j) j = none := by
  unfold byIdx
  rw [List.find?_eq_none]
  intro e he
  simpa using (mem_dropIdx.1 he).2

/-- What the list shows while item `ik` is being removed: the items before, or the items after. All other items are in place. -/
def RemMid (cfg : Cfg) (lk : Bytes) (m : Map) (l : OList) (ik : Bytes) (m' : Map) : Prop :=
  (ShowsList cfg lk l m' ∨ ShowsList cfg lk (l.erase ik) m') ∧
  (∀ k, k ≠ ik → m' (itemKey (cfg.listPh lk) k) = m (itemKey (cfg.listPh lk) k)) ∧
  (m' (itemKey (cfg.listPh lk) ik) = m (itemKey (cfg.listPh lk) ik) ∨ m' (itemKey (cfg.listPh lk) ik) = none)

theorem LRep.remMid {cfg m lk x L} (h : LRep cfg m lk (some x) L) {e0 : Entry} (h0 : e0 ∈ L) :
    RemMid cfg lk m (vis L) e0.2.1 (dropMap1 cfg m lk x e0) ∧ RemMid cfg lk m (vis L) e0.2.1 (dropMap2 cfg m lk x e0) ∧
    RemMid cfg lk m (vis L) e0.2.1 (dropMap3 cfg m lk x e0) := by
  have hb := h.bnd x rfl e0 h0
  have hsp := h.span x rfl
  have htl := h.tail_lt x rfl
  have hnum : 0 < x.num := by
    have := h.cnt x rfl
    have : 0 < L.length := List.length_pos_of_mem h0
    omega
  have hrec1 : (dropMap1 cfg m lk x e0) (listKey lk) = (dropMeta x e0.1).map (fun x => encMeta x.head x.tail x.num) := by
    unfold dropMap1; rw [Map.upd_same]
  have hit1 : ∀ k, (dropMap1 cfg m lk x e0) (itemKey (cfg.listPh lk) k) = m (itemKey (cfg.listPh lk) k) :=
    fun k => Map.upd_other _ _ (fun e => listKey_ne_item lk _ k e.symm)
  have hit2 : ∀ k, (dropMap2 cfg m lk x e0) (itemKey (cfg.listPh lk) k) = m (itemKey (cfg.listPh lk) k) :=
    fun k => (Map.upd_other _ _ (itemKey_ne_chain _ _ k _)).trans (hit1 k)
  have hl1 : LItems cfg (dropMap1 cfg m lk x e0) (cfg.listPh lk) L :=
    h.items.upd_other (fun ik => listKey_ne_item lk _ ik) (fun i => listKey_ne_chain lk _ i)
  have hlt : ∀ y, dropMeta x e0.1 = some y → y.head < U64 ∧ y.tail < U64 ∧ y.num < U64 := by
    intro y hy
    have := dropMeta_some hy hb.1 hb.2 hnum hsp
    omega
  have hnil : dropMeta x e0.1 = none → dropIdx L e0.1 = [] := by
    intro hn
    apply List.eq_nil_iff_forall_not_mem.2
    intro e he
    obtain ⟨e1, e2⟩ := mem_dropIdx.1 he
    have := h.bnd x rfl e e1
    exact e2 (dropMeta_none hn hb.1 hb.2 e.1 this.1 this.2)
  have hsort : (dropIdx L e0.1).Pairwise (fun a b => a.1 < b.1) := List.Pairwise.filter _ h.items.sorted
  have hdrop : ∀ y fwd, dropMeta x e0.1 = some y → (idxs fwd y.head y.tail).filterMap (byIdx (dropIdx L e0.1)) =
      if fwd then dropIdx L e0.1 else (dropIdx L e0.1).reverse := by
    intro y fwd hy
    refine filterMap_idxs hsort (fun e he => ?_) fwd
    obtain ⟨e1, e2⟩ := mem_dropIdx.1 he
    have hbe := h.bnd x rfl e e1
    exact (dropMeta_some hy hb.1 hb.2 hnum hsp).2.2.2 e.1 hbe.1 hbe.2 e2
  have hvis := vis_dropIdx h.items h0
  have hg1 : ∀ i, i < U64 → ∀ Q : Map → Res (Option KV) → Prop, Q (dropMap1 cfg m lk x e0) (.ok ((byIdx L i).map Prod.snd)) →
      wp cfg noInv (getAtIndexT (cfg.listPh lk) i) (dropMap1 cfg m lk x e0) Q := fun i hi Q hQ => hl1.wp_getAtIndexT hi trivial hQ
  refine ⟨⟨?_, fun k _ => hit1 k, Or.inl (hit1 _)⟩, ⟨Or.inr ?_, fun k _ => hit2 k, Or.inl (hit2 _)⟩, ⟨Or.inr ?_, fun k hk => ?_, Or.inr ?_⟩⟩
  · by_cases hin : ∃ y, dropMeta x e0.1 = some y ∧ y.head ≤ e0.1 ∧ e0.1 < y.tail
    · left
      obtain ⟨y, hy, y1, y2⟩ := hin
      refine shows_of (ν := dropMeta x e0.1) (g := byIdx L) hrec1 hlt hg1 (fun hn => by rw [hy] at hn; simp at hn) ?_
      intro z fwd hz
      rw [hy] at hz
      cases hz
      refine filterMap_idxs h.items.sorted (fun e he => ?_) fwd
      by_cases hee : e.1 = e0.1
      · rw [hee]; exact ⟨y1, y2⟩
      · have hbe := h.bnd x rfl e he
        exact (dropMeta_some hy hb.1 hb.2 hnum hsp).2.2.2 e.1 hbe.1 hbe.2 hee
    · right
      rw [← hvis]
      refine shows_of (ν := dropMeta x e0.1) (g := byIdx L) hrec1 hlt hg1 hnil ?_
      intro y fwd hy
      rw [← hdrop y fwd hy]
      refine filterMap_congr' (fun i hi => (byIdx_dropIdx ?_).symm)
      rintro rfl
      exact hin ⟨y, hy, mem_idxs.1 hi⟩
  · rw [← hvis]
    refine shows_of (ν := dropMeta x e0.1) (g := byIdx (dropIdx L e0.1)) ?_ hlt ?_ hnil hdrop
    · unfold dropMap2; rw [Map.upd_other _ _ (listKey_ne_chain _ _ _)]; exact hrec1
    · intro i hi Q hQ
      by_cases hie : i = e0.1
      · subst hie
        rw [byIdx_dropIdx_same] at hQ
        unfold getAtIndexT getAtIndex
        rw [wp_bind, wp_bind, wp_getRaw]
        refine ⟨trivial, ?_⟩
        dsimp only [seqPost]
        rw [show (dropMap2 cfg m lk x e0) (chainKey (cfg.listPh lk) e0.1) = none from Map.upd_same _ _ _]
        exact ⟨trivial, trivial, hQ⟩
      · rw [byIdx_dropIdx hie] at hQ
        have hh := hl1.wp_getAtIndexT (I := noInv) hi trivial
          (Q := fun _ r => r = .ok ((byIdx L i).map Prod.snd)) rfl
        unfold getAtIndexT at hh ⊢
        rw [wp_bind] at hh ⊢
        refine wp_getAtIndex_congr (m := dropMap1 cfg m lk x e0) ?_ ?_ trivial ?_ hh
        · refine Map.upd_other _ _ (fun e => hie ?_)
          exact (chainKey_inj hi (h.items.lt e0 h0) e).2
        · intro k; rw [hit2, hit1]
        · intro r hr
          cases r with
          | ok a =>
            cases a with
            | none => have hr := hr.2; simp only at hr; rw [← hr] at hQ; exact ⟨trivial, hQ⟩
            | some a => have hr := hr.2; simp only at hr; rw [← hr] at hQ; exact ⟨trivial, hQ⟩
          | err e => simp [seqPost] at hr
          | panic => simp [seqPost] at hr
          | exhausted => simp [seqPost] at hr
  · rw [← hvis]
    exact (h.drop h0).shows
  · unfold dropMap3
    rw [Map.upd_other _ _ (fun e => hk (itemKey_inj e).2)]
    exact hit2 k
  · unfold dropMap3
    rw [Map.upd_same]

theorem LRep.remMid_self {cfg m lk μ L} (h : LRep cfg m lk μ L) (ik : Bytes) : RemMid cfg lk m (vis L) ik m :=
  ⟨Or.inl h.shows, fun _ _ => rfl, Or.inl rfl⟩

/-- A removal, at every moment. -/
theorem wp_removeMid {cfg m lk μ L} (ik : Bytes) (h : LRep cfg m lk μ L) :
    wp cfg (RemMid cfg lk m (vis L) ik) (removeFromListBody cfg lk ik) m (RemPost cfg m lk μ L ik) := by
  refine wp_removeBody ik h (h.remMid_self ik) ?_
  rintro x e0 rfl h0 rfl
  exact h.remMid h0

/-- A pop, at every moment: the item it will remove is the first (last) one. -/
theorem wp_popMid {cfg m lk μ L} (h : LRep cfg m lk μ L) : ∀ (is : List Nat), (∀ i ∈ is, i < U64) →
    wp cfg (fun m' => m' = m ∨ ∃ e, (is.filterMap (byIdx L)).head? = some e ∧ RemMid cfg lk m (vis L) e.2.1 m') (popIdx cfg lk is) m (fun _ _ => True)
  | [], _ => ⟨Or.inl rfl, trivial⟩
  | i :: is, hlt => by
    have ih := wp_popMid h is (fun j hj => hlt j (List.mem_cons_of_mem _ hj))
    unfold popIdx
    rw [wp_bind]
    apply h.items.wp_getAtIndexT (hlt i (by simp)) (Or.inl rfl)
    dsimp only [seqPost]
    cases hb : byIdx L i with
    | none =>
      rw [List.filterMap_cons_none hb]
      exact ih
    | some e =>
      rw [List.filterMap_cons_some hb]
      dsimp only [Option.map_some]
      rw [wp_bind]
      have hr : wp cfg (fun m' => m' = m ∨ ∃ e', (e :: is.filterMap (byIdx L)).head? = some e' ∧ RemMid cfg lk m (vis L) e'.2.1 m')
          (removeFromList cfg lk e.2.1) m (RemPost cfg m lk μ L e.2.1) := by
        unfold removeFromList
        rw [wp_withLock]
        exact wp.mono (fun m' hm => Or.inr ⟨e, rfl, hm⟩) (wp_removeMid e.2.1 h) (fun _ _ hh => hh)
      refine wp.conseqI hr ?_
      rintro m' r hI ⟨h1, rfl, μ', L', h2, h3, h4⟩
      have hg : (vis L).get e.2.1 = some e.2.2 := by
        rw [vis_get]
        cases hk : byKey L e.2.1 with
        | none => exact absurd rfl (byKey_none hk e (byIdx_some hb).1)
        | some e' => rw [h.items.key_unique (byKey_some hk).1 (byIdx_some hb).1 (byKey_some hk).2]; rfl
      rw [hg]
      exact ⟨hI, trivial⟩

theorem wp_tag_true {cfg I} {α : Type} {f : α → Resp} {p : Prog α} {m : Map} {Q : Map → Res α → Prop} (h : wp cfg I p m Q) :
    wp cfg I (p.tag f) m (fun _ _ => True) := wp_noWrite_tail (β := α) (h.conseq (fun _ _ _ => trivial))

/-- A crash inside `remove_from_list`. -/
theorem listRemove_crash {cfg m m' lk s p} {ik : Bytes} (h : ListAbs cfg m lk s) (hx : AExec cfg m ((LOp.remove ik).prog cfg lk) m' p) :
    RemMid cfg lk m s.items ik m' := by
  obtain ⟨μ, L, h1, h2, _⟩ := h
  rw [← h2]
  refine (wp.exec hx (Q := fun _ _ => True) (wp_tag_true (f := .val) (Q := RemPost cfg m lk μ L ik) ?_)).inv
  unfold removeFromList
  rw [wp_withLock]
  exact wp_removeMid ik h1

/-- A crash inside `pop_list_head` / `pop_list_tail`. -/
theorem listPop_crash {cfg m m' lk s p} {fwd : Bool} (h : ListAbs cfg m lk s) (hx : AExec cfg m ((LOp.pop fwd).prog cfg lk) m' p) :
    m' = m ∨ ∃ e, (s.items.dir fwd).head? = some e ∧ RemMid cfg lk m s.items e.1 m' := by
  obtain ⟨μ, L, h1, h2, _⟩ := h
  rw [← h2]
  refine (wp.exec hx (Q := fun _ _ => True) (I := fun m' => m' = m ∨ ∃ e, ((vis L).dir fwd).head? = some e ∧ RemMid cfg lk m (vis L) e.1 m')
    (wp_tag_true (f := .item) (Q := fun _ _ => True) ?_)).inv
  unfold popList
  rw [wp_bind]
  refine wp_listRange h1 (Or.inl rfl) ?_
  dsimp only [seqPost]
  cases μ with
  | none => exact ⟨Or.inl rfl, trivial⟩
  | some x =>
    have h2 := h1.tail_lt x rfl
    have hp := wp_popMid h1 (idxs fwd x.head x.tail) (fun i hi => by have := mem_idxs.1 hi; omega)
    rw [filterMap_idxs h1.items.sorted (h1.bnd x rfl)] at hp
    refine wp.mono ?_ hp (fun _ _ hh => hh)
    rintro m' (rfl | ⟨e, he, hm⟩)
    · exact Or.inl rfl
    · refine Or.inr ⟨e.2, ?_, hm⟩
      have := head_dirOrder fwd L
      rw [he] at this
      exact this.symm

/-! ## Compaction that is cut off: no item is lost -/

/-- Every item has the value it had (at whatever index). -/
def ItemsAs (cfg : Cfg) (lk : Bytes) (m m' : Map) : Prop :=
  ∀ k, (m (itemKey (cfg.listPh lk) k) = none → m' (itemKey (cfg.listPh lk) k) = none) ∧
    ∀ v i, m (itemKey (cfg.listPh lk) k) = some (v ++ enc64 i) → ∃ j, m' (itemKey (cfg.listPh lk) k) = some (v ++ enc64 j)

theorem ItemsAs.refl (cfg lk m) : ItemsAs cfg lk m m := fun _ => ⟨id, fun _ i h => ⟨i, h⟩⟩

theorem ItemsAs.other {cfg lk m m'} (h : ItemsAs cfg lk m m') {key : Bytes} {x : Option Bytes}
    (hne : ∀ k, itemKey (cfg.listPh lk) k ≠ key) : ItemsAs cfg lk m (m'.upd key x) := by
  intro k
  rw [Map.upd_other _ _ (hne k)]
  exact h k

theorem ItemsAs.move {cfg lk m m'} (h : ItemsAs cfg lk m m') {k v : Bytes} {i j : Nat} (hk : m' (itemKey (cfg.listPh lk) k) = some (v ++ enc64 i)) :
    ItemsAs cfg lk m (m'.upd (itemKey (cfg.listPh lk) k) (some (v ++ enc64 j))) := by
  intro k'
  by_cases e : k' = k
  · subst e
    rw [Map.upd_same]
    refine ⟨fun hn => ?_, fun v' i' hv => ?_⟩
    · have := (h k').1 hn
      rw [hk] at this; cases this
    · obtain ⟨j', hj⟩ := (h k').2 v' i' hv
      rw [hk, Option.some.injEq] at hj
      have := List.append_inj_left' hj (by rw [enc64_length, enc64_length])
      exact ⟨j, by rw [this]⟩
  · rw [Map.upd_other _ _ (fun e' => e (itemKey_inj e').2)]
    exact h k'

theorem wp_compactIdx_keep {cfg lk m0} {tail : Nat} :
    ∀ (n i new : Nat) (P N : List Entry) (m : Map), LItems cfg m (cfg.listPh lk) (P ++ N) → ItemsAs cfg lk m0 m →
    i + n = tail → (∀ e ∈ P, i ≤ e.1 ∧ e.1 < tail) → (∀ e ∈ N, tail ≤ e.1 ∧ e.1 < new) → tail ≤ new → new < U64 →
    wp cfg (ItemsAs cfg lk m0) (compactIdx (cfg.listPh lk) (List.range' i n) new) m (fun m' _ => ItemsAs cfg lk m0 m')
  | 0, i, new, P, N, m, h, hs, hi, hP, hN, hnew, hlt => ⟨hs, hs⟩
  | n + 1, i, new, P, N, m, h, hs, hi, hP, hN, hnew, hlt => by
    rw [List.range'_succ]
    unfold compactIdx
    rw [wp_bind]
    apply h.wp_getAtIndex (by omega) hs
    dsimp only [seqPost]
    have hfreeN : ∀ e ∈ N, e.1 ≠ i := fun e he => by have := hN e he; omega
    rw [byIdx_append_lt hfreeN]
    cases hb : byIdx P i with
    | none =>
      refine wp_compactIdx_keep n (i + 1) new P N m h hs (by omega) ?_ hN hnew hlt
      intro e he
      have h1 := hP e he
      have h2 := byIdx_none hb e he
      omega
    | some e0 =>
      obtain ⟨h0, rfl⟩ := byIdx_some hb
      have h0' : e0 ∈ P ++ N := List.mem_append_left _ h0
      have hbig : ∀ e ∈ P ++ N, e.1 < new := by
        intro e he
        rcases List.mem_append.1 he with he | he
        · have := hP e he; omega
        · exact (hN e he).2
      have hne : P ++ N ≠ [] := List.ne_nil_of_mem h0'
      have hfit : sizeErr cfg (itemKey (cfg.listPh lk) e0.2.1) (e0.2.2 ++ enc64 new) = none := by
        rw [← h.fits e0 h0']; apply sizeErr_congr; simp
      have etake : (e0.2.2 ++ enc64 e0.1).take ((e0.2.2 ++ enc64 e0.1).length - 8) = e0.2.2 := by
        rw [List.length_append, enc64_length, Nat.add_sub_cancel, List.take_left]
      dsimp only [Option.map_some]
      rw [etake]
      have s1 : ItemsAs cfg lk m0 (m.upd (chainKey (cfg.listPh lk) new) (some (enc64 (cfg.ph (itemKey (cfg.listPh lk) e0.2.1)).toNat))) :=
        hs.other (fun k => itemKey_ne_chain _ _ _ _)
      have s2 := s1.move (k := e0.2.1) (v := e0.2.2) (i := e0.1) (j := new)
        (by rw [Map.upd_other _ _ (itemKey_ne_chain _ _ _ _)]; exact h.item e0 h0')
      have s3 := s2.other (key := chainKey (cfg.listPh lk) e0.1) (x := none) (fun k => itemKey_ne_chain _ _ _ _)
      rw [wp_bind, wp_setRaw, sizeErr_chain, h.chainFits hne]
      refine ⟨hs, s1, ?_⟩
      dsimp only [seqPost]
      rw [wp_bind, wp_setRaw, hfit]
      refine ⟨s1, s2, ?_⟩
      dsimp only [seqPost]
      rw [wp_bind, wp_removeRaw]
      refine ⟨s2, s3, ?_⟩
      dsimp only [seqPost]
      have hm := h.move_item h0' hlt hbig
      have hP' : ∃ P', P = e0 :: P' := by
        cases P with
        | nil => simp at h0
        | cons a l =>
          have hsort := h.sorted
          rw [List.cons_append, List.pairwise_cons] at hsort
          rcases List.mem_cons.1 h0 with rfl | h1
          · exact ⟨l, rfl⟩
          · have h2 := hsort.1 e0 (List.mem_append_left _ h1)
            have h3 := hP a (by simp)
            omega
      obtain ⟨P', rfl⟩ := hP'
      have hsort := h.sorted
      rw [List.cons_append, List.pairwise_cons] at hsort
      have hdrop : dropIdx (e0 :: P' ++ N) e0.1 = P' ++ N := by
        unfold dropIdx
        rw [List.cons_append, List.filter_cons_of_neg (by simp)]
        apply List.filter_eq_self.2
        intro e he
        have := hsort.1 e he
        simp; omega
      rw [hdrop, List.append_assoc] at hm
      rw [wp_bind]
      unfold idxSucc
      by_cases hx : new + 1 < U64
      · rw [if_pos hx]
        refine ⟨s3, ?_⟩
        dsimp only [seqPost]
        refine wp_compactIdx_keep (tail := tail) (m0 := m0) n (e0.1 + 1) (new + 1) P' (N ++ [(new, e0.2)]) _ hm s3 (by omega) ?_ ?_ ?_ hx
        · intro e he
          have h1 := hsort.1 e (List.mem_append_left _ he)
          have h2 := hP e (List.mem_cons_of_mem _ he)
          omega
        · intro e he
          rcases List.mem_append.1 he with he | he
          · have := hN e he; omega
          · rw [List.mem_singleton.1 he]; dsimp only; omega
        · omega
      · rw [if_neg hx]
        exact ⟨s3, s3⟩

/-- A crash inside `compact_list_if_needed`. -/
theorem listCompact_crash {cfg m m' lk s p} {par : CompactParams} (h : ListAbs cfg m lk s)
    (hx : AExec cfg m ((LOp.compact par).prog cfg lk) m' p) : ItemsAs cfg lk m m' := by
  obtain ⟨μ, L, h1, _⟩ := h
  have hs := ItemsAs.refl cfg lk m
  refine (wp.exec hx (Q := fun _ _ => True) (wp_tag_true (f := .flag) (Q := fun _ _ => True) ?_)).inv
  unfold compactList
  rw [wp_withLock]
  unfold compactListBody
  rw [wp_bind, wp_getRaw]
  refine ⟨hs, ?_⟩
  dsimp only [seqPost]
  rw [h1.record]
  cases μ with
  | none => exact ⟨hs, trivial⟩
  | some x =>
    have h2 := h1.span x rfl
    have h3 := h1.tail_lt x rfl
    dsimp only [Option.map_some]
    rw [wp_bind, wp_decMeta (by omega) h3 (by omega)]
    refine ⟨hs, ?_⟩
    dsimp only [seqPost]
    rw [if_neg (by omega)]
    by_cases c1 : x.tail - x.head < par.minLength
    · rw [if_pos c1]; exact ⟨hs, trivial⟩
    rw [if_neg c1, if_neg (by omega)]
    by_cases c2 : par.tooFew (x.tail - x.head - x.num) (x.tail - x.head) = true
    · rw [if_pos c2]; exact ⟨hs, trivial⟩
    rw [if_neg c2, wp_bind]
    have hloop := wp_compactIdx_keep (cfg := cfg) (lk := lk) (m0 := m) (tail := x.tail) (x.tail - x.head) x.head x.tail L [] m
      (by simpa using h1.items) hs (by omega) (h1.bnd x rfl) (by simp) (by omega) h3
    refine hloop.conseqI ?_
    intro m1 r hI _
    have hne : ∀ k, itemKey (cfg.listPh lk) k ≠ listKey lk := fun k e => listKey_ne_item lk _ k e.symm
    cases r with
    | ok new =>
      dsimp only [seqPost]
      split
      · rw [wp_bind, wp_removeRaw]
        exact ⟨hI, hI.other hne, hI.other hne, trivial⟩
      · rw [wp_bind, wp_setRaw]
        split
        · exact ⟨hI, trivial⟩
        · exact ⟨hI, hI.other hne, hI.other hne, trivial⟩
    | err => trivial
    | panic => trivial
    | exhausted => trivial

/-! ## `set_in_list_promoting` that is cut off -/

/-- A crash inside `set_in_list_promoting`: inside the removal, or inside the insertion that follows it. -/
theorem listPromote_crash {cfg m m' lk s p} {ik v : Bytes} (h : ListAbs cfg m lk s)
    (hx : AExec cfg m ((LOp.setPromoting ik v).prog cfg lk) m' p) :
    RemMid cfg lk m s.items ik m' ∨ ∃ μ L, LRep cfg m' lk μ L ∧ (vis L = s.items.erase ik ∨ vis L = s.items.erase ik ++ [(ik, v)]) := by
  obtain ⟨μ, L, h1, h2, _⟩ := h
  rw [← h2]
  refine (wp.exec hx (Q := fun _ _ => True) (I := fun m' => RemMid cfg lk m (vis L) ik m' ∨ ∃ μ' L', LRep cfg m' lk μ' L' ∧
    (vis L' = (vis L).erase ik ∨ vis L' = (vis L).erase ik ++ [(ik, v)])) (wp_tag_true (f := .setStatus) (Q := fun _ _ => True) ?_)).inv
  unfold setInList
  rw [if_pos rfl, wp_bind]
  unfold removeFromList
  rw [wp_withLock]
  refine wp.mono (I := RemMid cfg lk m (vis L) ik) (fun _ h => Or.inl h) (wp_removeMid ik h1) ?_
  rintro m1 r ⟨_, rfl, μ1, L1, g1, _, g2⟩
  dsimp only [seqPost]
  rw [wp_bind]
  unfold insertToList
  rw [wp_withLock]
  have hI : ∀ m2, InsInv cfg m1 lk μ1 L1 ik v .set m2 → RemMid cfg lk m (vis L) ik m2 ∨ ∃ μ' L', LRep cfg m2 lk μ' L' ∧
      (vis L' = (vis L).erase ik ∨ vis L' = (vis L).erase ik ++ [(ik, v)]) := by
    rintro m2 ⟨_, μ', L', q1, _, q2⟩
    refine Or.inr ⟨μ', L', q1, ?_⟩
    rw [g2] at q2
    rcases q2 with q2 | ⟨st, q2⟩
    · exact Or.inl q2
    · right
      have hg : ((vis L).erase ik).get ik = none := by
        unfold OList.get OList.erase
        rw [Option.map_eq_none_iff, List.find?_eq_none]
        intro x hx
        simpa using (List.mem_filter.1 hx).2
      unfold InsResult at q2
      rw [hg] at q2
      rw [q2.1]
      exact set_append hg
  refine wp.mono (I := InsInv cfg m1 lk μ1 L1 ik v .set) hI
    ((wp_insertToListBody ik v .set g1).conseqI (Q' := fun m2 _ => InsInv cfg m1 lk μ1 L1 ik v .set m2) (fun m2 r h _ => h)) ?_
  intro m2 r hh
  cases r with
  | ok st => cases st <;> exact ⟨hI _ hh, trivial⟩
  | err => trivial
  | panic => trivial
  | exhausted => trivial

end Candy
