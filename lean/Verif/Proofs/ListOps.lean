import Verif.Proofs.ListVis
/-!
# List operations: insertion and removal
-/
namespace Candy
open Spec LItems

/-- The length in the record is the number of items. -/
def Exact (μ : Option Meta) (L : List Entry) : Prop := ∀ x, μ = some x → x.num = L.length

/-- The index space of the list has been used up: the next index would be 2^64. -/
def Full (μ : Option Meta) : Prop := ∃ x, μ = some x ∧ U64 ≤ x.tail + 1

/-- At most `n` indices have been used. -/
def Used (μ : Option Meta) (n : Nat) : Prop := ∀ x, μ = some x → x.tail ≤ FIRST_IDX + n

/-- What happens to the counter and the indices: an exact length stays exact, at most `k` more indices are used. -/
def Evolves (k : Nat) (μ : Option Meta) (L : List Entry) (μ' : Option Meta) (L' : List Entry) : Prop :=
  (Exact μ L → Exact μ' L') ∧ ∀ n, Used μ n → Used μ' (n + k)

theorem Evolves.refl (k : Nat) (μ : Option Meta) (L : List Entry) : Evolves k μ L μ L :=
  ⟨id, fun n h x e => by have := h x e; omega⟩

theorem Used.push {μ : Option Meta} {n : Nat} (h : Used μ n) : Used (some (pushMeta μ)) (n + 1) := by
  rintro _ ⟨⟩
  cases μ with
  | none => simp only [pushMeta]; omega
  | some x => have := h x rfl; simp only [pushMeta]; omega

/-- New items and result of an insertion. -/
def InsResult (l : OList) (ik v : Bytes) (mode : Mode) (l' : OList) (st : ListIns) : Prop :=
  match l.get ik, mode with
  | none, .replace _ => l' = l ∧ st = .doesNotExist
  | none, _ => l' = l.set ik v ∧ st = .created v
  | some old, .getOrCreate => l' = l ∧ st = .existingValue old
  | some old, .replace (some e) => (l' = l ∧ st = .wrongValue old) ∨ (e.length = 8 ∧ l' = l.set ik v ∧ st = .replaced old)
  | some old, _ => l' = l.set ik v ∧ st = .replaced old

/-- At every moment of an insertion the list shows the old items, or those the insertion is going to leave. -/
def InsInv (cfg : Cfg) (m : Map) (lk : Bytes) (μ : Option Meta) (L : List Entry) (ik v : Bytes) (mode : Mode) (m' : Map) : Prop :=
  SameOutside (LFoot cfg lk) m m' ∧ ∃ μ' L', LRep cfg m' lk μ' L' ∧ (∀ n, Used μ n → Used μ' (n + 1)) ∧
    (vis L' = vis L ∨ ∃ st, InsResult (vis L) ik v mode (vis L') st)

/-- Postcondition of an insertion. -/
def InsPost (cfg : Cfg) (m : Map) (lk : Bytes) (μ : Option Meta) (L : List Entry) (ik v : Bytes) (mode : Mode) (m' : Map) (r : Res ListIns) : Prop :=
  SameOutside (LFoot cfg lk) m m' ∧
  match r with
  | .ok st => ∃ μ' L', LRep cfg m' lk μ' L' ∧ Evolves 1 μ L μ' L' ∧ InsResult (vis L) ik v mode (vis L') st
  | .err _ => ¬ ListFits cfg lk ik v ∧ ∃ μ', LRep cfg m' lk μ' L ∧ ∀ n, Used μ n → Used μ' (n + 1)
  | .panic => False
  | .exhausted => Full μ ∧ LRep cfg m' lk μ L

theorem InsInv.start {cfg m lk μ L} (h : LRep cfg m lk μ L) (ik v : Bytes) (mode : Mode) : InsInv cfg m lk μ L ik v mode m :=
  ⟨SameOutside.refl _ _, μ, L, h, (Evolves.refl 1 μ L).2, Or.inl rfl⟩

theorem AppendInv.toIns {cfg m lk μ L ik v mode m'} (hnew : byKey L ik = none) (hmode : mode = .set ∨ mode = .getOrCreate)
    (h : AppendInv cfg m lk μ L ik v m') : InsInv cfg m lk μ L ik v mode m' := by
  refine ⟨h.1, ?_⟩
  rcases h.2 with ⟨μ', hμ, hr⟩ | hr
  · refine ⟨μ', L, hr, ?_, Or.inl rfl⟩
    rcases hμ with rfl | rfl
    · exact (Evolves.refl 1 μ' L).2
    · exact fun n hn => hn.push
  · refine ⟨_, _, hr, fun n hn => hn.push, Or.inr ⟨.created v, ?_⟩⟩
    unfold InsResult
    rw [vis_get, hnew, vis_new hnew]
    rcases hmode with rfl | rfl <;> exact ⟨rfl, rfl⟩

theorem LRep.setVal {cfg m lk μ L} (h : LRep cfg m lk μ L) {e0 : Entry} (h0 : e0 ∈ L) {v : Bytes}
    (hfit : sizeErr cfg (itemKey (cfg.listPh lk) e0.2.1) (v ++ enc64 e0.1) = none) :
    LRep cfg (m.upd (itemKey (cfg.listPh lk) e0.2.1) (some (v ++ enc64 e0.1))) lk μ (setVal L e0.2.1 v) := by
  refine ⟨h.items.set_item_val h0 hfit, ?_, ?_, h.tail_lt, ?_, h.span, ?_, h.fit⟩
  · rw [Map.upd_other _ _ (listKey_ne_item _ _ _)]; exact h.record
  · intro e; have := h.nil e; subst this; rfl
  · intro x hx; have := h.cnt x hx; simpa [LItems.setVal] using this
  · intro x hx e he
    obtain ⟨e', he', rfl⟩ := mem_setVal.1 he
    have := h.bnd x hx e' he'
    split <;> exact this

theorem byKey_isSome {L : List Entry} {k : Bytes} {e} (h : byKey L k = some e) : (byKey L k).isSome := by rw [h]; rfl

/-- `replace_raw` of an existing item. -/
theorem wp_updateVal {cfg m lk μ L ik v} {e0 : Entry} (h : LRep cfg m lk μ L) (hb : byKey L ik = some e0)
    {Q : Map → Res ListIns → Prop} {st : ListIns} {mode : Mode} (hm : mode = .set ∨ ∃ e, mode = .replace e ∧ (e = none ∨ e = some (enc64 e0.1)))
    (hQe : ∀ e, ¬ ListFits cfg lk ik v → Q m (.err e))
    (hQ : LRep cfg (m.upd (itemKey (cfg.listPh lk) ik) (some (v ++ enc64 e0.1))) lk μ (LItems.setVal L ik v) →
      Q (m.upd (itemKey (cfg.listPh lk) ik) (some (v ++ enc64 e0.1))) (.ok st)) :
    wp cfg (InsInv cfg m lk μ L ik v mode) (do
      let _ ← replaceRaw (itemKey (cfg.listPh lk) ik) (v ++ enc64 e0.1) none
      return st) m Q := by
  obtain ⟨h0, hk⟩ := byKey_some hb
  have hI0 : InsInv cfg m lk μ L ik v mode m := InsInv.start h ik v mode
  rw [wp_bind, wp_replaceRaw]
  refine ⟨hI0, ?_⟩
  cases hs : sizeErr cfg (itemKey (cfg.listPh lk) ik) (v ++ enc64 e0.1) with
  | some e => exact hQe e (fun hf => by rw [sizeErr_item, hf.2.2] at hs; simp at hs)
  | none =>
    have hmk : m (itemKey (cfg.listPh lk) ik) = some (e0.2.2 ++ enc64 e0.1) := by rw [← hk]; exact h.items.item e0 h0
    subst hk
    have hr := h.setVal h0 hs
    have hI1 : InsInv cfg m lk μ L e0.2.1 v mode (m.upd (itemKey (cfg.listPh lk) e0.2.1) (some (v ++ enc64 e0.1))) := by
      refine ⟨(SameOutside.refl _ _).upd (LFoot.item cfg lk _), μ, _, hr, (Evolves.refl 1 μ L).2, Or.inr ⟨.replaced e0.2.2, ?_⟩⟩
      unfold InsResult
      rw [vis_get, hb, vis_setVal (byKey_isSome hb)]
      rcases hm with rfl | ⟨e, rfl, rfl | rfl⟩
      · exact ⟨rfl, rfl⟩
      · exact ⟨rfl, rfl⟩
      · exact Or.inr ⟨by simp, rfl, rfl⟩
    have he : (replaceOf (m (itemKey (cfg.listPh lk) e0.2.1)) (v ++ enc64 e0.1) none).1 = some (v ++ enc64 e0.1) := by
      rw [hmk]; rfl
    dsimp only
    rw [he]
    exact ⟨hI1, hI1, hQ hr⟩

/-- `_insert_to_list`. -/
theorem wp_insertToListBody {cfg m lk μ L} (ik v : Bytes) (mode : Mode) (h : LRep cfg m lk μ L) :
    wp cfg (InsInv cfg m lk μ L ik v mode) (insertToListBody cfg lk ik v mode) m (InsPost cfg m lk μ L ik v mode) := by
  have hI0 : InsInv cfg m lk μ L ik v mode m := InsInv.start h ik v mode
  unfold insertToListBody
  rw [wp_bind, wp_getRaw]
  refine ⟨hI0, ?_⟩
  dsimp only [seqPost]
  rw [h.items.get_item]
  cases hb : byKey L ik with
  | none =>
    have hg : (vis L).get ik = none := by rw [vis_get, hb]; rfl
    have new : (mode = .set ∨ mode = .getOrCreate) → wp cfg (InsInv cfg m lk μ L ik v mode) (insertNewItem cfg lk ik v) m (InsPost cfg m lk μ L ik v mode) := by
      intro hmode
      refine wp.mono (I := AppendInv cfg m lk μ L ik v) (fun m' => AppendInv.toIns hb hmode) ?_ (fun m r hq => hq)
      apply wp_insertNew h (byKey_none hb)
      · intro m' μ' e h1 h2 h3 h4
        refine ⟨h1, h4, μ', h3, fun n hn => ?_⟩
        rcases h2 with rfl | rfl
        · exact (Evolves.refl 1 μ' L).2 n hn
        · exact hn.push
      · intro x hx ht; exact ⟨SameOutside.refl _ _, ⟨x, hx, ht⟩, h⟩
      · intro m' h1 h2 h3
        refine ⟨h1, _, _, h2, ?_, ?_⟩
        · refine ⟨?_, fun n hn => hn.push⟩
          rintro hx _ ⟨⟩
          cases μ with
          | none => have := h.nil rfl; subst this; rfl
          | some x => have := hx x rfl; simp [pushMeta, this]
        · unfold InsResult; rw [hg, vis_new hb]
          rcases hmode with rfl | rfl <;> exact ⟨rfl, rfl⟩
    cases mode with
    | replace e =>
      refine ⟨hI0, SameOutside.refl _ _, μ, L, h, Evolves.refl _ _ _, ?_⟩
      unfold InsResult; rw [hg]; exact ⟨rfl, rfl⟩
    | set => exact new (Or.inl rfl)
    | getOrCreate => exact new (Or.inr rfl)
  | some e0 =>
    have hg : (vis L).get ik = some e0.2.2 := by rw [vis_get, hb]; rfl
    have hlt := h.items.lt e0 (byKey_some hb).1
    dsimp only [Option.map_some]
    unfold updateItem
    rw [splitVal_append]
    rw [wp_bind]
    refine ⟨hI0, ?_⟩
    dsimp only [seqPost]
    have upd : (mode = .set ∨ ∃ e, mode = .replace e ∧ (e = none ∨ e = some (enc64 e0.1))) →
        wp cfg (InsInv cfg m lk μ L ik v mode) (do
          let _ ← replaceRaw (itemKey (cfg.listPh lk) ik) (v ++ enc64 e0.1) none
          return .replaced e0.2.2) m (InsPost cfg m lk μ L ik v mode) := by
      intro hm
      apply wp_updateVal h hb hm
      · intro e he; exact ⟨SameOutside.refl _ _, he, μ, h, (Evolves.refl 1 μ L).2⟩
      · intro hr
        refine ⟨(SameOutside.refl _ _).upd (LFoot.item cfg lk _), μ, _, hr, ?_, ?_⟩
        · exact ⟨fun hx x e => by have := hx x e; simpa [LItems.setVal] using this, (Evolves.refl 1 μ L).2⟩
        · unfold InsResult
          rw [hg, vis_setVal (byKey_isSome hb)]
          rcases hm with rfl | ⟨e, rfl, rfl | rfl⟩
          · exact ⟨rfl, rfl⟩
          · exact ⟨rfl, rfl⟩
          · exact Or.inr ⟨by simp, rfl, rfl⟩
    cases mode with
    | getOrCreate =>
      refine ⟨hI0, SameOutside.refl _ _, μ, L, h, Evolves.refl _ _ _, ?_⟩
      unfold InsResult; rw [hg]; exact ⟨rfl, rfl⟩
    | set => exact upd (Or.inl rfl)
    | replace e =>
      cases e with
      | none => exact upd (Or.inr ⟨none, rfl, Or.inl rfl⟩)
      | some e =>
        dsimp only
        by_cases he : e = enc64 e0.1
        · rw [if_neg (by simp [he])]
          exact upd (Or.inr ⟨some e, rfl, Or.inr (by rw [he])⟩)
        · rw [if_pos he]
          refine ⟨hI0, SameOutside.refl _ _, μ, L, h, Evolves.refl _ _ _, ?_⟩
          unfold InsResult; rw [hg]; exact Or.inl ⟨rfl, rfl⟩

/-! ### Removal -/

/-- The record after removing the item at `idx`. -/
def dropMeta (x : Meta) (idx : Nat) : Option Meta :=
  if x.head = idx then (if x.head + 1 = x.tail then none else some ⟨x.head + 1, x.tail, x.num - 1⟩)
  else if x.tail = idx + 1 then (if x.head = x.tail - 1 then none else some ⟨x.head, x.tail - 1, x.num - 1⟩)
  else (if x.head = x.tail then none else some ⟨x.head, x.tail, x.num - 1⟩)

theorem dropMeta_none {x : Meta} {idx : Nat} (h : dropMeta x idx = none) (h1 : x.head ≤ idx) (h2 : idx < x.tail) :
    ∀ i, x.head ≤ i → i < x.tail → i = idx := by
  intro i h3 h4
  unfold dropMeta at h
  split at h
  · split at h
    · omega
    · simp at h
  · split at h
    · split at h
      · omega
      · simp at h
    · split at h
      · omega
      · simp at h

theorem dropMeta_some {x y : Meta} {idx : Nat} (h : dropMeta x idx = some y) (h1 : x.head ≤ idx) (h2 : idx < x.tail) (h3 : 0 < x.num)
    (h4 : x.num + x.head ≤ x.tail) :
    y.num = x.num - 1 ∧ y.tail ≤ x.tail ∧ y.num + y.head ≤ y.tail ∧
      ∀ i, x.head ≤ i → i < x.tail → i ≠ idx → y.head ≤ i ∧ i < y.tail := by
  unfold dropMeta at h
  split at h
  · split at h
    · simp at h
    · simp only [Option.some.injEq] at h
      subst h; dsimp only
      exact ⟨rfl, Nat.le_refl _, by omega, fun i _ _ _ => by omega⟩
  · split at h
    · split at h
      · simp at h
      · simp only [Option.some.injEq] at h
        subst h; dsimp only
        exact ⟨rfl, by omega, by omega, fun i _ _ _ => by omega⟩
    · split at h
      · simp at h
      · simp only [Option.some.injEq] at h
        subst h; dsimp only
        exact ⟨rfl, by omega, by omega, fun i _ _ _ => by omega⟩

theorem LRep.drop {cfg m lk x L} (h : LRep cfg m lk (some x) L) {e0 : Entry} (h0 : e0 ∈ L) :
    LRep cfg (((m.upd (listKey lk) ((dropMeta x e0.1).map (fun x => encMeta x.head x.tail x.num))).upd (chainKey (cfg.listPh lk) e0.1) none).upd
      (itemKey (cfg.listPh lk) e0.2.1) none) lk (dropMeta x e0.1) (dropIdx L e0.1) := by
  have hb := h.bnd x rfl e0 h0
  have hlen := dropIdx_length h.items h0
  have hc := h.cnt x rfl
  have hsp := h.span x rfl
  have htl := h.tail_lt x rfl
  have h1 := h.items.upd_other (k := listKey lk) (x := (dropMeta x e0.1).map (fun x => encMeta x.head x.tail x.num))
    (fun ik => listKey_ne_item lk _ ik) (fun i => listKey_ne_chain lk _ i)
  have h2 := h1.remove_item h0
  have hmem : ∀ e ∈ dropIdx L e0.1, x.head ≤ e.1 ∧ e.1 < x.tail ∧ e.1 ≠ e0.1 := by
    intro e he
    obtain ⟨h3, h4⟩ := mem_dropIdx.1 he
    exact ⟨(h.bnd x rfl e h3).1, (h.bnd x rfl e h3).2, h4⟩
  have hd : ∀ y, dropMeta x e0.1 = some y → _ := fun y hy => dropMeta_some hy hb.1 hb.2 (by omega) hsp
  refine ⟨h2, ?_, ?_, ?_, ?_, ?_, ?_, ?_⟩
  · rw [Map.upd_other _ _ (listKey_ne_item _ _ _), Map.upd_other _ _ (listKey_ne_chain _ _ _)]; simp
  · intro hn
    apply List.eq_nil_iff_forall_not_mem.2
    intro e he
    have := hmem e he
    exact this.2.2 (dropMeta_none hn hb.1 hb.2 e.1 this.1 this.2.1)
  · intro y hy; have := (hd y hy).2.1; omega
  · intro y hy; have := (hd y hy).1; omega
  · intro y hy; exact (hd y hy).2.2.1
  · intro y hy e he
    have := hmem e he
    exact (hd y hy).2.2.2 e.1 this.1 this.2.1 this.2.2
  · intro y _; exact h.fit x rfl

/-- The update of the list record by a removal. -/
theorem wp_removeMeta {cfg m lk x L} (h : LRep cfg m lk (some x) L) {e0 : Entry} (h0 : e0 ∈ L) {I : Map → Prop} {Q : Map → Res Unit → Prop}
    (hI0 : I m) (hI1 : I (m.upd (listKey lk) ((dropMeta x e0.1).map (fun x => encMeta x.head x.tail x.num))))
    (hQ : Q (m.upd (listKey lk) ((dropMeta x e0.1).map (fun x => encMeta x.head x.tail x.num))) (.ok ())) :
    wp cfg I (removeMeta lk e0.1 (encMeta x.head x.tail x.num)) m Q := by
  have hb := h.bnd x rfl e0 h0
  have hlen := dropIdx_length h.items h0
  have hc := h.cnt x rfl
  have hsp := h.span x rfl
  have htl := h.tail_lt x rfl
  unfold removeMeta
  rw [wp_bind, wp_decMeta (by omega) htl (by omega)]
  refine ⟨hI0, ?_⟩
  dsimp only [seqPost]
  rw [wp_bind]
  unfold numPred
  rw [if_pos (by omega)]
  refine ⟨hI0, ?_⟩
  dsimp only [seqPost]
  have fin : ∀ (hd tl : Nat), (if hd = tl then none else some (⟨hd, tl, x.num - 1⟩ : Meta)) = dropMeta x e0.1 →
      wp cfg I (if hd = tl then (do
          let _ ← Prog.removeRaw (listKey lk)
          return ())
        else do
          let _ ← setRaw (listKey lk) (encMeta hd tl (x.num - 1))
          return () : Prog Unit) m Q := by
    intro hd tl he
    rw [← he] at hQ hI1
    by_cases heq : hd = tl
    · rw [if_pos heq] at hQ hI1 ⊢
      rw [wp_bind, wp_removeRaw]
      exact ⟨hI0, hI1, hI1, hQ⟩
    · rw [if_neg heq] at hQ hI1 ⊢
      rw [wp_bind, wp_setRaw, sizeErr_rec, h.fit x rfl]
      exact ⟨hI0, hI1, hI1, hQ⟩
  by_cases ha : x.head = e0.1
  · have hna : ¬ (x.head ≠ e0.1 ∧ x.tail = e0.1 + 1) := fun hh => hh.1 ha
    rw [if_pos ha, wp_bind]
    unfold idxSucc
    rw [if_pos (by omega)]
    refine ⟨hI0, ?_⟩
    dsimp only [seqPost]
    rw [if_neg hna]
    refine fin _ _ ?_
    unfold dropMeta
    rw [if_pos ha]
  · rw [if_neg ha]
    by_cases hb : x.tail = e0.1 + 1
    · show wp cfg I (if x.head ≠ e0.1 ∧ x.tail = e0.1 + 1 then _ else _) m Q
      rw [if_pos ⟨ha, hb⟩, wp_bind]
      unfold idxPred
      rw [if_pos (by omega)]
      refine ⟨hI0, ?_⟩
      dsimp only [seqPost]
      refine fin _ _ ?_
      unfold dropMeta
      rw [if_neg ha, if_pos hb]
    · show wp cfg I (if x.head ≠ e0.1 ∧ x.tail = e0.1 + 1 then _ else _) m Q
      rw [if_neg (fun hh => hb hh.2)]
      refine fin _ _ ?_
      unfold dropMeta
      rw [if_neg ha, if_neg hb]

attribute [local irreducible] removeMeta

/-- The maps passed through while the item `e0` is removed. -/
def dropMap1 (cfg : Cfg) (m : Map) (lk : Bytes) (x : Meta) (e0 : Entry) : Map :=
  m.upd (listKey lk) ((dropMeta x e0.1).map (fun x => encMeta x.head x.tail x.num))
def dropMap2 (cfg : Cfg) (m : Map) (lk : Bytes) (x : Meta) (e0 : Entry) : Map :=
  (dropMap1 cfg m lk x e0).upd (chainKey (cfg.listPh lk) e0.1) none
def dropMap3 (cfg : Cfg) (m : Map) (lk : Bytes) (x : Meta) (e0 : Entry) : Map :=
  (dropMap2 cfg m lk x e0).upd (itemKey (cfg.listPh lk) e0.2.1) none

/-- Postcondition of a removal. -/
def RemPost (cfg : Cfg) (m : Map) (lk : Bytes) (μ : Option Meta) (L : List Entry) (ik : Bytes) (m' : Map) (r : Res (Option Bytes)) : Prop :=
  SameOutside (LFoot cfg lk) m m' ∧ r = .ok ((vis L).get ik) ∧
  ∃ μ' L', LRep cfg m' lk μ' L' ∧ Evolves 0 μ L μ' L' ∧ vis L' = (vis L).erase ik

theorem erase_absent {l : OList} {k : Bytes} (h : l.get k = none) : l.erase k = l := by
  unfold OList.erase OList.get at *
  rw [Option.map_eq_none_iff, List.find?_eq_none] at h
  apply List.filter_eq_self.2
  intro p hp
  have := h p hp
  simpa using this

/-- `owned_remove_from_list`, with what is true at every moment. -/
theorem wp_removeBody {cfg m lk μ L} (ik : Bytes) (h : LRep cfg m lk μ L) {I : Map → Prop} (hI0 : I m)
    (hI : ∀ x e0, μ = some x → e0 ∈ L → e0.2.1 = ik → I (dropMap1 cfg m lk x e0) ∧ I (dropMap2 cfg m lk x e0) ∧ I (dropMap3 cfg m lk x e0)) :
    wp cfg I (removeFromListBody cfg lk ik) m (RemPost cfg m lk μ L ik) := by
  unfold removeFromListBody
  rw [wp_bind, wp_getRaw]
  refine ⟨hI0, ?_⟩
  dsimp only [seqPost]
  rw [h.items.get_item]
  cases hb : byKey L ik with
  | none =>
    have hg : (vis L).get ik = none := by rw [vis_get, hb]; rfl
    refine ⟨hI0, SameOutside.refl _ _, by rw [hg], μ, L, h, Evolves.refl _ _ _, (erase_absent hg).symm⟩
  | some e0 =>
    have hg : (vis L).get ik = some e0.2.2 := by rw [vis_get, hb]; rfl
    obtain ⟨h0, hk⟩ := byKey_some hb
    have hlt := h.items.lt e0 h0
    dsimp only [Option.map_some]
    rw [splitVal_append, wp_bind]
    refine ⟨hI0, ?_⟩
    dsimp only [seqPost]
    rw [dec64_enc64_of_lt hlt, wp_bind, wp_getRaw]
    refine ⟨hI0, ?_⟩
    dsimp only [seqPost]
    cases μ with
    | none => have := h.nil rfl; subst this; simp at h0
    | some x =>
      rw [show m (listKey lk) = some (encMeta x.head x.tail x.num) from h.record]
      have i1 := (hI x e0 rfl h0 hk).1
      have i2 := (hI x e0 rfl h0 hk).2.1
      have i3 := (hI x e0 rfl h0 hk).2.2
      dsimp only
      rw [wp_bind]
      apply wp_removeMeta h h0 hI0 i1
      dsimp only [seqPost]
      rw [wp_bind, wp_removeRaw]
      refine ⟨i1, i2, ?_⟩
      dsimp only [seqPost]
      rw [wp_bind, wp_removeRaw, ← hk]
      refine ⟨i2, i3, ?_⟩
      dsimp only [seqPost]
      rw [wp_pure]
      refine ⟨i3, ?_⟩
      refine ⟨?_, ?_, dropMeta x e0.1, dropIdx L e0.1, h.drop h0, ?_, ?_⟩
      · exact (((SameOutside.refl _ _).upd (LFoot.list cfg lk)).upd (LFoot.chain cfg lk _)).upd (LFoot.item cfg lk _)
      · rw [hk, hg]
      · have h2 := dropIdx_length h.items h0
        have hb := h.bnd x rfl e0 h0
        have hc := h.cnt x rfl
        constructor
        · intro hx y hy
          have h1 := hx x rfl
          have := (dropMeta_some hy hb.1 hb.2 (by omega) (h.span x rfl)).1
          omega
        · intro n hn y hy
          have h1 := hn x rfl
          have := (dropMeta_some hy hb.1 hb.2 (by omega) (h.span x rfl)).2.1
          omega
      · exact vis_dropIdx h.items h0

end Candy
