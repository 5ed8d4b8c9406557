import Verif.Proofs.ListItems
/-!
# List operations refine insertion-ordered maps
-/
namespace Candy
open Spec LItems

/-- The raw keys that belong to a list. -/
def LFoot (cfg : Cfg) (lk : Bytes) (k : Bytes) : Prop :=
  k = listKey lk ∨ (∃ ik, k = itemKey (cfg.listPh lk) ik) ∨ (∃ i, k = chainKey (cfg.listPh lk) i)

/-- Nothing outside `P` differs. -/
def SameOutside (P : Bytes → Prop) (m m' : Map) : Prop := ∀ k, ¬ P k → m' k = m k

theorem SameOutside.refl (P : Bytes → Prop) (m : Map) : SameOutside P m m := fun _ _ => rfl
theorem SameOutside.trans {P : Bytes → Prop} {a b c : Map} (h1 : SameOutside P a b) (h2 : SameOutside P b c) :
    SameOutside P a c := fun k hk => (h2 k hk).trans (h1 k hk)
theorem SameOutside.upd {P : Bytes → Prop} {a b : Map} {k : Bytes} {x} (h : SameOutside P a b) (hk : P k) :
    SameOutside P a (b.upd k x) := fun k' hk' => by
  rw [Map.upd_other _ _ (by rintro rfl; exact hk' hk)]; exact h k' hk'

theorem LFoot.list (cfg lk) : LFoot cfg lk (listKey lk) := Or.inl rfl
theorem LFoot.item (cfg lk ik) : LFoot cfg lk (itemKey (cfg.listPh lk) ik) := Or.inr (Or.inl ⟨ik, rfl⟩)
theorem LFoot.chain (cfg lk i) : LFoot cfg lk (chainKey (cfg.listPh lk) i) := Or.inr (Or.inr ⟨i, rfl⟩)

/-- The raw map represents list `lk` with record `μ` and items `L`. -/
structure LRep (cfg : Cfg) (m : Map) (lk : Bytes) (μ : Option Meta) (L : List Entry) : Prop where
  items : LItems cfg m (cfg.listPh lk) L
  record : m (listKey lk) = μ.map (fun x => encMeta x.head x.tail x.num)
  nil : μ = none → L = []
  tail_lt : ∀ x, μ = some x → x.tail < U64
  cnt : ∀ x, μ = some x → L.length ≤ x.num
  span : ∀ x, μ = some x → x.num + x.head ≤ x.tail
  bnd : ∀ x, μ = some x → ∀ e ∈ L, x.head ≤ e.1 ∧ e.1 < x.tail
  fit : ∀ x, μ = some x → sizeErr cfg (listKey lk) (encMeta 0 0 0) = none

theorem LRep.upd_rec {cfg m lk μ L} (h : LRep cfg m lk μ L) {x : Meta} (h1 : x.tail < U64) (h2 : L.length ≤ x.num)
    (h3 : x.num + x.head ≤ x.tail) (h4 : ∀ e ∈ L, x.head ≤ e.1 ∧ e.1 < x.tail)
    (h5 : sizeErr cfg (listKey lk) (encMeta 0 0 0) = none) :
    LRep cfg (m.upd (listKey lk) (some (encMeta x.head x.tail x.num))) lk (some x) L := by
  refine ⟨h.items.upd_other (fun ik => listKey_ne_item lk _ ik) (fun i => listKey_ne_chain lk _ i), by simp, by simp, ?_, ?_, ?_, ?_, ?_⟩
    <;> (rintro _ ⟨⟩; assumption)

theorem sizeErr_rec {cfg : Cfg} {lk : Bytes} {h t n : Nat} : sizeErr cfg (listKey lk) (encMeta h t n) = sizeErr cfg (listKey lk) (encMeta 0 0 0) :=
  sizeErr_congr (by rw [encMeta_length, encMeta_length])

theorem sizeErr_chain {cfg : Cfg} {lph : PH} {i n : Nat} : sizeErr cfg (chainKey lph i) (enc64 n) = sizeErr cfg (chainKey lph 0) (enc64 0) :=
  sizeErr_congr' (by rw [chainKey_length, chainKey_length]) (by rw [enc64_length, enc64_length])

theorem sizeErr_item {cfg : Cfg} {lph : PH} {k v : Bytes} {i : Nat} : sizeErr cfg (itemKey lph k) (v ++ enc64 i) = sizeErr cfg (itemKey lph k) (v ++ enc64 0) :=
  sizeErr_congr (by simp)

/-- Everything stored for an item of this list is within the size limits. -/
def ListFits (cfg : Cfg) (lk ik v : Bytes) : Prop :=
  sizeErr cfg (listKey lk) (encMeta 0 0 0) = none ∧ sizeErr cfg (chainKey (cfg.listPh lk) 0) (enc64 0) = none ∧
  sizeErr cfg (itemKey (cfg.listPh lk) ik) (v ++ enc64 0) = none

/-- The record after appending an item. -/
def pushMeta : Option Meta → Meta
  | none => ⟨FIRST_IDX, FIRST_IDX + 1, 1⟩
  | some x => ⟨x.head, x.tail + 1, x.num + 1⟩
/-- The index of an appended item. -/
def nextIdx : Option Meta → Nat
  | none => FIRST_IDX
  | some x => x.tail

theorem wp_seq {cfg I} {α β : Type} {f : α → Prog β} {Q : Map → Res β → Prop} {p : Prog α} {m : Map} {R : Map → Res α → Prop}
    (h : wp cfg I p m R) (hR : ∀ m' r, R m' r → seqPost cfg I f Q m' r) : wp cfg I (p >>= f) m Q :=
  wp_bind.2 (h.conseq hR)

/-- What is true while a new item is being appended, and at the end. -/
def AppendInv (cfg : Cfg) (m : Map) (lk : Bytes) (μ : Option Meta) (L : List Entry) (ik v : Bytes) (m' : Map) : Prop :=
  SameOutside (LFoot cfg lk) m m' ∧
  ((∃ μ', (μ' = μ ∨ μ' = some (pushMeta μ)) ∧ LRep cfg m' lk μ' L) ∨
    LRep cfg m' lk (some (pushMeta μ)) (L ++ [(nextIdx μ, (ik, v))]))

/-- The end of appending an item: chain entry and item. -/
theorem wp_chainItem {cfg m lk μ L ik v} {m0 : Map} {Q : Map → Res ListIns → Prop} (h : LRep cfg m lk (some (pushMeta μ)) L)
    (hnew : ∀ e ∈ L, e.2.1 ≠ ik) (hbig : ∀ e ∈ L, e.1 < nextIdx μ) (hsame : SameOutside (LFoot cfg lk) m0 m)
    (hlt : nextIdx μ < U64) (hnx : nextIdx μ < (pushMeta μ).tail) (hcnt : L.length < (pushMeta μ).num) (hge : (pushMeta μ).head ≤ nextIdx μ)
    (hQe : ∀ m' e, SameOutside (LFoot cfg lk) m0 m' → LRep cfg m' lk (some (pushMeta μ)) L → ¬ ListFits cfg lk ik v → Q m' (.err e))
    (hQ : ∀ m', SameOutside (LFoot cfg lk) m0 m' → LRep cfg m' lk (some (pushMeta μ)) (L ++ [(nextIdx μ, (ik, v))]) →
      ListFits cfg lk ik v → Q m' (.ok (.created v))) :
    wp cfg (AppendInv cfg m0 lk μ L ik v) (do
      let _ ← setRaw (chainKey (cfg.listPh lk) (nextIdx μ)) (enc64 (cfg.ph (itemKey (cfg.listPh lk) ik)).toNat)
      let _ ← setRaw (itemKey (cfg.listPh lk) ik) (v ++ enc64 (nextIdx μ))
      return .created v) m Q := by
  have hI0 : AppendInv cfg m0 lk μ L ik v m := ⟨hsame, Or.inl ⟨_, Or.inr rfl, h⟩⟩
  rw [wp_bind, wp_setRaw, sizeErr_chain]
  refine ⟨hI0, ?_⟩
  cases hcf : sizeErr cfg (chainKey (cfg.listPh lk) 0) (enc64 0) with
  | some e => exact hQe m e hsame h (fun hf => by rw [hf.2.1] at hcf; simp at hcf)
  | none =>
    have hi1 := h.items.set_chain hlt (fun e he => by have := hbig e he; omega) (itemKey (cfg.listPh lk) ik)
    have hr1 : LRep cfg (m.upd (chainKey (cfg.listPh lk) (nextIdx μ)) (some (enc64 (cfg.ph (itemKey (cfg.listPh lk) ik)).toNat))) lk
        (some (pushMeta μ)) L :=
      ⟨hi1, by rw [Map.upd_other _ _ (listKey_ne_chain _ _ _)]; exact h.record, h.nil, h.tail_lt, h.cnt, h.span, h.bnd, h.fit⟩
    have hs1 := hsame.upd (x := some (enc64 (cfg.ph (itemKey (cfg.listPh lk) ik)).toNat)) (LFoot.chain cfg lk (nextIdx μ))
    have hI1 : AppendInv cfg m0 lk μ L ik v _ := ⟨hs1, Or.inl ⟨_, Or.inr rfl, hr1⟩⟩
    refine ⟨hI1, ?_⟩
    show wp cfg _ (setRaw _ _ >>= _) _ _
    rw [wp_bind, wp_setRaw, sizeErr_item]
    refine ⟨hI1, ?_⟩
    cases hif : sizeErr cfg (itemKey (cfg.listPh lk) ik) (v ++ enc64 0) with
    | some e => exact hQe _ e hs1 hr1 (fun hf => by rw [hf.2.2] at hif; simp at hif)
    | none =>
      have hi2 := hi1.set_item_new (v := v) hlt hbig hnew (by simp) (by rw [sizeErr_item]; exact hif) hcf
      have hr2 : LRep cfg ((m.upd (chainKey (cfg.listPh lk) (nextIdx μ)) (some (enc64 (cfg.ph (itemKey (cfg.listPh lk) ik)).toNat))).upd
          (itemKey (cfg.listPh lk) ik) (some (v ++ enc64 (nextIdx μ)))) lk (some (pushMeta μ)) (L ++ [(nextIdx μ, (ik, v))]) := by
        refine ⟨hi2, ?_, by simp, h.tail_lt, ?_, h.span, ?_, h.fit⟩
        · rw [Map.upd_other _ _ (listKey_ne_item _ _ _)]; exact hr1.record
        · rintro _ ⟨⟩; simp; omega
        · rintro _ ⟨⟩ e he
          rcases List.mem_append.1 he with he | he
          · exact h.bnd _ rfl e he
          · rw [List.mem_singleton.1 he]; exact ⟨hge, hnx⟩
      have hs2 := hs1.upd (x := some (v ++ enc64 (nextIdx μ))) (LFoot.item cfg lk ik)
      refine ⟨⟨hs2, Or.inr hr2⟩, ⟨hs2, Or.inr hr2⟩, hQ _ hs2 hr2 ⟨h.fit _ rfl, hcf, hif⟩⟩

/-- Appending a new item. -/
theorem wp_insertNew {cfg m lk μ L ik v} {Q : Map → Res ListIns → Prop} (h : LRep cfg m lk μ L) (hnew : ∀ e ∈ L, e.2.1 ≠ ik)
    (hQe : ∀ m' μ' e, SameOutside (LFoot cfg lk) m m' → (μ' = μ ∨ μ' = some (pushMeta μ)) → LRep cfg m' lk μ' L →
      ¬ ListFits cfg lk ik v → Q m' (.err e))
    (hQx : ∀ x, μ = some x → U64 ≤ x.tail + 1 → Q m .exhausted)
    (hQ : ∀ m', SameOutside (LFoot cfg lk) m m' → LRep cfg m' lk (some (pushMeta μ)) (L ++ [(nextIdx μ, (ik, v))]) →
      ListFits cfg lk ik v → Q m' (.ok (.created v))) :
    wp cfg (AppendInv cfg m lk μ L ik v) (insertNewItem cfg lk ik v) m Q := by
  have hI0 : AppendInv cfg m lk μ L ik v m := ⟨SameOutside.refl _ _, Or.inl ⟨μ, Or.inl rfl, h⟩⟩
  unfold insertNewItem
  rw [wp_bind, wp_gocRaw, sizeErr_rec]
  refine ⟨hI0, ?_⟩
  cases hmf : sizeErr cfg (listKey lk) (encMeta 0 0 0) with
  | some e => exact hQe m μ e (SameOutside.refl _ _) (Or.inl rfl) h (fun hf => by rw [hf.1] at hmf; simp at hmf)
  | none =>
    cases hμ : μ with
    | none =>
      subst hμ
      have hL := h.nil rfl
      subst hL
      have hm : m (listKey lk) = none := h.record
      rw [hm]
      have hr1 : LRep cfg (m.upd (listKey lk) (some (encMeta FIRST_IDX (FIRST_IDX + 1) 1))) lk (some (pushMeta none)) [] :=
        h.upd_rec (x := pushMeta none) (by decide) (by simp) (by decide) (by simp) hmf
      have hs1 : SameOutside (LFoot cfg lk) m (m.upd (listKey lk) (some (encMeta FIRST_IDX (FIRST_IDX + 1) 1))) :=
        (SameOutside.refl _ _).upd (LFoot.list cfg lk)
      refine ⟨⟨hs1, Or.inl ⟨_, Or.inr rfl, hr1⟩⟩, ?_⟩
      exact wp_chainItem (μ := none) hr1 (by simp) (by simp) hs1 (by decide) (by decide) (by decide) (by decide)
        (fun m' e a b c => hQe m' _ e a (Or.inr rfl) b c) hQ
    | some x =>
      subst hμ
      have hm : m (listKey lk) = some (encMeta x.head x.tail x.num) := h.record
      have hsp := h.span x rfl
      have htl := h.tail_lt x rfl
      rw [hm]
      simp only [Option.getD_some]
      have hself : m.upd (listKey lk) (some (encMeta x.head x.tail x.num)) = m := by rw [← hm]; exact m.upd_self _
      rw [hself]
      refine ⟨hI0, ?_⟩
      show wp cfg _ (decMeta _ >>= _) _ _
      rw [wp_bind, wp_decMeta (by omega) htl (by omega)]
      refine ⟨hI0, ?_⟩
      show wp cfg _ (idxSucc x.tail >>= _) _ _
      unfold idxSucc
      by_cases ht : x.tail + 1 < U64
      · rw [if_pos ht, wp_bind]
        refine ⟨hI0, ?_⟩
        dsimp only [seqPost]
        rw [if_pos (by omega), wp_bind]
        refine ⟨hI0, ?_⟩
        dsimp only [seqPost]
        rw [wp_bind, wp_setRaw, sizeErr_rec, hmf]
        have hr1 : LRep cfg (m.upd (listKey lk) (some (encMeta x.head (x.tail + 1) (x.num + 1)))) lk (some (pushMeta (some x))) L :=
          h.upd_rec (x := pushMeta (some x)) ht (by have := h.cnt x rfl; simp only [pushMeta]; omega) (by simp only [pushMeta]; omega)
            (fun e he => by have := h.bnd x rfl e he; simp only [pushMeta]; omega) hmf
        have hs1 : SameOutside (LFoot cfg lk) m (m.upd (listKey lk) (some (encMeta x.head (x.tail + 1) (x.num + 1)))) :=
          (SameOutside.refl _ _).upd (LFoot.list cfg lk)
        refine ⟨hI0, ⟨hs1, Or.inl ⟨_, Or.inr rfl, hr1⟩⟩, ?_⟩
        exact wp_chainItem (μ := some x) hr1 hnew (fun e he => (h.bnd x rfl e he).2) hs1 htl (by simp [pushMeta, nextIdx])
          (by have := h.cnt x rfl; simp only [pushMeta]; omega) (by simp only [pushMeta, nextIdx]; omega)
          (fun m' e a b c => hQe m' _ e a (Or.inr rfl) b c) hQ
      · rw [if_neg ht]
        exact ⟨hI0, hQx x rfl (by omega)⟩

end Candy
