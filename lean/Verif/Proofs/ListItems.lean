import Verif.Proofs.Keys
import Verif.Spec.Lists
/-!
# How the items of a list are represented in the raw map
-/
namespace Candy
open Spec

/-- One item of a list: index, key, value. -/
abbrev Entry := Nat × KV

/-- The raw map holds exactly the items `L` for the list with hash `lph`: each item under its key with its index as suffix, and a
chain entry from the index to the item's hash. There may be left-over chain entries. -/
structure LItems (cfg : Cfg) (m : Map) (lph : PH) (L : List Entry) : Prop where
  sorted : L.Pairwise (fun a b => a.1 < b.1)
  lt : ∀ e ∈ L, e.1 < U64
  item : ∀ e ∈ L, m (itemKey lph e.2.1) = some (e.2.2 ++ enc64 e.1)
  chain : ∀ e ∈ L, m (chainKey lph e.1) = some (enc64 (cfg.ph (itemKey lph e.2.1)).toNat)
  only : ∀ k x, m (itemKey lph k) = some x → ∃ e ∈ L, e.2.1 = k
  chainVal : ∀ i x, i < U64 → m (chainKey lph i) = some x → ∃ k, x = enc64 (cfg.ph k).toNat
  fits : ∀ e ∈ L, sizeErr cfg (itemKey lph e.2.1) (e.2.2 ++ enc64 e.1) = none
  chainFits : L ≠ [] → sizeErr cfg (chainKey lph 0) (enc64 0) = none

namespace LItems
variable {cfg : Cfg} {m : Map} {lph : PH} {L : List Entry}

theorem congr (h : LItems cfg m lph L) {m' : Map} (h1 : ∀ k, m' (itemKey lph k) = m (itemKey lph k))
    (h2 : ∀ i, m' (chainKey lph i) = m (chainKey lph i)) : LItems cfg m' lph L := by
  constructor
  · exact h.sorted
  · exact h.lt
  · intro e he; rw [h1]; exact h.item e he
  · intro e he; rw [h2]; exact h.chain e he
  · intro k x hx; rw [h1] at hx; exact h.only k x hx
  · intro i x hi hx; rw [h2] at hx; exact h.chainVal i x hi hx
  · exact h.fits
  · exact h.chainFits

theorem idx_unique (h : LItems cfg m lph L) {e e' : Entry} (he : e ∈ L) (he' : e' ∈ L) (hi : e.1 = e'.1) : e = e' := by
  have hs := h.sorted
  clear h
  induction L with
  | nil => simp at he
  | cons a l ih =>
    rw [List.pairwise_cons] at hs
    rcases List.mem_cons.1 he with rfl | h1 <;> rcases List.mem_cons.1 he' with rfl | h2
    · rfl
    · have := hs.1 _ h2; omega
    · have := hs.1 _ h1; omega
    · exact ih h1 h2 hs.2

theorem key_unique (h : LItems cfg m lph L) {e e' : Entry} (he : e ∈ L) (he' : e' ∈ L) (hk : e.2.1 = e'.2.1) : e = e' := by
  apply h.idx_unique he he'
  have h1 := h.item e he
  have h2 := h.item e' he'
  rw [hk, h2] at h1
  simp only [Option.some.injEq] at h1
  exact enc64_inj (h.lt e he) (h.lt e' he') (List.append_inj' h1 (by simp)).2.symm

/-- An item, by key. -/
def byKey (L : List Entry) (k : Bytes) : Option Entry := L.find? (fun e => decide (e.2.1 = k))
/-- An item, by index. -/
def byIdx (L : List Entry) (i : Nat) : Option Entry := L.find? (fun e => decide (e.1 = i))

theorem byKey_some {k : Bytes} {e : Entry} (h : byKey L k = some e) : e ∈ L ∧ e.2.1 = k :=
  ⟨List.mem_of_find?_eq_some h, by have := List.find?_some h; simpa using this⟩
theorem byKey_none {k : Bytes} (h : byKey L k = none) : ∀ e ∈ L, e.2.1 ≠ k := by
  intro e he hk
  have := List.find?_eq_none.1 h e he
  simp [hk] at this
theorem byIdx_some {i : Nat} {e : Entry} (h : byIdx L i = some e) : e ∈ L ∧ e.1 = i :=
  ⟨List.mem_of_find?_eq_some h, by have := List.find?_some h; simpa using this⟩
theorem byIdx_none {i : Nat} (h : byIdx L i = none) : ∀ e ∈ L, e.1 ≠ i := by
  intro e he hk
  have := List.find?_eq_none.1 h e he
  simp [hk] at this

theorem get_item (h : LItems cfg m lph L) (k : Bytes) : m (itemKey lph k) = (byKey L k).map (fun e => e.2.2 ++ enc64 e.1) := by
  cases hb : byKey L k with
  | some e =>
    obtain ⟨h1, rfl⟩ := byKey_some hb
    exact h.item e h1
  | none =>
    cases hm : m (itemKey lph k) with
    | none => rfl
    | some x =>
      obtain ⟨e, he, hk⟩ := h.only k x hm
      exact absurd hk (byKey_none hb e he)

/-- What `get_from_list_at_index` finds. -/
theorem wp_getAtIndex (h : LItems cfg m lph L) {I : Map → Prop} {i : Nat} (hi : i < U64) {Q : Map → Res (Option (PH × Bytes × Bytes)) → Prop}
    (hI : I m) (hQ : Q m (.ok ((byIdx L i).map (fun e => (cfg.ph (itemKey lph e.2.1), itemKey lph e.2.1, e.2.2 ++ enc64 e.1))))) :
    wp cfg I (getAtIndex lph i) m Q := by
  unfold getAtIndex
  rw [wp_bind, wp_getRaw]
  refine ⟨hI, ?_⟩
  show wp cfg I _ m Q
  cases hc : m (chainKey lph i) with
  | none =>
    refine ⟨hI, ?_⟩
    have : byIdx L i = none := by
      cases hb : byIdx L i with
      | none => rfl
      | some e =>
        obtain ⟨h1, rfl⟩ := byIdx_some hb
        have := h.chain e h1
        rw [hc] at this; simp at this
    rw [this] at hQ; exact hQ
  | some b =>
    obtain ⟨k0, rfl⟩ := h.chainVal i b hi hc
    simp only [enc64_length, ne_eq, not_true_eq_false, if_false]
    have hph : (BitVec.ofNat 64 (dec64 (enc64 (cfg.ph k0).toNat)) : PH) = cfg.ph k0 := by
      rw [dec64_enc64_of_lt (cfg.ph k0).isLt]
      exact BitVec.eq_of_toNat_eq (by simp)
    rw [hph]
    refine ⟨hI, ?_⟩
    intro l hl
    have hsig := cfg.ph_sig_ne k0
    have hsound := hl.sound hsig
    -- every pair of the answer is an item
    have hitem : ∀ kv ∈ l, ∃ e ∈ L, kv = (itemKey lph e.2.1, e.2.2 ++ enc64 e.1) := by
      intro kv hkv
      obtain ⟨ik, hik⟩ := endsWith_item.1 (hl.suffix kv hkv)
      have hm := hsound kv hkv
      rw [hik] at hm
      obtain ⟨e, he, hek⟩ := h.only ik _ hm
      refine ⟨e, he, ?_⟩
      have := h.item e he
      rw [hek, hm] at this
      simp only [Option.some.injEq] at this
      ext1
      · rw [hik, hek]
      · exact this
    cases hf : l.find? (fun kv => endsWith kv.2 (enc64 i)) with
    | none =>
      dsimp only
      rw [hf]
      refine ⟨hI, ?_⟩
      have : byIdx L i = none := by
        cases hb : byIdx L i with
        | none => rfl
        | some e =>
          exfalso
          obtain ⟨h1, h2⟩ := byIdx_some hb
          have hce := h.chain e h1
          rw [h2, hc] at hce
          simp only [Option.some.injEq] at hce
          have hp := enc64_ph_inj hce
          have hin := hl.complete hsig _ _ (h.item e h1) hp.symm (endsWith_item.2 ⟨_, rfl⟩)
          have := List.find?_eq_none.1 hf _ hin
          simp only at this
          rw [(endsWith_enc (h.lt e h1) hi).2 h2] at this
          simp at this
      rw [this] at hQ; exact hQ
    | some kv =>
      dsimp only
      rw [hf]
      refine ⟨hI, ?_⟩
      obtain ⟨e, he, rfl⟩ := hitem kv (List.mem_of_find?_eq_some hf)
      have h2 := List.find?_some hf
      simp only at h2
      have hei := (endsWith_enc (h.lt e he) hi).1 h2
      have hb : byIdx L i = some e := by
        cases hb : byIdx L i with
        | none => exact absurd hei (byIdx_none hb e he)
        | some e' =>
          obtain ⟨h3, h4⟩ := byIdx_some hb
          rw [h.idx_unique h3 he (by omega)]
      have hce := h.chain e he
      rw [hei, hc] at hce
      simp only [Option.some.injEq] at hce
      have hp := enc64_ph_inj hce
      rw [hb] at hQ
      simp only [Option.map_some] at hQ
      rw [← hp] at hQ
      exact hQ

theorem wp_getAtIndexT (h : LItems cfg m lph L) {I : Map → Prop} {i : Nat} (hi : i < U64) {Q : Map → Res (Option KV) → Prop}
    (hI : I m) (hQ : Q m (.ok ((byIdx L i).map Prod.snd))) : wp cfg I (getAtIndexT lph i) m Q := by
  unfold getAtIndexT
  rw [wp_bind]
  apply h.wp_getAtIndex hi hI
  show wp cfg I _ m Q
  cases hb : byIdx L i with
  | none => rw [hb] at hQ; exact ⟨hI, hQ⟩
  | some e =>
    rw [hb] at hQ
    refine ⟨hI, ?_⟩
    have e1 : (itemKey lph e.2.1).take ((itemKey lph e.2.1).length - 9) = e.2.1 := by
      rw [itemKey_length, Nat.add_sub_cancel]; unfold itemKey; rw [List.take_left]
    have e2 : (e.2.2 ++ enc64 e.1).take ((e.2.2 ++ enc64 e.1).length - 8) = e.2.2 := by
      rw [List.length_append, enc64_length, Nat.add_sub_cancel, List.take_left]
    show Q m (.ok (some ((itemKey lph e.2.1).take ((itemKey lph e.2.1).length - 9), (e.2.2 ++ enc64 e.1).take ((e.2.2 ++ enc64 e.1).length - 8))))
    rw [e1, e2]
    exact hQ

/-! ### Updates -/

/-- Storing anything that is not an item or a chain entry of this list. -/
theorem upd_other (h : LItems cfg m lph L) {k : Bytes} {x} (h1 : ∀ ik, k ≠ itemKey lph ik) (h2 : ∀ i, k ≠ chainKey lph i) :
    LItems cfg (m.upd k x) lph L :=
  h.congr (fun ik => m.upd_other x (fun e => h1 ik e.symm)) (fun i => m.upd_other x (fun e => h2 i e.symm))

theorem chainKey_mod (lph : PH) (i : Nat) : chainKey lph i = chainKey lph (i % U64) := by
  have : enc64 i = enc64 (i % U64) := by
    unfold enc64
    apply List.map_congr_left
    intro j hj
    have hj : j < 8 := by simpa using hj
    apply UInt8.toNat_inj.1
    simp only [UInt8.toNat_ofNat']
    have : j = 0 ∨ j = 1 ∨ j = 2 ∨ j = 3 ∨ j = 4 ∨ j = 5 ∨ j = 6 ∨ j = 7 := by omega
    simp only [U64]
    rcases this with rfl | rfl | rfl | rfl | rfl | rfl | rfl | rfl <;> simp only [Nat.reducePow] <;> omega
  unfold chainKey; rw [this]

/-- Storing a chain entry at an unused index. -/
theorem set_chain (h : LItems cfg m lph L) {i : Nat} (hi : i < U64) (hfree : ∀ e ∈ L, e.1 ≠ i) (k0 : Bytes) :
    LItems cfg (m.upd (chainKey lph i) (some (enc64 (cfg.ph k0).toNat))) lph L := by
  have hitem : ∀ k, (m.upd (chainKey lph i) (some (enc64 (cfg.ph k0).toNat))) (itemKey lph k) = m (itemKey lph k) :=
    fun k => m.upd_other _ (itemKey_ne_chain lph lph k i)
  refine ⟨h.sorted, h.lt, ?_, ?_, ?_, ?_, h.fits, h.chainFits⟩
  · intro e he; rw [hitem]; exact h.item e he
  · intro e he
    rw [Map.upd_other _ _ (fun e' => hfree e he (chainKey_inj (h.lt e he) hi e').2)]
    exact h.chain e he
  · intro k x hx; rw [hitem] at hx; exact h.only k x hx
  · intro j x hj hx
    unfold Map.upd at hx
    split at hx
    · simp at hx; exact ⟨k0, hx.symm⟩
    · exact h.chainVal j x hj hx

/-- Removing a chain entry at an unused index. -/
theorem remove_chain (h : LItems cfg m lph L) {i : Nat} (hi : i < U64) (hfree : ∀ e ∈ L, e.1 ≠ i) :
    LItems cfg (m.upd (chainKey lph i) none) lph L := by
  have hitem : ∀ k, (m.upd (chainKey lph i) none) (itemKey lph k) = m (itemKey lph k) :=
    fun k => m.upd_other _ (itemKey_ne_chain lph lph k i)
  refine ⟨h.sorted, h.lt, ?_, ?_, ?_, ?_, h.fits, h.chainFits⟩
  · intro e he; rw [hitem]; exact h.item e he
  · intro e he
    rw [Map.upd_other _ _ (fun e' => hfree e he (chainKey_inj (h.lt e he) hi e').2)]
    exact h.chain e he
  · intro k x hx; rw [hitem] at hx; exact h.only k x hx
  · intro j x hj hx
    unfold Map.upd at hx
    split at hx
    · simp at hx
    · exact h.chainVal j x hj hx

/-- Storing a new item at an index beyond all others, whose chain entry is already there. -/
theorem set_item_new (h : LItems cfg m lph L) {i : Nat} {k v : Bytes} (hi : i < U64) (hbig : ∀ e ∈ L, e.1 < i)
    (hnew : ∀ e ∈ L, e.2.1 ≠ k) (hchain : m (chainKey lph i) = some (enc64 (cfg.ph (itemKey lph k)).toNat))
    (hfit : sizeErr cfg (itemKey lph k) (v ++ enc64 i) = none) (hcf : sizeErr cfg (chainKey lph 0) (enc64 0) = none) :
    LItems cfg (m.upd (itemKey lph k) (some (v ++ enc64 i))) lph (L ++ [(i, (k, v))]) := by
  have hch : ∀ j, (m.upd (itemKey lph k) (some (v ++ enc64 i))) (chainKey lph j) = m (chainKey lph j) :=
    fun j => m.upd_other _ (fun e => itemKey_ne_chain lph lph k j e.symm)
  constructor
  · rw [List.pairwise_append]
    exact ⟨h.sorted, List.pairwise_singleton _ _, by simpa using fun a b c hm => hbig (a, b, c) hm⟩
  · intro e he
    rcases List.mem_append.1 he with he | he
    · exact h.lt e he
    · rw [List.mem_singleton.1 he]; exact hi
  · intro e he
    rcases List.mem_append.1 he with he | he
    · rw [Map.upd_other _ _ (fun e' => hnew e he (itemKey_inj e').2)]; exact h.item e he
    · rw [List.mem_singleton.1 he]; simp
  · intro e he
    rw [hch]
    rcases List.mem_append.1 he with he | he
    · exact h.chain e he
    · rw [List.mem_singleton.1 he]; exact hchain
  · intro k' x hx
    by_cases hk : k' = k
    · subst hk; exact ⟨(i, (k', v)), by simp, rfl⟩
    · rw [Map.upd_other _ _ (fun e' => hk (itemKey_inj e').2)] at hx
      obtain ⟨e, he, h2⟩ := h.only k' x hx
      exact ⟨e, List.mem_append_left _ he, h2⟩
  · intro j x hj hx; rw [hch] at hx; exact h.chainVal j x hj hx
  · intro e he
    rcases List.mem_append.1 he with he | he
    · exact h.fits e he
    · rw [List.mem_singleton.1 he]; exact hfit
  · intro _; exact hcf

/-- The entries after giving item `k` the value `v`. -/
def setVal (L : List Entry) (k v : Bytes) : List Entry := L.map (fun e => if e.2.1 = k then (e.1, (k, v)) else e)

theorem mem_setVal {k v : Bytes} {e : Entry} : e ∈ setVal L k v ↔ ∃ e' ∈ L, e = if e'.2.1 = k then (e'.1, (k, v)) else e' := by
  unfold setVal; rw [List.mem_map]
  exact ⟨fun ⟨a, h, e⟩ => ⟨a, h, e.symm⟩, fun ⟨a, h, e⟩ => ⟨a, h, e.symm⟩⟩

/-- Changing the value of an item, keeping its index. -/
theorem set_item_val (h : LItems cfg m lph L) {e0 : Entry} (h0 : e0 ∈ L) {v : Bytes}
    (hfit : sizeErr cfg (itemKey lph e0.2.1) (v ++ enc64 e0.1) = none) :
    LItems cfg (m.upd (itemKey lph e0.2.1) (some (v ++ enc64 e0.1))) lph (setVal L e0.2.1 v) := by
  have hch : ∀ j, (m.upd (itemKey lph e0.2.1) (some (v ++ enc64 e0.1))) (chainKey lph j) = m (chainKey lph j) :=
    fun j => m.upd_other _ (fun e => itemKey_ne_chain lph lph e0.2.1 j e.symm)
  have hcase : ∀ e ∈ setVal L e0.2.1 v, e = (e0.1, (e0.2.1, v)) ∨ (e ∈ L ∧ e.2.1 ≠ e0.2.1) := by
    intro e he
    obtain ⟨e', he', rfl⟩ := mem_setVal.1 he
    by_cases hk : e'.2.1 = e0.2.1
    · left; rw [if_pos hk, h.key_unique he' h0 hk]
    · right; rw [if_neg hk]; exact ⟨he', hk⟩
  constructor
  · have : ∀ e : Entry, (if e.2.1 = e0.2.1 then (e.1, (e0.2.1, v)) else e : Entry).1 = e.1 := by
      intro e; split <;> rfl
    unfold setVal
    rw [List.pairwise_map]
    simp only [this]
    exact h.sorted
  · intro e he
    rcases hcase e he with rfl | ⟨h1, _⟩
    · exact h.lt e0 h0
    · exact h.lt e h1
  · intro e he
    rcases hcase e he with rfl | ⟨h1, h2⟩
    · simp
    · rw [Map.upd_other _ _ (fun e' => h2 (itemKey_inj e').2)]; exact h.item e h1
  · intro e he
    rw [hch]
    rcases hcase e he with rfl | ⟨h1, h2⟩
    · exact h.chain e0 h0
    · exact h.chain e h1
  · intro k' x hx
    by_cases hk : k' = e0.2.1
    · subst hk
      refine ⟨(e0.1, (e0.2.1, v)), mem_setVal.2 ⟨e0, h0, ?_⟩, rfl⟩
      rw [if_pos rfl]
    · rw [Map.upd_other _ _ (fun e' => hk (itemKey_inj e').2)] at hx
      obtain ⟨e, he, h2⟩ := h.only k' x hx
      refine ⟨e, mem_setVal.2 ⟨e, he, ?_⟩, h2⟩
      rw [if_neg (by rw [h2]; exact hk)]
  · intro j x hj hx; rw [hch] at hx; exact h.chainVal j x hj hx
  · intro e he
    rcases hcase e he with rfl | ⟨h1, _⟩
    · exact hfit
    · exact h.fits e h1
  · intro hne
    exact h.chainFits (by rintro rfl; exact hne rfl)

/-- The entries without index `i`. -/
def dropIdx (L : List Entry) (i : Nat) : List Entry := L.filter (fun e => decide (e.1 ≠ i))

theorem mem_dropIdx {i : Nat} {e : Entry} : e ∈ dropIdx L i ↔ e ∈ L ∧ e.1 ≠ i := by
  unfold dropIdx; rw [List.mem_filter]; simp

/-- Removing an item together with its chain entry. -/
theorem remove_item (h : LItems cfg m lph L) {e0 : Entry} (h0 : e0 ∈ L) :
    LItems cfg ((m.upd (chainKey lph e0.1) none).upd (itemKey lph e0.2.1) none) lph (dropIdx L e0.1) := by
  have hch : ∀ j, ((m.upd (chainKey lph e0.1) none).upd (itemKey lph e0.2.1) none) (chainKey lph j) =
      m.upd (chainKey lph e0.1) none (chainKey lph j) :=
    fun j => Map.upd_other _ _ (fun e => itemKey_ne_chain lph lph e0.2.1 j e.symm)
  constructor
  · exact h.sorted.filter _
  · intro e he; exact h.lt e (mem_dropIdx.1 he).1
  · intro e he
    obtain ⟨h1, h2⟩ := mem_dropIdx.1 he
    rw [Map.upd_other _ _ (fun e' => h2 (by rw [h.key_unique h1 h0 (itemKey_inj e').2])),
      Map.upd_other _ _ (itemKey_ne_chain _ _ _ _)]
    exact h.item e h1
  · intro e he
    obtain ⟨h1, h2⟩ := mem_dropIdx.1 he
    rw [hch, Map.upd_other _ _ (fun e' => h2 (chainKey_inj (h.lt e h1) (h.lt e0 h0) e').2)]
    exact h.chain e h1
  · intro k' x hx
    by_cases hk : k' = e0.2.1
    · subst hk; simp at hx
    · rw [Map.upd_other _ _ (fun e' => hk (itemKey_inj e').2), Map.upd_other _ _ (itemKey_ne_chain _ _ _ _)] at hx
      obtain ⟨e, he, h2⟩ := h.only k' x hx
      refine ⟨e, mem_dropIdx.2 ⟨he, ?_⟩, h2⟩
      intro e'
      rw [h.idx_unique he h0 e'] at h2
      exact hk h2.symm
  · intro j x hj hx
    rw [hch] at hx
    unfold Map.upd at hx
    split at hx
    · simp at hx
    · exact h.chainVal j x hj hx
  · intro e he; exact h.fits e (mem_dropIdx.1 he).1
  · intro hne; exact h.chainFits (by rintro rfl; exact hne rfl)

/-- Moving an item to a new index beyond all others (`compact_list_if_needed`). -/
theorem move_item (h : LItems cfg m lph L) {e0 : Entry} (h0 : e0 ∈ L) {j : Nat} (hj : j < U64) (hbig : ∀ e ∈ L, e.1 < j) :
    LItems cfg (((m.upd (chainKey lph j) (some (enc64 (cfg.ph (itemKey lph e0.2.1)).toNat))).upd (itemKey lph e0.2.1)
      (some (e0.2.2 ++ enc64 j))).upd (chainKey lph e0.1) none) lph (dropIdx L e0.1 ++ [(j, e0.2)]) := by
  have hne : e0.1 ≠ j := by have := hbig e0 h0; omega
  have h1 := h.set_chain hj (fun e he => by have := hbig e he; omega) (itemKey lph e0.2.1)
  have h2 := h1.remove_item h0
  have hfit : sizeErr cfg (itemKey lph e0.2.1) (e0.2.2 ++ enc64 j) = none := by
    rw [← h.fits e0 h0]; apply sizeErr_congr; simp
  have h3 := h2.set_item_new (i := j) (k := e0.2.1) (v := e0.2.2) hj
    (fun e he => hbig e (mem_dropIdx.1 he).1)
    (fun e he hk => (mem_dropIdx.1 he).2 (by rw [h.key_unique (mem_dropIdx.1 he).1 h0 hk]))
    (by
      rw [Map.upd_other _ _ (fun e => itemKey_ne_chain lph lph e0.2.1 j e.symm),
        Map.upd_other _ _ (fun e => hne (chainKey_inj (h.lt e0 h0) hj e.symm).2)]
      simp)
    hfit (h.chainFits (List.ne_nil_of_mem h0))
  have : (((m.upd (chainKey lph j) (some (enc64 (cfg.ph (itemKey lph e0.2.1)).toNat))).upd (itemKey lph e0.2.1)
      (some (e0.2.2 ++ enc64 j))).upd (chainKey lph e0.1) none) =
      ((((m.upd (chainKey lph j) (some (enc64 (cfg.ph (itemKey lph e0.2.1)).toNat))).upd (chainKey lph e0.1) none).upd
        (itemKey lph e0.2.1) none).upd (itemKey lph e0.2.1) (some (e0.2.2 ++ enc64 j))) := by
    have hnc := itemKey_ne_chain lph lph e0.2.1 e0.1
    funext k
    unfold Map.upd
    by_cases hk1 : k = itemKey lph e0.2.1
    · subst hk1; simp [hnc]
    · simp [hk1]
  rw [this]
  exact h3

end LItems

end Candy
