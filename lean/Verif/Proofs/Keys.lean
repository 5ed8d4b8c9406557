import Verif.Proofs.Prog
/-!
# The raw keys of the different APIs never coincide
-/
namespace Candy

theorem append_single_inj {a b : Bytes} {x y : UInt8} (h : a ++ [x] = b ++ [y]) : a = b ∧ x = y := by
  have := List.append_inj' h rfl
  exact ⟨this.1, by simpa using this.2⟩

theorem enc64_ph_inj {a b : PH} (h : enc64 a.toNat = enc64 b.toNat) : a = b :=
  BitVec.eq_of_toNat_eq (enc64_inj a.isLt b.isLt h)

theorem itemKey_eq (lph : PH) (ik : Bytes) : itemKey lph ik = (ik ++ enc64 lph.toNat) ++ [4] := by
  simp [itemKey, itemSuffix, ITEM_NS]
theorem chainKey_eq (lph : PH) (i : Nat) : chainKey lph i = (enc64 lph.toNat ++ enc64 i) ++ [5] := rfl
theorem listKey_eq (lk : Bytes) : listKey lk = lk ++ [3] := rfl
theorem queueKey_eq (qk : Bytes) : queueKey qk = qk ++ [6] := rfl
theorem qitemKey_eq (qk : Bytes) (i : Nat) : qitemKey qk i = (qk ++ enc64 i) ++ [7] := rfl
theorem userKey_eq (k : Bytes) : userKey k = k ++ [1] := rfl

theorem itemKey_inj {lph lph' : PH} {a b : Bytes} (h : itemKey lph a = itemKey lph' b) : lph = lph' ∧ a = b := by
  rw [itemKey_eq, itemKey_eq] at h
  have h1 := (append_single_inj h).1
  have h2 := List.append_inj' h1 (by simp)
  exact ⟨enc64_ph_inj h2.2, h2.1⟩

theorem chainKey_inj {lph lph' : PH} {i j : Nat} (hi : i < U64) (hj : j < U64) (h : chainKey lph i = chainKey lph' j) :
    lph = lph' ∧ i = j := by
  rw [chainKey_eq, chainKey_eq] at h
  have h1 := (append_single_inj h).1
  have h2 := List.append_inj h1 (by simp)
  exact ⟨enc64_ph_inj h2.1, enc64_inj hi hj h2.2⟩

theorem listKey_inj {a b : Bytes} (h : listKey a = listKey b) : a = b := (append_single_inj h).1
theorem queueKey_inj {a b : Bytes} (h : queueKey a = queueKey b) : a = b := (append_single_inj h).1
theorem userKey_inj {a b : Bytes} (h : userKey a = userKey b) : a = b := (append_single_inj h).1
theorem qitemKey_inj {a b : Bytes} {i j : Nat} (hi : i < U64) (hj : j < U64) (h : qitemKey a i = qitemKey b j) : a = b ∧ i = j := by
  rw [qitemKey_eq, qitemKey_eq] at h
  have h1 := (append_single_inj h).1
  have h2 := List.append_inj' h1 (by simp)
  exact ⟨h2.1, enc64_inj hi hj h2.2⟩

theorem listKey_ne_item (lk : Bytes) (lph : PH) (ik) : listKey lk ≠ itemKey lph ik := by
  intro h; rw [itemKey_eq] at h; exact absurd (append_single_inj h).2 (by decide)
theorem listKey_ne_chain (lk : Bytes) (lph : PH) (i) : listKey lk ≠ chainKey lph i := by
  intro h; rw [chainKey_eq] at h; exact absurd (append_single_inj h).2 (by decide)
theorem itemKey_ne_chain (lph lph' : PH) (ik : Bytes) (i) : itemKey lph ik ≠ chainKey lph' i := by
  intro h; rw [itemKey_eq, chainKey_eq] at h; exact absurd (append_single_inj h).2 (by decide)
theorem queueKey_ne_qitem (a b : Bytes) (i) : queueKey a ≠ qitemKey b i := by
  intro h; rw [qitemKey_eq] at h; exact absurd (append_single_inj h).2 (by decide)

theorem listKey_length (lk : Bytes) : (listKey lk).length = lk.length + 1 := by simp [listKey, LIST_NS]
theorem itemKey_length (lph : PH) (ik : Bytes) : (itemKey lph ik).length = ik.length + 9 := by
  simp [itemKey, itemSuffix, ITEM_NS]
theorem chainKey_length (lph : PH) (i : Nat) : (chainKey lph i).length = 17 := by simp [chainKey, CHAIN_NS]
theorem queueKey_length (qk : Bytes) : (queueKey qk).length = qk.length + 1 := by simp [queueKey, QUEUE_NS]
theorem qitemKey_length (qk : Bytes) (i : Nat) : (qitemKey qk i).length = qk.length + 9 := by simp [qitemKey, QITEM_NS]
theorem encMeta_length (h t n : Nat) : (encMeta h t n).length = 24 := by simp [encMeta]

theorem sizeErr_congr {cfg : Cfg} {k v v' : Bytes} (h : v'.length = v.length) : sizeErr cfg k v' = sizeErr cfg k v := by
  unfold sizeErr; rw [h]

theorem sizeErr_congr' {cfg : Cfg} {k k' v v' : Bytes} (hk : k'.length = k.length) (h : v'.length = v.length) :
    sizeErr cfg k' v' = sizeErr cfg k v := by
  unfold sizeErr; rw [h, hk]

theorem endsWith_item {lph : PH} {k : Bytes} : endsWith k (itemSuffix lph) = true ↔ ∃ ik, k = itemKey lph ik := endsWith_iff

theorem endsWith_enc {v : Bytes} {i j : Nat} (hi : i < U64) (hj : j < U64) : endsWith (v ++ enc64 i) (enc64 j) = true ↔ i = j := by
  rw [endsWith_iff]
  constructor
  · rintro ⟨p, hp⟩
    exact enc64_inj hi hj (List.append_inj' hp (by simp)).2
  · rintro rfl; exact ⟨v, rfl⟩

theorem wp_decMeta {cfg I h t n m Q} (hh : h < U64) (ht : t < U64) (hn : n < U64) :
    wp cfg I (decMeta (encMeta h t n)) m Q ↔ I m ∧ Q m (.ok ⟨h, t, n⟩) := by
  unfold decMeta
  rw [if_pos (encMeta_length h t n)]
  have e1 : (encMeta h t n).take 8 = enc64 h := by
    unfold encMeta; rw [List.append_assoc, List.take_append_of_le_length (by simp)]
    exact List.take_of_length_le (by simp)
  have e2 : ((encMeta h t n).drop 8).take 8 = enc64 t := by
    have : (encMeta h t n).drop 8 = enc64 t ++ enc64 n := by
      unfold encMeta; rw [List.append_assoc]
      have := List.drop_left (l₁ := enc64 h) (l₂ := enc64 t ++ enc64 n)
      rwa [enc64_length] at this
    rw [this, List.take_append_of_le_length (by simp)]
    exact List.take_of_length_le (by simp)
  have e3 : (encMeta h t n).drop 16 = enc64 n := by
    have := List.drop_left (l₁ := enc64 h ++ enc64 t) (l₂ := enc64 n)
    simp only [List.length_append, enc64_length] at this
    exact this
  rw [e1, e2, e3, dec64_enc64_of_lt hh, dec64_enc64_of_lt ht, dec64_enc64_of_lt hn]
  exact Iff.rfl

theorem splitVal_append {v : Bytes} {i : Nat} : splitVal (v ++ enc64 i) = .ret (v, enc64 i) := by
  unfold splitVal
  have hl : (v ++ enc64 i).length = v.length + 8 := by simp
  rw [if_neg (by omega), hl, Nat.add_sub_cancel, List.take_left, List.drop_left]

end Candy
