import Verif.Model.FileIO
import Verif.Proofs.File
import Verif.Proofs.Conc
/-!
# C44, C47, C60, C61: file contents, lock striping, hash layout, write counters
-/
namespace Candy.Props
open Candy.Spec

/-! ## C47 -/

theorem numLocks_pos (cfg : Cfg) : 0 < cfg.numLocks := by
  unfold Cfg.numLocks
  dsimp only
  split
  · exact Nat.lt_of_lt_of_le (by decide) (Nat.le_max_right _ _)
  · exact Nat.two_pow_pos _

/-- **C47**, first part: the lock chosen for a list or queue is in the table, for every configuration (also those above 2^31) and hash. -/
theorem C47_lock_exists (cfg : Cfg) (ph : PH) : cfg.lockIdx ph < cfg.numLocks := by
  have h1 := numLocks_pos cfg
  have h2 : ph.sig.toNat &&& (cfg.numLocks - 1) ≤ cfg.numLocks - 1 := Nat.and_le_right
  unfold Cfg.lockIdx
  omega

/-- **C47**, second part: for `max_concurrent_list_ops` up to 2^31 the number of locks is the least power of two that is at least
`max(4, max_concurrent_list_ops)`. -/
theorem C47_number_of_locks (cfg : Cfg) (h : cfg.maxListOps.toNat ≤ 2147483648) :
    (∃ e, e ≤ 31 ∧ cfg.numLocks = 2 ^ e) ∧ 4 ≤ cfg.numLocks ∧ cfg.maxListOps.toNat ≤ cfg.numLocks ∧ cfg.numLocks < 2 * Nat.max cfg.maxListOps.toNat 4 := by
  unfold Cfg.numLocks
  dsimp only
  have hn1 : 4 ≤ Nat.max cfg.maxListOps.toNat 4 := Nat.le_max_right _ _
  have hn2 : cfg.maxListOps.toNat ≤ Nat.max cfg.maxListOps.toNat 4 := Nat.le_max_left _ _
  have hn3 : Nat.max cfg.maxListOps.toNat 4 ≤ 2147483648 := Nat.max_le.2 ⟨h, by decide⟩
  generalize Nat.max cfg.maxListOps.toNat 4 = n at *
  have hlo : 2 ^ Nat.log2 n ≤ n := Nat.log2_self_le (by omega)
  have hhi : n < 2 ^ (Nat.log2 n + 1) := Nat.lt_log2_self
  have hlog : Nat.log2 n ≤ 31 := by
    have : Nat.log2 n < 32 := (Nat.log2_lt (by omega)).2 (by omega)
    omega
  by_cases e : n = 2 ^ Nat.log2 n
  · rw [if_pos e]
    exact ⟨⟨_, hlog, e⟩, hn1, hn2, by omega⟩
  · rw [if_neg e]
    have hlt : Nat.log2 n < 31 := by
      rcases Nat.lt_or_ge (Nat.log2 n) 31 with h31 | h31
      · exact h31
      · have : Nat.log2 n = 31 := by omega
        rw [this] at hlo e
        have : (2:Nat) ^ 31 = 2147483648 := by decide
        omega
    rw [Nat.mod_eq_of_lt (by omega)]
    refine ⟨⟨_, by omega, rfl⟩, by omega, by omega, ?_⟩
    rw [Nat.pow_succ]
    omega

/-- **C47**, third part: all locks are used: for each of them there is a hash that selects it. -/
theorem C47_all_locks_used (cfg : Cfg) (h : cfg.maxListOps.toNat ≤ 2147483648) (l : Nat) (hl : l < cfg.numLocks) :
    ∃ ph : PH, ph.sig ≠ 0#32 ∧ cfg.lockIdx ph = l := by
  obtain ⟨⟨e, he, hn⟩, h4, _⟩ := C47_number_of_locks cfg h
  have hpow : (2:Nat) ^ e ≤ 2 ^ 31 := Nat.pow_le_pow_right (by decide) he
  have h31 : (2:Nat) ^ 31 = 2147483648 := by decide
  -- the signature l, or the number of locks if l = 0
  let s : Nat := if l = 0 then 2 ^ e else l
  have hs0 : s ≠ 0 := by
    show (if l = 0 then 2 ^ e else l) ≠ 0
    split
    · exact Nat.ne_of_gt (Nat.two_pow_pos _)
    · assumption
  have hs : s < 4294967296 := by
    show (if l = 0 then 2 ^ e else l) < _
    split <;> omega
  have hsig : (PH.sig (BitVec.ofNat 64 s)).toNat = s := by
    unfold PH.sig
    rw [BitVec.toNat_setWidth, BitVec.toNat_ofNat]
    omega
  refine ⟨BitVec.ofNat 64 s, fun hz => hs0 ?_, ?_⟩
  · rw [hz] at hsig; exact hsig.symm
  · unfold Cfg.lockIdx
    rw [hsig, hn, Nat.and_two_pow_sub_one_eq_mod]
    show (if l = 0 then 2 ^ e else l) % 2 ^ e = l
    split
    · rename_i h0; rw [h0]; exact Nat.mod_self _
    · exact Nat.mod_eq_of_lt (by omega)

example : ({ hash := fun _ => ⟨0#64, 0#64⟩, maxShardSize := 0, minCompaction := 0, expectedKeys := 0, maxListOps := 5 } : Cfg).numLocks = 8 := by decide

/-! ## C60 -/

theorem mask_shard : ∀ i, i < 64 → (0xffff000000000000#64).getLsbD i = decide (48 ≤ i) := by decide
theorem mask_row : ∀ i, i < 64 → (0x0000ffff00000000#64).getLsbD i = decide (32 ≤ i ∧ i < 48) := by decide
theorem mask_sel : ∀ i, i < 64 → (0xffff#64).getLsbD i = decide (i < 16) := by decide

theorem fromHash_bit (h : Hash128) (i : Nat) (hi : i < 64) :
    (fromHash h).getLsbD i = if i < 32 then (pickSig h).getLsbD i else h.h1.getLsbD i := by
  unfold fromHash
  dsimp only
  simp only [BitVec.getLsbD_or, BitVec.getLsbD_and, mask_shard i hi, mask_row i hi, BitVec.getLsbD_setWidth, hi, decide_true, Bool.true_and]
  by_cases h1 : i < 32
  · have a1 : ¬ 48 ≤ i := by omega
    have a2 : ¬ (32 ≤ i ∧ i < 48) := by omega
    simp [h1, a1, a2]
  · have a3 : (pickSig h).getLsbD i = false := BitVec.getLsbD_of_ge _ _ (by omega)
    rw [if_neg h1, a3]
    by_cases h2 : 48 ≤ i
    · have a2 : ¬ (32 ≤ i ∧ i < 48) := by omega
      simp [h2, a2]
    · have a2 : (32 ≤ i ∧ i < 48) := by omega
      simp [h2, a2]

/-- **C60**, first part. The stored hash consists of bits 48-63 of the first hash word (the shard selector), bits 32-47 (of which the row is the
remainder modulo 64) and the signature. -/
theorem C60_hash_layout (h : Hash128) : (fromHash h).shardSel = h.h1.toNat / 281474976710656 ∧
    (fromHash h).rowSel = h.h1.toNat / 4294967296 % 64 ∧ (fromHash h).sig = pickSig h := by
  refine ⟨?_, ?_, ?_⟩
  · unfold PH.shardSel
    have : (fromHash h >>> 48) &&& 0xffff#64 = h.h1 >>> 48 := by
      apply BitVec.eq_of_getLsbD_eq
      intro i hi
      rw [BitVec.getLsbD_and, mask_sel i hi, BitVec.getLsbD_ushiftRight, BitVec.getLsbD_ushiftRight]
      by_cases h1 : i < 16
      · rw [fromHash_bit h _ (by omega), if_neg (by omega)]
        simp [h1]
      · rw [BitVec.getLsbD_of_ge h.h1 _ (by omega)]
        simp [h1]
    rw [this, BitVec.toNat_ushiftRight, Nat.shiftRight_eq_div_pow]
  · unfold PH.rowSel
    have : (fromHash h >>> 32).setWidth 16 = (h.h1 >>> 32).setWidth 16 := by
      apply BitVec.eq_of_getLsbD_eq
      intro i hi
      rw [BitVec.getLsbD_setWidth, BitVec.getLsbD_setWidth, BitVec.getLsbD_ushiftRight, BitVec.getLsbD_ushiftRight, fromHash_bit h _ (by omega), if_neg (by omega)]
    rw [this, BitVec.toNat_setWidth, BitVec.toNat_ushiftRight, Nat.shiftRight_eq_div_pow]
    have e : NUM_ROWS = 64 := rfl
    rw [e]
    omega
  · unfold PH.sig
    apply BitVec.eq_of_getLsbD_eq
    intro i hi
    rw [BitVec.getLsbD_setWidth, fromHash_bit h _ (by omega), if_pos hi]
    simp [hi]

/-- **C60**, second part. All shards, rows and signatures are used: every combination of a shard selector, a row and a non-zero
signature is the stored hash of some hash. -/
theorem C60_all_rows_used (s r : Nat) (g : BitVec 32) (hs : s < 65536) (hr : r < 64) (hg : g ≠ 0#32) :
    ∃ h : Hash128, (fromHash h).shardSel = s ∧ (fromHash h).rowSel = r ∧ (fromHash h).sig = g := by
  have hgl := g.isLt
  refine ⟨⟨BitVec.ofNat 64 (s * 281474976710656 + r * 4294967296 + g.toNat), 0#64⟩, ?_⟩
  obtain ⟨h1, h2, h3⟩ := C60_hash_layout ⟨BitVec.ofNat 64 (s * 281474976710656 + r * 4294967296 + g.toNat), 0#64⟩
  rw [h1, h2, h3]
  dsimp only
  rw [BitVec.toNat_ofNat]
  refine ⟨by omega, by omega, ?_⟩
  have e : (BitVec.ofNat 64 (s * 281474976710656 + r * 4294967296 + g.toNat)).setWidth 32 = g := by
    apply BitVec.eq_of_toNat_eq
    rw [BitVec.toNat_setWidth, BitVec.toNat_ofNat]
    omega
  unfold pickSig
  dsimp only
  rw [e, if_neg (by unfold INVALID_SIG; exact hg)]

/-! ## C61 -/

/-- **C61.** The write statistics: after entries of the sizes `szs` have been written, in any order, the number of writes and of bytes are exact,
and each size class counts exactly the entries of its size range. -/
theorem C61_write_counters (szs : List Nat) : szs.foldl WCounters.addEntry WCounters.zero =
    ⟨szs.length, szs.sum, szs.countP (fun n => decide (n < 128)), szs.countP (fun n => decide (128 ≤ n ∧ n < 1024)),
     szs.countP (fun n => decide (1024 ≤ n ∧ n < 8192)), szs.countP (fun n => decide (8192 ≤ n ∧ n < 32768)), szs.countP (fun n => decide (32768 ≤ n))⟩ := by
  suffices H : ∀ (w : WCounters), szs.foldl WCounters.addEntry w =
      ⟨w.writeOps + szs.length, w.writeBytes + szs.sum, w.under128 + szs.countP (fun n => decide (n < 128)),
       w.under1k + szs.countP (fun n => decide (128 ≤ n ∧ n < 1024)), w.under8k + szs.countP (fun n => decide (1024 ≤ n ∧ n < 8192)),
       w.under32k + szs.countP (fun n => decide (8192 ≤ n ∧ n < 32768)), w.over32k + szs.countP (fun n => decide (32768 ≤ n))⟩ by
    rw [H]; simp [WCounters.zero]
  induction szs with
  | nil => intro w; simp
  | cons n l ih =>
    intro w
    rw [List.foldl_cons, ih]
    simp only [WCounters.addEntry, List.length_cons, List.sum_cons, List.countP_cons]
    rcases (by omega : n < 128 ∨ (128 ≤ n ∧ n < 1024) ∨ (1024 ≤ n ∧ n < 8192) ∨ (8192 ≤ n ∧ n < 32768) ∨ 32768 ≤ n) with h | h | h | h | h
    · have a1 : ¬ (128 ≤ n ∧ n < 1024) := by omega
      have a2 : ¬ (1024 ≤ n ∧ n < 8192) := by omega
      have a3 : ¬ (8192 ≤ n ∧ n < 32768) := by omega
      have a4 : ¬ 32768 ≤ n := by omega
      simp [h, a1, a2, a3, a4, Nat.add_assoc, Nat.add_comm 1]
    · have a0 : ¬ n < 128 := by omega
      have b1 : n < 1024 := by omega
      have a2 : ¬ (1024 ≤ n ∧ n < 8192) := by omega
      have a3 : ¬ (8192 ≤ n ∧ n < 32768) := by omega
      have a4 : ¬ 32768 ≤ n := by omega
      simp [h, a0, b1, a2, a3, a4, Nat.add_assoc, Nat.add_comm 1]
    · have a0 : ¬ n < 128 := by omega
      have b1 : ¬ n < 1024 := by omega
      have b2 : n < 8192 := by omega
      have a1 : ¬ (128 ≤ n ∧ n < 1024) := by omega
      have a3 : ¬ (8192 ≤ n ∧ n < 32768) := by omega
      have a4 : ¬ 32768 ≤ n := by omega
      simp [h, a0, b1, b2, a1, a3, a4, Nat.add_assoc, Nat.add_comm 1]
    · have a0 : ¬ n < 128 := by omega
      have b1 : ¬ n < 1024 := by omega
      have b2 : ¬ n < 8192 := by omega
      have b3 : n < 32768 := by omega
      have a1 : ¬ (128 ≤ n ∧ n < 1024) := by omega
      have a2 : ¬ (1024 ≤ n ∧ n < 8192) := by omega
      have a4 : ¬ 32768 ≤ n := by omega
      simp [h, a0, b1, b2, b3, a1, a2, a4, Nat.add_assoc, Nat.add_comm 1]
    · have a0 : ¬ n < 128 := by omega
      have b1 : ¬ n < 1024 := by omega
      have b2 : ¬ n < 8192 := by omega
      have b3 : ¬ n < 32768 := by omega
      have a1 : ¬ (128 ≤ n ∧ n < 1024) := by omega
      have a2 : ¬ (1024 ≤ n ∧ n < 8192) := by omega
      have a3 : ¬ (8192 ≤ n ∧ n < 32768) := by omega
      simp [h, a0, b1, b2, b3, a1, a2, a3, Nat.add_assoc, Nat.add_comm 1]

example : [0, 127, 128, 40000].foldl WCounters.addEntry WCounters.zero = ⟨4, 40255, 2, 1, 0, 0, 1⟩ := rfl

/-! ## C44 -/

/-- The bytes `[o, o + len)` of the area hold the pair. -/
def Stored (data : Nat → UInt8) (o : Nat) (kv : KV) : Prop := ∀ j, j < kv.1.length + kv.2.length → data (o + j) = (kv.1 ++ kv.2).getD j 0

theorem stored_read {data : Nat → UInt8} {o : Nat} {k v : Bytes} (h : Stored data o (k, v)) (hk : k.length < 65536) (hv : v.length < 65536)
    (ho : o < 4294967296) : readPair data (pack k.length v.length o) = (k, v) := by
  obtain ⟨e1, e2, e3⟩ := desc_pack hk hv ho
  have hr : Candy.readAt data o (k.length + v.length) = k ++ v := by
    apply List.ext_getElem
    · simp
    · intro i h1 h2
      simp only [Candy.readAt, List.getElem_map, List.getElem_range]
      rw [h i (by simpa using h2)]
      simp [List.getD, List.getElem?_eq_getElem h2]
  simp only [readPair, MFile.readKV, e1, e2, e3, hr]
  simp

structure WInv (base : Nat) (d0 : Nat → UInt8) (s : WState) (acks : List (Nat × KV)) : Prop where
  low : ∀ i, i < base → s.data i = d0 i
  baseOff : base ≤ s.off
  pend : ∀ i o kv n, s.pend i = some (o, kv, n) → base ≤ o ∧ o + (kv.1.length + kv.2.length) ≤ s.off ∧ n ≤ kv.1.length + kv.2.length ∧
    ∀ j, j < n → s.data (o + j) = (kv.1 ++ kv.2).getD j 0
  apart : ∀ i j o kv n o' kv' n', i ≠ j → s.pend i = some (o, kv, n) → s.pend j = some (o', kv', n') →
    o + (kv.1.length + kv.2.length) ≤ o' ∨ o' + (kv'.1.length + kv'.2.length) ≤ o
  acked : ∀ a ∈ acks, base ≤ a.1 ∧ a.1 + (a.2.1.length + a.2.2.length) ≤ s.off ∧ Stored s.data a.1 a.2 ∧
    ∀ i o kv n, s.pend i = some (o, kv, n) → o + (kv.1.length + kv.2.length) ≤ a.1 ∨ a.1 + (a.2.1.length + a.2.2.length) ≤ o

theorem WRun.inv {s s' : WState} {acks} (h : WRun s acks s') : ∀ base d0 (done : List (Nat × KV)), WInv base d0 s done →
    ∃ done', (∀ x ∈ acks, ∃ a ∈ done', x = (pack a.2.1.length a.2.2.length a.1, a.2)) ∧ (∀ a ∈ done, a ∈ done') ∧ WInv base d0 s' done' := by
  induction h with
  | nil s => exact fun base d0 done h => ⟨done, fun x hx => absurd hx List.not_mem_nil, fun _ h => h, h⟩
  | @reserve s s' acks i k v h rest ih =>
    intro base d0 done hi
    refine ih base d0 done ⟨hi.low, Nat.le_trans hi.baseOff (Nat.le_add_right _ _), ?_, ?_, ?_⟩
    · intro j o kv n hj
      by_cases e : j = i
      · subst e
        (try dsimp only at hj); rw [setN_same] at hj
        cases hj
        exact ⟨hi.baseOff, Nat.le_refl _, Nat.zero_le _, fun j hj => absurd hj (Nat.not_lt_zero _)⟩
      · (try dsimp only at hj); rw [setN_other _ _ e] at hj
        obtain ⟨a, b, c⟩ := hi.pend j o kv n hj
        exact ⟨a, Nat.le_trans b (Nat.le_add_right _ _), c⟩
    · intro a b o kv n o' kv' n' hab ha hb
      by_cases ea : a = i
      · subst ea
        (try dsimp only at ha); rw [setN_same] at ha
        (try dsimp only at hb); rw [setN_other _ _ (Ne.symm hab)] at hb
        cases ha
        exact Or.inr (hi.pend b o' kv' n' hb).2.1
      · (try dsimp only at ha); rw [setN_other _ _ ea] at ha
        by_cases eb : b = i
        · subst eb
          (try dsimp only at hb); rw [setN_same] at hb
          cases hb
          exact Or.inl (hi.pend a o kv n ha).2.1
        · (try dsimp only at hb); rw [setN_other _ _ eb] at hb
          exact hi.apart a b o kv n o' kv' n' hab ha hb
    · intro a ha
      obtain ⟨q1, q2, q3, q4⟩ := hi.acked a ha
      refine ⟨q1, Nat.le_trans q2 (Nat.le_add_right _ _), q3, fun j o kv n hj => ?_⟩
      by_cases e : j = i
      · subst e
        (try dsimp only at hj); rw [setN_same] at hj
        cases hj
        exact Or.inr q2
      · (try dsimp only at hj); rw [setN_other _ _ e] at hj
        exact q4 j o kv n hj
  | @byte s s' acks i o n k v h hn rest ih =>
    intro base d0 done hi
    obtain ⟨p1, p2, p3, p4⟩ := hi.pend i o (k, v) n h
    have hw : ∀ x, x ≠ o + n → writeAt s.data (o + n) [(k ++ v).getD n 0] x = s.data x := by
      intro x hx
      unfold writeAt
      rw [if_neg (by simp only [List.length_singleton]; omega)]
    have hwn : writeAt s.data (o + n) [(k ++ v).getD n 0] (o + n) = (k ++ v).getD n 0 := by
      unfold writeAt
      rw [if_pos (by simp)]
      simp
    dsimp only at p1 p2 p3 p4
    refine ih base d0 done ⟨?_, hi.baseOff, ?_, ?_, ?_⟩
    · intro x hx
      dsimp only
      rw [hw x (by omega)]
      exact hi.low x hx
    · intro j o' kv' n' hj
      by_cases e : j = i
      · subst e
        (try dsimp only at hj); rw [setN_same] at hj
        cases hj
        refine ⟨p1, p2, by dsimp only; omega, fun j hj => ?_⟩
        dsimp only
        by_cases e : j = n
        · subst e; exact hwn
        · rw [hw _ (by omega)]; exact p4 j (by omega)
      · (try dsimp only at hj); rw [setN_other _ _ e] at hj
        obtain ⟨a, b, c, d⟩ := hi.pend j o' kv' n' hj
        refine ⟨a, b, c, fun x hx => ?_⟩
        dsimp only
        have hap := hi.apart j i o' kv' n' o (k, v) n e hj h
        dsimp only at hap
        rw [hw _ (by omega)]
        exact d x hx
    · intro a b o1 kv1 n1 o2 kv2 n2 hab ha hb
      by_cases ea : a = i
      · subst ea
        (try dsimp only at ha); rw [setN_same] at ha
        (try dsimp only at hb); rw [setN_other _ _ (Ne.symm hab)] at hb
        cases ha
        exact hi.apart a b o (k, v) n o2 kv2 n2 hab h hb
      · (try dsimp only at ha); rw [setN_other _ _ ea] at ha
        by_cases eb : b = i
        · subst eb
          (try dsimp only at hb); rw [setN_same] at hb
          cases hb
          exact hi.apart a b o1 kv1 n1 o (k, v) n hab ha h
        · (try dsimp only at hb); rw [setN_other _ _ eb] at hb
          exact hi.apart a b o1 kv1 n1 o2 kv2 n2 hab ha hb
    · intro a ha
      obtain ⟨q1, q2, q3, q4⟩ := hi.acked a ha
      have hap := q4 i o (k, v) n h
      dsimp only at hap
      refine ⟨q1, q2, fun x hx => ?_, fun j o' kv' n' hj => ?_⟩
      · dsimp only
        rw [hw _ (by omega)]
        exact q3 x hx
      · by_cases e : j = i
        · subst e
          (try dsimp only at hj); rw [setN_same] at hj
          cases hj
          exact hap
        · (try dsimp only at hj); rw [setN_other _ _ e] at hj
          exact q4 j o' kv' n' hj
  | @done s s' acks i o n k v h hn rest ih =>
    intro base d0 done hi
    obtain ⟨p1, p2, p3, p4⟩ := hi.pend i o (k, v) n h
    dsimp only at p1 p2 p3 p4
    have hne : ∀ j o' kv' n', setN s.pend i none j = some (o', kv', n') → j ≠ i ∧ s.pend j = some (o', kv', n') := by
      intro j o' kv' n' hj
      by_cases e : j = i
      · subst e; rw [setN_same] at hj; cases hj
      · rw [setN_other _ _ e] at hj; exact ⟨e, hj⟩
    have hI : WInv base d0 { s with pend := setN s.pend i none } ((o, (k, v)) :: done) := by
      refine ⟨hi.low, hi.baseOff, ?_, ?_, ?_⟩
      · intro j o' kv' n' hj
        exact hi.pend j o' kv' n' (hne j o' kv' n' hj).2
      · intro a b o1 kv1 n1 o2 kv2 n2 hab ha hb
        exact hi.apart a b o1 kv1 n1 o2 kv2 n2 hab (hne _ _ _ _ ha).2 (hne _ _ _ _ hb).2
      · intro a ha
        rcases List.mem_cons.1 ha with rfl | ha
        · refine ⟨p1, p2, fun x hx => p4 x (by dsimp only at hx; omega), fun j o' kv' n' hj => ?_⟩
          obtain ⟨g1, g2⟩ := hne j o' kv' n' hj
          exact hi.apart j i o' kv' n' o (k, v) n g1 g2 h
        · obtain ⟨q1, q2, q3, q4⟩ := hi.acked a ha
          exact ⟨q1, q2, q3, fun j o' kv' n' hj => q4 j o' kv' n' (hne _ _ _ _ hj).2⟩
    obtain ⟨done', e, hsub, hd⟩ := ih base d0 ((o, (k, v)) :: done) hI
    refine ⟨done', fun x hx => ?_, fun a ha => hsub a (List.mem_cons_of_mem _ ha), hd⟩
    rcases List.mem_cons.1 hx with rfl | hx
    · exact ⟨(o, (k, v)), hsub _ List.mem_cons_self, rfl⟩
    · exact e x hx

/-- **C44** (partial). Any number of threads write pairs to a shard file at the same time, each reserving its place and then writing its
bytes one by one, in any interleaving. Whenever a write has returned, its descriptor reads back exactly the pair written, now and
after any later writes; and what was in the file before is unchanged. The file is below 4 GiB. Missing: that the store keeps its
files below 4 GiB. -/
theorem C44_read_back_partial {s s' s'' : WState} {acks acks' : List (BitVec 64 × KV)} (h0 : ∀ i, s.pend i = none) (h : WRun s acks s') (h' : WRun s' acks' s'')
    (hsmall : s''.off ≤ 4294967296) :
    (∀ d k v, (d, (k, v)) ∈ acks → k.length < 65536 → v.length < 65536 → 0 < k.length + v.length →
      readPair s'.data d = (k, v) ∧ readPair s''.data d = (k, v)) ∧
    (∀ i, i < s.off → s''.data i = s.data i) := by
  obtain ⟨d1, e1, _, i1⟩ := WRun.inv h s.off s.data [] ⟨fun _ _ => rfl, Nat.le_refl _, fun i o kv n hi => (by rw [h0] at hi; cases hi),
    fun i j o kv n o' kv' n' _ hi => (by rw [h0] at hi; cases hi), fun a ha => absurd ha List.not_mem_nil⟩
  obtain ⟨d2, e2, hsub, i2⟩ := WRun.inv h' s.off s.data d1 i1
  refine ⟨fun d k v hm hk hv hpos => ?_, i2.low⟩
  obtain ⟨⟨o, kv⟩, ha, e⟩ := e1 _ hm
  cases e
  obtain ⟨_, b1, c1, _⟩ := i1.acked _ ha
  obtain ⟨_, b2, c2, _⟩ := i2.acked _ (hsub _ ha)
  dsimp only at b2
  exact ⟨stored_read c1 hk hv (by omega), stored_read c2 hk hv (by omega)⟩

/-- Two writers overlap: the second reserves, writes and returns between the first's reservation and its first byte. -/
example : ∃ s' : WState, WRun ⟨0, fun _ => 7, fun _ => none⟩ [(pack 1 1 2, ([3], [4])), (pack 1 0 1, ([9], [])), (pack 1 0 0, ([5], []))] s' ∧
    s'.off ≤ 4294967296 ∧ s'.data 0 = 5 ∧ s'.data 3 = 4 := by
  refine ⟨_, .reserve 0 [5] [] rfl <| .reserve 1 [9] [] rfl <| .reserve 2 [3] [4] rfl <| .byte (i := 2) (o := 2) (n := 0) (k := [3]) (v := [4]) rfl (by decide) <|
    .byte (i := 1) (o := 1) (n := 0) (k := [9]) (v := []) rfl (by decide) <| .byte (i := 2) (o := 2) (n := 1) (k := [3]) (v := [4]) rfl (by decide) <|
    .done (i := 2) (o := 2) (n := 2) (k := [3]) (v := [4]) rfl rfl <| .done (i := 1) (o := 1) (n := 1) (k := [9]) (v := []) rfl rfl <|
    .byte (i := 0) (o := 0) (n := 0) (k := [5]) (v := []) rfl (by decide) <| .done (i := 0) (o := 0) (n := 1) (k := [5]) (v := []) rfl rfl <| .nil _, by decide, rfl, rfl⟩

end Candy.Props
