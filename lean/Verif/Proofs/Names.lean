import Verif.Model.Names
/-! Printing and parsing of file names. -/
namespace Candy

theorem hexVal_hexChar : ∀ n, n < 16 → hexVal (hexChar n) = some n := by decide
theorem hexChar_ne : ∀ n, n < 16 → hexChar n ≠ '-' ∧ hexChar n ≠ '+' ∧ hexChar n ≠ '_' := by decide

theorem hexDigits_chars (n : Nat) : ∀ c ∈ hexDigits n, ∃ k, k < 16 ∧ c = hexChar k := by
  induction n using Nat.strongRecOn with
  | _ n ih =>
    intro c hc
    rw [hexDigits] at hc
    split at hc
    · rename_i h
      simp only [List.mem_singleton] at hc
      exact ⟨n, h, hc⟩
    · rename_i h
      rcases List.mem_append.1 hc with h' | h'
      · exact ih (n / 16) (by omega) c h'
      · simp only [List.mem_singleton] at h'
        exact ⟨n % 16, by omega, h'⟩

theorem hexDigits_ne (n : Nat) : hexDigits n ≠ [] := by
  rw [hexDigits]
  split <;> simp

theorem hex04_chars (n : Nat) : ∀ c ∈ hex04 n, ∃ k, k < 16 ∧ c = hexChar k := by
  intro c hc
  rcases List.mem_append.1 hc with h | h
  · exact ⟨0, by omega, by rw [(List.mem_replicate.1 h).2]; decide⟩
  · exact hexDigits_chars n c h

theorem hex04_ne (n : Nat) : hex04 n ≠ [] := by
  intro h
  exact hexDigits_ne n (List.append_eq_nil_iff.1 h).2

theorem hexLoop_digits (n : Nat) : ∀ rest, n < 2 ^ 32 → hexLoop (hexDigits n ++ rest) 0 = hexLoop rest n := by
  induction n using Nat.strongRecOn with
  | _ n ih =>
    intro rest hn
    rw [hexDigits]
    split
    · rename_i h
      simp only [List.singleton_append, hexLoop, hexVal_hexChar n h]
      rw [if_pos (by omega)]
      congr 1
      omega
    · rename_i h
      rw [List.append_assoc, ih (n / 16) (by omega) _ (by omega)]
      simp only [List.singleton_append, hexLoop, hexVal_hexChar (n % 16) (by omega)]
      rw [if_pos (by omega)]
      congr 1
      omega

theorem hexLoop_zeroes (k : Nat) (l : List Char) : hexLoop (List.replicate k '0' ++ l) 0 = hexLoop l 0 := by
  induction k with
  | zero => rfl
  | succ k ih =>
    rw [List.replicate_succ, List.cons_append, hexLoop]
    have : hexVal '0' = some 0 := by decide
    rw [this]
    exact ih

theorem parse_hex04 (n : Nat) (hn : n < 2 ^ 32) : parseU32 (hex04 n) = some n := by
  have h1 : hexLoop (hex04 n) 0 = some n := by
    have := hexLoop_digits n [] hn
    rw [List.append_nil] at this
    rw [hex04, hexLoop_zeroes, this]
    rfl
  have h2 := hex04_chars n
  have h3 := hex04_ne n
  revert h1 h2 h3
  cases hex04 n with
  | nil => intro _ _ h; exact absurd rfl h
  | cons c cs =>
    intro h1 h2 _
    obtain ⟨k, hk, e⟩ := h2 c (by simp)
    have := (hexChar_ne k hk).2.1
    rw [← e] at this
    unfold parseU32
    split
    · rename_i h; exact absurd h (by simp)
    · rename_i h; injection h with h _; exact absurd h this
    · exact h1

theorem splitOnce_append (c : Char) : ∀ (a b : List Char), c ∉ a → splitOnce c (a ++ c :: b) = some (a, b)
  | [], b, _ => by simp [splitOnce]
  | x :: a, b, h => by
    simp only [List.mem_cons, not_or] at h
    rw [List.cons_append, splitOnce, if_neg (fun e => h.1 e.symm), splitOnce_append c a b h.2]
    rfl

theorem hex04_not (n : Nat) : '-' ∉ hex04 n ∧ '_' ∉ hex04 n := by
  constructor <;> intro h <;> obtain ⟨k, hk, e⟩ := hex04_chars n _ h
  · exact (hexChar_ne k hk).1 e.symm
  · exact (hexChar_ne k hk).2.2 e.symm

theorem isPrefixOf_append (a b : List Char) : a.isPrefixOf (a ++ b) = true := by simp

/-- The first word of a name (up to the first `_`), and the two numbers. -/
theorem split_print (n : FName) : ∃ w, n.kind.prefix = w ++ ['_'] ∧ '_' ∉ w ∧
    splitOnce '_' n.print = some (w, hex04 n.lo ++ '-' :: hex04 n.hi) ∧
    splitOnce '-' (hex04 n.lo ++ '-' :: hex04 n.hi) = some (hex04 n.lo, hex04 n.hi) := by
  have key : ∀ w, n.kind.prefix = w ++ ['_'] → '_' ∉ w → splitOnce '_' n.print = some (w, hex04 n.lo ++ '-' :: hex04 n.hi) := by
    intro w hw hn
    rw [FName.print, hw, List.append_assoc, List.append_assoc, List.singleton_append]
    exact splitOnce_append '_' w _ hn
  have k2 := splitOnce_append '-' (hex04 n.lo) (hex04 n.hi) (hex04_not n.lo).1
  cases hk : n.kind with
  | shard => exact ⟨"shard".toList, by decide, by decide, key _ (by rw [hk]; decide) (by decide), k2⟩
  | compact => exact ⟨"compact".toList, by decide, by decide, key _ (by rw [hk]; decide) (by decide), k2⟩
  | bottom => exact ⟨"bottom".toList, by decide, by decide, key _ (by rw [hk]; decide) (by decide), k2⟩
  | top => exact ⟨"top".toList, by decide, by decide, key _ (by rw [hk]; decide) (by decide), k2⟩
  | merge => exact ⟨"merge".toList, by decide, by decide, key _ (by rw [hk]; decide) (by decide), k2⟩

theorem print_inj (n m : FName) (hn : n.lo < 2 ^ 32 ∧ n.hi < 2 ^ 32) (hm : m.lo < 2 ^ 32 ∧ m.hi < 2 ^ 32) (h : n.print = m.print) : n = m := by
  obtain ⟨w, hw, _, h1, h2⟩ := split_print n
  obtain ⟨w', hw', _, h1', h2'⟩ := split_print m
  rw [h, h1'] at h1
  injection h1 with h1
  injection h1 with e1 e2
  rw [← e2, h2'] at h2
  injection h2 with h2
  injection h2 with e3 e4
  have a := parse_hex04 n.lo hn.1
  rw [← e3, parse_hex04 m.lo hm.1] at a
  have b := parse_hex04 n.hi hn.2
  rw [← e4, parse_hex04 m.hi hm.2] at b
  injection a with a
  injection b with b
  have hk : n.kind.prefix = m.kind.prefix := by rw [hw, hw', e1]
  have hk' : n.kind = m.kind := by
    revert hk
    cases n.kind <;> cases m.kind <;> first | (intro _; rfl) | (intro h; exact absurd h (by decide))
  cases n; cases m
  simp only at a b hk' ⊢
  rw [a, b, hk']

theorem prefix_print (k : Kind) (n : FName) : k.prefix.isPrefixOf n.print = decide (n.kind = k) := by
  rw [FName.print, List.append_assoc]
  generalize hex04 n.lo ++ '-' :: hex04 n.hi = r
  cases n.kind <;> cases k <;> simp [Kind.prefix, List.isPrefixOf]

theorem classify_print (n : FName) (hn : n.lo < 2 ^ 32 ∧ n.hi < 2 ^ 32) :
    classify n.print = match n.kind with
      | .shard => if n.lo < n.hi ∧ n.hi ≤ END_OF_SHARDS then .shard n.lo n.hi else .badSpan
      | .compact => .ignore
      | _ => .remove := by
  obtain ⟨w, hw, _, h1, h2⟩ := split_print n
  have p1 := prefix_print .bottom n
  have p2 := prefix_print .top n
  have p3 := prefix_print .merge n
  have p4 := prefix_print .shard n
  rw [classify, p1, p2, p3, p4, h1]
  simp only []
  rw [h2]
  simp only [parse_hex04 n.lo hn.1, parse_hex04 n.hi hn.2]
  cases n.kind <;> simp

end Candy
