/-!
# Byte strings and little-endian encodings

Models the parts of `bytemuck` the code relies on: `bytes_of(&u64)` / `from_bytes::<u64>` on a little-endian
machine (src/hashing.rs:81-100 fixes the byte order by a unit test; src/lists.rs, src/queues.rs use it for
indices and for the `List`/`Queue` records).
-/
namespace Candy

/-- `Vec<u8>` / `&[u8]`. -/
abbrev Bytes := List UInt8

/-- `2^64`, the modulus of `u64` arithmetic. -/
abbrev U64 : Nat := 18446744073709551616

/-- `bytes_of(&(n as u64))`: eight bytes, least significant first (src/hashing.rs:90-95 pins the byte order). -/
def enc64 (n : Nat) : Bytes :=
  (List.range 8).map (fun i => UInt8.ofNat (n / 256 ^ i))

/-- `from_bytes::<u64>` / `u64::from_le_bytes`: the number denoted by a little-endian byte string. -/
def dec64 (b : Bytes) : Nat :=
  b.foldr (fun x acc => x.toNat + 256 * acc) 0

/-- `slice.ends_with(suffix)`. -/
def endsWith (k suffix : Bytes) : Bool := suffix.isSuffixOf k

/-- Release-build `u64` addition (wrapping). -/
def wadd (a b : Nat) : Nat := (a + b) % U64
/-- Release-build `u64` subtraction (wrapping). -/
def wsub (a b : Nat) : Nat := (a + (U64 - b % U64)) % U64

@[simp] theorem enc64_length (n : Nat) : (enc64 n).length = 8 := by simp [enc64]

theorem dec64_enc64 (n : Nat) : dec64 (enc64 n) = n % U64 := by
  simp only [dec64, enc64, List.range, List.range.loop, List.map, List.foldr, UInt8.toNat_ofNat',
    U64, Nat.reducePow, Nat.div_one]
  omega

theorem dec64_enc64_of_lt {n : Nat} (h : n < U64) : dec64 (enc64 n) = n := by
  rw [dec64_enc64]; exact Nat.mod_eq_of_lt h

theorem enc64_inj {a b : Nat} (ha : a < U64) (hb : b < U64) (h : enc64 a = enc64 b) : a = b := by
  rw [← dec64_enc64_of_lt ha, ← dec64_enc64_of_lt hb, h]

theorem endsWith_iff {k s : Bytes} : endsWith k s = true ↔ ∃ p, k = p ++ s := by
  unfold endsWith
  rw [List.isSuffixOf_iff_suffix]
  constructor
  · rintro ⟨p, hp⟩; exact ⟨p, hp.symm⟩
  · rintro ⟨p, hp⟩; exact ⟨p, hp.symm⟩

theorem wadd_eq {a b : Nat} (h : a + b < U64) : wadd a b = a + b := Nat.mod_eq_of_lt h

theorem wsub_eq {a b : Nat} (ha : a < U64) (h : b ≤ a) : wsub a b = a - b := by
  unfold wsub; simp only [U64] at *; omega

end Candy
