import Verif.Model.Bytes
/-!
# Hashing and configuration (src/hashing.rs, src/lib.rs)
-/
namespace Candy

/-- `NUM_ROWS` (src/shard.rs:36). -/
abbrev NUM_ROWS : Nat := 64
/-- `ROW_WIDTH` (src/shard.rs:37). -/
abbrev ROW_WIDTH : Nat := 512
/-- `ShardRouter::END_OF_SHARDS` (src/router.rs:79). -/
abbrev END_OF_SHARDS : Nat := 65536

/-- `siphasher::sip128::Hash128`: the 128-bit SipHash result. -/
structure Hash128 where
  h1 : BitVec 64
  h2 : BitVec 64

/-- `PartedHash(u64)` (src/hashing.rs:9-11). -/
abbrev PH := BitVec 64

/-- `INVALID_SIG` (src/hashing.rs:24). -/
def INVALID_SIG : BitVec 32 := 0#32

/-- `PartedHash::shard_selector` (src/hashing.rs:40-42). -/
def PH.shardSel (ph : PH) : Nat := ((ph >>> 48) &&& 0xffff#64).toNat

/-- `PartedHash::row_selector` (src/hashing.rs:45-47): `((self.0 >> 32) as u16) as usize % NUM_ROWS`. -/
def PH.rowSel (ph : PH) : Nat := ((ph >>> 32).setWidth 16).toNat % NUM_ROWS

/-- `PartedHash::signature` (src/hashing.rs:50-52): `self.0 as u32`. -/
def PH.sig (ph : PH) : BitVec 32 := ph.setWidth 32

/-- The signature chosen by `from_hash` (src/hashing.rs:60-69). -/
def pickSig (h : Hash128) : BitVec 32 :=
  let s1 : BitVec 32 := h.h1.setWidth 32
  if s1 = INVALID_SIG then
    let s2 : BitVec 32 := h.h2.setWidth 32
    if s2 = INVALID_SIG then
      let s3 : BitVec 32 := (h.h2 >>> 32).setWidth 32
      if s3 = INVALID_SIG then 0x6052c9b7#32 else s3
    else s2
  else s1

/-- `PartedHash::from_hash` (src/hashing.rs:59-77), without the `whitebox_testing` feature. -/
def fromHash (h : Hash128) : PH :=
  let shard := h.h1 &&& 0xffff000000000000#64
  let row := h.h1 &&& 0x0000ffff00000000#64
  shard ||| row ||| (pickSig h).setWidth 64

/-- The configuration (src/lib.rs:83-107, src/store.rs:30-44) as far as it influences behaviour.
`hash` stands for `SipHasher24::new_with_key(&hash_seed).hash(..)`: an arbitrary function, so theorems hold for every
seed and every pattern of collisions. `max_shard_size` and `min_compaction_threashold` are `u32`. -/
structure Cfg where
  hash : Bytes → Hash128
  maxShardSize : UInt32
  minCompaction : UInt32
  expectedKeys : Nat
  maxListOps : UInt32

/-- `PartedHash::new(&config.hash_seed, buf)` (src/hashing.rs:30-32). -/
def Cfg.ph (cfg : Cfg) (buf : Bytes) : PH := fromHash (cfg.hash buf)

/-- `num_keyed_locks` (src/store.rs:229-232), with the release-mode meaning of `1 << 32` for a `u32`, which is `1`. -/
def Cfg.numLocks (cfg : Cfg) : Nat :=
  let n := Nat.max cfg.maxListOps.toNat 4
  if n = 2 ^ Nat.log2 n then n else 2 ^ ((Nat.log2 n + 1) % 32)

/-- `CandyStore::lock_list` (src/lists.rs:141-143): the index of the lock, `signature & (num_keyed_locks - 1)`. -/
def Cfg.lockIdx (cfg : Cfg) (ph : PH) : Nat := ph.sig.toNat &&& (cfg.numLocks - 1)

/-- `MAX_TOTAL_KEY_SIZE` .. `MAX_VALUE_SIZE` (src/lib.rs:134-139). -/
abbrev MAX_TOTAL_KEY_SIZE : Nat := 0x3fff
abbrev MAX_TOTAL_VALUE_SIZE : Nat := 0xffff
abbrev MAX_KEY_SIZE : Nat := 0x3fff - 0xff
abbrev MAX_VALUE_SIZE : Nat := 0xffff - 0xff

theorem PH.shardSel_lt (ph : PH) : ph.shardSel < END_OF_SHARDS := by
  unfold PH.shardSel
  rw [BitVec.toNat_and]
  exact Nat.lt_of_le_of_lt Nat.and_le_right (by decide)

theorem PH.rowSel_lt (ph : PH) : ph.rowSel < NUM_ROWS := Nat.mod_lt _ (by decide)

theorem pickSig_ne (h : Hash128) : pickSig h ≠ INVALID_SIG := by
  unfold pickSig
  dsimp only
  split
  · split
    · split
      · decide
      · assumption
    · assumption
  · assumption

theorem fromHash_sig (h : Hash128) : (fromHash h).sig = pickSig h := by
  unfold fromHash PH.sig
  have hm1 : ∀ i : Fin 32, (0xffff000000000000#64).getLsbD i.1 = false := by decide
  have hm2 : ∀ i : Fin 32, (0x0000ffff00000000#64).getLsbD i.1 = false := by decide
  apply BitVec.eq_of_getLsbD_eq
  intro i hi
  have e1 := hm1 ⟨i, hi⟩
  have e2 := hm2 ⟨i, hi⟩
  simp only at e1 e2
  have hi' : i < 64 := by omega
  simp [hi]

theorem Cfg.ph_sig_ne (cfg : Cfg) (k : Bytes) : (cfg.ph k).sig ≠ INVALID_SIG := by
  unfold Cfg.ph; rw [fromHash_sig]; exact pickSig_ne _

attribute [irreducible] Cfg.ph PH.shardSel PH.rowSel PH.sig

end Candy
