import Verif.Model.Shard
/-!
# Facts about one shard file
-/
namespace Candy

/-! ## Packed descriptors -/

theorem pack_toNat {klen vlen off : Nat} (hk : klen < 65536) (hv : vlen < 65536) (ho : off < 4294967296) :
    (pack klen vlen off).toNat = klen * 281474976710656 + vlen * 4294967296 + off := by
  unfold pack
  rw [BitVec.toNat_or, BitVec.toNat_or, BitVec.toNat_shiftLeft, BitVec.toNat_shiftLeft, BitVec.toNat_ofNat,
    BitVec.toNat_ofNat, BitVec.toNat_ofNat]
  have e1 : klen % 2 ^ 64 = klen := Nat.mod_eq_of_lt (by omega)
  have e2 : vlen % 2 ^ 64 = vlen := Nat.mod_eq_of_lt (by omega)
  have e3 : off % 2 ^ 64 = off := Nat.mod_eq_of_lt (by omega)
  rw [e1, e2, e3]
  have h1 : klen <<< 48 % 2 ^ 64 = klen <<< 48 := by
    rw [Nat.shiftLeft_eq]; exact Nat.mod_eq_of_lt (by omega)
  have h2 : vlen <<< 32 % 2 ^ 64 = vlen <<< 32 := by
    rw [Nat.shiftLeft_eq]; exact Nat.mod_eq_of_lt (by omega)
  rw [h1, h2, Nat.or_assoc]
  have h3 : vlen <<< 32 ||| off = vlen <<< 32 + off := (Nat.shiftLeft_add_eq_or_of_lt (by omega) _).symm
  rw [h3]
  have h4 : vlen <<< 32 + off < 2 ^ 48 := by rw [Nat.shiftLeft_eq]; omega
  rw [← Nat.shiftLeft_add_eq_or_of_lt h4, Nat.shiftLeft_eq, Nat.shiftLeft_eq]
  omega

theorem descKlen_eq (d : BitVec 64) : descKlen d = d.toNat / 281474976710656 := by
  unfold descKlen; rw [BitVec.toNat_ushiftRight, Nat.shiftRight_eq_div_pow]

theorem descVlen_eq (d : BitVec 64) : descVlen d = d.toNat / 4294967296 % 65536 := by
  unfold descVlen
  rw [BitVec.toNat_and, BitVec.toNat_ushiftRight, Nat.shiftRight_eq_div_pow]
  exact Nat.and_two_pow_sub_one_eq_mod _ 16

theorem descOff_eq (d : BitVec 64) : descOff d = d.toNat % 4294967296 := by
  unfold descOff; rw [BitVec.toNat_setWidth]

theorem descKlen_lt (d : BitVec 64) : descKlen d < 65536 := by
  rw [descKlen_eq]; have := d.isLt; omega

theorem descVlen_lt (d : BitVec 64) : descVlen d < 65536 := by
  rw [descVlen_eq]; omega

theorem desc_pack {klen vlen off : Nat} (hk : klen < 65536) (hv : vlen < 65536) (ho : off < 4294967296) :
    descKlen (pack klen vlen off) = klen ∧ descVlen (pack klen vlen off) = vlen ∧ descOff (pack klen vlen off) = off := by
  rw [descKlen_eq, descVlen_eq, descOff_eq, pack_toNat hk hv ho]
  omega

/-- First byte after the extent a descriptor denotes. -/
def descEnd (d : BitVec 64) : Nat := descOff d + (descKlen d + descVlen d)

/-! ## Reading and writing the data area -/

@[simp] theorem readAt_length (data off len) : (readAt data off len).length = len := by simp [readAt]

theorem readAt_writeAt_same (data : Nat → UInt8) (off : Nat) (bs : Bytes) :
    readAt (writeAt data off bs) off bs.length = bs := by
  apply List.ext_getElem
  · simp
  · intro i h1 h2
    simp only [readAt, List.getElem_map, List.getElem_range, writeAt]
    rw [if_pos (by omega)]
    simp [List.getD, List.getElem?_eq_getElem h2]

theorem readAt_congr {d d' : Nat → UInt8} {off len : Nat} (h : ∀ i, i < off + len → d i = d' i) :
    readAt d off len = readAt d' off len := by
  unfold readAt
  apply List.map_congr_left
  intro i hi
  rw [List.mem_range] at hi
  exact h _ (by omega)

theorem writeAt_below {data : Nat → UInt8} {off : Nat} {bs : Bytes} {i : Nat} (h : i < off) :
    writeAt data off bs i = data i := by
  unfold writeAt; rw [if_neg (by omega)]

theorem readKV_congr {f g : MFile} {d : BitVec 64} (h : ∀ i, i < descEnd d → f.data i = g.data i) :
    f.readKV d = g.readKV d := by
  simp only [MFile.readKV]
  rw [readAt_congr (d := f.data) (d' := g.data) (fun i hi => h i hi)]

theorem readKV_klen (f : MFile) (d : BitVec 64) : (f.readKV d).1.length = descKlen d := by
  simp [MFile.readKV]

theorem readKV_vlen (f : MFile) (d : BitVec 64) : (f.readKV d).2.length = descVlen d := by
  simp [MFile.readKV]

theorem readKV_written {f : MFile} {k v : Bytes} {off : Nat} (hk : k.length < 65536) (hv : v.length < 65536)
    (ho : off < 4294967296) (hd : ∀ i, f.data i = writeAt f.data off (k ++ v) i) :
    f.readKV (pack k.length v.length off) = (k, v) := by
  have hdata : f.data = writeAt f.data off (k ++ v) := funext hd
  obtain ⟨e1, e2, e3⟩ := desc_pack hk hv ho
  unfold MFile.readKV
  rw [e1, e2, e3, hdata]
  have : readAt (writeAt f.data off (k ++ v)) off (k.length + v.length) = k ++ v := by
    rw [← List.length_append]; exact readAt_writeAt_same _ _ _
  simp [this]

theorem writeAt_idem (data : Nat → UInt8) (off : Nat) (bs : Bytes) :
    writeAt (writeAt data off bs) off bs = writeAt data off bs := by
  funext i; unfold writeAt; split <;> rfl

/-! ## Lookup loops -/

theorem lookups_eq (row : Nat → Slot) (sig : BitVec 32) (start : Nat) :
    lookups row sig start = (List.range' start (ROW_WIDTH - start)).filter (fun i => (row i).sig == sig) := by
  fun_induction lookups row sig start with
  | case1 start h =>
    unfold lookup at h
    rw [List.find?_eq_none] at h
    symm; rw [List.filter_eq_nil_iff]; exact h
  | case2 start i h ih =>
    rw [ih]
    have hb := lookup_some h
    have hsplit : List.range' start (ROW_WIDTH - start)
        = List.range' start (i - start) ++ i :: List.range' (i + 1) (ROW_WIDTH - (i + 1)) := by
      have e : ROW_WIDTH - start = (i - start) + (1 + (ROW_WIDTH - (i + 1))) := by omega
      rw [e, ← List.range'_append_1, Nat.add_comm 1, List.range'_succ]
      have : start + (i - start) = i := by omega
      rw [this]
    unfold lookup at h
    rw [List.find?_eq_some_iff_append] at h
    obtain ⟨hi, as, bs, hab, has⟩ := h
    rw [hsplit, List.filter_append, List.filter_cons_of_pos (p := fun i => (row i).sig == sig) hi]
    have : (List.range' start (i - start)).filter (fun i => (row i).sig == sig) = [] := by
      rw [List.filter_eq_nil_iff]
      intro a ha
      have hlt : start ≤ a ∧ a < i := by rw [List.mem_range'_1] at ha; omega
      have hmem : a ∈ List.range' start (ROW_WIDTH - start) := by rw [List.mem_range'_1]; omega
      rw [hab, List.mem_append] at hmem
      rcases hmem with hm | hm
      · simpa using has a hm
      · exfalso
        have hs : (as ++ i :: bs).Pairwise (· < ·) := by
          rw [← hab]; exact List.pairwise_lt_range'
        rw [List.pairwise_append] at hs
        have := hs.2.1
        rw [List.pairwise_cons] at this
        rcases List.mem_cons.1 hm with rfl | hm
        · omega
        · have := this.1 a hm; omega
    rw [this, List.nil_append]

theorem mem_lookups {row : Nat → Slot} {sig : BitVec 32} {i : Nat} :
    i ∈ lookups row sig 0 ↔ i < ROW_WIDTH ∧ (row i).sig = sig := by
  rw [lookups_eq, List.mem_filter, List.mem_range'_1]
  simp

/-! ## Live entries -/

/-- The pair in a slot, if the slot is occupied. -/
def MFile.live (f : MFile) (r c : Nat) : Option KV :=
  if (f.slot r c).sig ≠ INVALID_SIG then some (f.readKV (f.slot r c).desc) else none

theorem liveRow_eq (f : MFile) (r : Nat) : f.liveRow r = (List.range ROW_WIDTH).filterMap (f.live r) := rfl

theorem live_eq_some {f : MFile} {r c : Nat} {kv : KV} :
    f.live r c = some kv ↔ (f.slot r c).sig ≠ INVALID_SIG ∧ f.readKV (f.slot r c).desc = kv := by
  unfold MFile.live; split <;> simp_all

theorem live_eq_none {f : MFile} {r c : Nat} : f.live r c = none ↔ (f.slot r c).sig = INVALID_SIG := by
  unfold MFile.live; split <;> simp_all

theorem mem_liveRow {f : MFile} {r : Nat} {kv : KV} : kv ∈ f.liveRow r ↔ ∃ c, c < ROW_WIDTH ∧ f.live r c = some kv := by
  rw [liveRow_eq, List.mem_filterMap]; simp

/-- Invariant of a shard file for the span `lo..hi`: occupied slots point below the write offset and hold a pair whose key hashes to
this row, this signature and into the span; no key occurs twice. -/
structure FileOK (cfg : Cfg) (lo hi : Nat) (f : MFile) : Prop where
  ext : ∀ r c, r < NUM_ROWS → c < ROW_WIDTH → (f.slot r c).sig ≠ INVALID_SIG → descEnd (f.slot r c).desc ≤ f.writeOff
  sig : ∀ r c kv, r < NUM_ROWS → c < ROW_WIDTH → f.live r c = some kv → (f.slot r c).sig = (cfg.ph kv.1).sig
  row : ∀ r c kv, r < NUM_ROWS → c < ROW_WIDTH → f.live r c = some kv → (cfg.ph kv.1).rowSel = r
  span : ∀ r c kv, r < NUM_ROWS → c < ROW_WIDTH → f.live r c = some kv →
    lo ≤ (cfg.ph kv.1).shardSel ∧ (cfg.ph kv.1).shardSel < hi
  inj : ∀ r c c' kv kv', r < NUM_ROWS → c < ROW_WIDTH → c' < ROW_WIDTH → f.live r c = some kv → f.live r c' = some kv' →
    kv.1 = kv'.1 → c = c'

theorem empty_live (r c : Nat) : MFile.empty.live r c = none := by
  rw [live_eq_none]; rfl

theorem FileOK.empty (cfg lo hi) : FileOK cfg lo hi MFile.empty := by
  constructor
  · intro r c _ _ h; exact absurd rfl h
  all_goals (intros; simp_all [empty_live])

theorem FileOK.mono {cfg lo hi lo' hi' f} (h : FileOK cfg lo hi f) (h1 : lo' ≤ lo) (h2 : hi ≤ hi') :
    FileOK cfg lo' hi' f :=
  ⟨h.ext, h.sig, h.row, fun r c kv hr hc hl => by have := h.span r c kv hr hc hl; omega, h.inj⟩

@[simp] theorem run_nil (f : MFile) : f.run [] = f := rfl
@[simp] theorem run_cons (f : MFile) (p ps) : f.run (p :: ps) = (p.app f).run ps := rfl
theorem run_append (f : MFile) (ps qs : List Prim) : f.run (ps ++ qs) = (f.run ps).run qs := by
  induction ps generalizing f with
  | nil => rfl
  | cons p ps ih => simp [ih]

/-! ### Effect of the three kinds of row update -/

/-- `setSlot` lookups. -/
theorem setSlot_same (s : Nat → Nat → Slot) (r c x) : setSlot s r c x r c = x := by simp [setSlot]
theorem setSlot_other (s : Nat → Nat → Slot) {r c r' c' x} (h : ¬ (r' = r ∧ c' = c)) : setSlot s r c x r' c' = s r' c' := by
  simp [setSlot, h]

theorem put_slot (f : MFile) (r c : Nat) (k v sig) (r' c' : Nat) :
    (f.run (f.putPrims r c k v sig)).slot r' c' = if r' = r ∧ c' = c then ⟨sig, f.newDesc k v⟩ else f.slot r' c' := by
  simp only [MFile.putPrims, MFile.writePrims, List.cons_append, List.nil_append, run_cons, run_nil, Prim.app]
  by_cases h : r' = r ∧ c' = c
  · obtain ⟨rfl, rfl⟩ := h; simp [setSlot]
  · simp [setSlot, h]

theorem put_data (f : MFile) (r c : Nat) (k v sig) :
    (f.run (f.putPrims r c k v sig)).data = writeAt f.data f.writeOff (k ++ v) := by
  simp [MFile.putPrims, MFile.writePrims, Prim.app]

theorem put_writeOff (f : MFile) (r c : Nat) (k v sig) :
    (f.run (f.putPrims r c k v sig)).writeOff = f.writeOff + (k.length + v.length) := by
  simp [MFile.putPrims, MFile.writePrims, Prim.app]

theorem put_cu (f : MFile) (r c : Nat) (k v sig) :
    (f.run (f.putPrims r c k v sig)).compactedUpTo = f.compactedUpTo := by
  simp [MFile.putPrims, MFile.writePrims, Prim.app]

theorem put_wasted (f : MFile) (r c : Nat) (k v sig) :
    (f.run (f.putPrims r c k v sig)).wasted = f.wasted := by
  simp [MFile.putPrims, MFile.writePrims, Prim.app]

theorem put_inserts (f : MFile) (r c : Nat) (k v sig) :
    (f.run (f.putPrims r c k v sig)).numInserts = f.numInserts + 1 := by
  simp [MFile.putPrims, MFile.writePrims, Prim.app]

theorem put_removals (f : MFile) (r c : Nat) (k v sig) :
    (f.run (f.putPrims r c k v sig)).numRemovals = f.numRemovals := by
  simp [MFile.putPrims, MFile.writePrims, Prim.app]

theorem replace_slot (f : MFile) (r c : Nat) (k v old) (r' c' : Nat) :
    (f.run (f.replacePrims r c k v old)).slot r' c'
      = if r' = r ∧ c' = c then ⟨(f.slot r c).sig, f.newDesc k v⟩ else f.slot r' c' := by
  simp only [MFile.replacePrims, MFile.writePrims, List.cons_append, List.nil_append, run_cons, run_nil, Prim.app]
  by_cases h : r' = r ∧ c' = c
  · obtain ⟨rfl, rfl⟩ := h; simp [setSlot]
  · simp [setSlot, h]

theorem replace_data (f : MFile) (r c : Nat) (k v old) :
    (f.run (f.replacePrims r c k v old)).data = writeAt f.data f.writeOff (k ++ v) := by
  simp [MFile.replacePrims, MFile.writePrims, Prim.app]

theorem replace_writeOff (f : MFile) (r c : Nat) (k v old) :
    (f.run (f.replacePrims r c k v old)).writeOff = f.writeOff + (k.length + v.length) := by
  simp [MFile.replacePrims, MFile.writePrims, Prim.app]

theorem replace_cu (f : MFile) (r c : Nat) (k v old) :
    (f.run (f.replacePrims r c k v old)).compactedUpTo = f.compactedUpTo := by
  simp [MFile.replacePrims, MFile.writePrims, Prim.app]

theorem replace_wasted (f : MFile) (r c : Nat) (k v old) :
    (f.run (f.replacePrims r c k v old)).wasted = f.wasted + (k.length + old.length) := by
  simp [MFile.replacePrims, MFile.writePrims, Prim.app]

theorem replace_inserts (f : MFile) (r c : Nat) (k v old) :
    (f.run (f.replacePrims r c k v old)).numInserts = f.numInserts := by
  simp [MFile.replacePrims, MFile.writePrims, Prim.app]

theorem replace_removals (f : MFile) (r c : Nat) (k v old) :
    (f.run (f.replacePrims r c k v old)).numRemovals = f.numRemovals := by
  simp [MFile.replacePrims, MFile.writePrims, Prim.app]

theorem remove_slot (f : MFile) (r c : Nat) (k v : Bytes) (r' c' : Nat) :
    (f.run (removePrims r c k v)).slot r' c'
      = if r' = r ∧ c' = c then ⟨INVALID_SIG, (f.slot r c).desc⟩ else f.slot r' c' := by
  simp only [removePrims, run_cons, run_nil, Prim.app]
  by_cases h : r' = r ∧ c' = c
  · obtain ⟨rfl, rfl⟩ := h; simp [setSlot]
  · simp [setSlot, h]

theorem remove_fields (f : MFile) (r c : Nat) (k v : Bytes) :
    (f.run (removePrims r c k v)).data = f.data ∧ (f.run (removePrims r c k v)).writeOff = f.writeOff ∧
    (f.run (removePrims r c k v)).compactedUpTo = f.compactedUpTo ∧
    (f.run (removePrims r c k v)).wasted = f.wasted + (k.length + v.length) ∧
    (f.run (removePrims r c k v)).numInserts = f.numInserts ∧
    (f.run (removePrims r c k v)).numRemovals = f.numRemovals + 1 := by
  simp [removePrims, Prim.app]

/-- All occupied slots of the file lie below the write offset. -/
def ExtOK (f : MFile) : Prop :=
  ∀ r c, r < NUM_ROWS → c < ROW_WIDTH → (f.slot r c).sig ≠ INVALID_SIG → descEnd (f.slot r c).desc ≤ f.writeOff

theorem newDesc_end {f : MFile} {k v : Bytes} (hk : k.length < 65536) (hv : v.length < 65536)
    (ho : f.writeOff < 4294967296) : descEnd (f.newDesc k v) = f.writeOff + (k.length + v.length) := by
  unfold descEnd MFile.newDesc
  obtain ⟨e1, e2, e3⟩ := desc_pack hk hv ho
  rw [e1, e2, e3]

/-- A file in which the pair `(k, v)` was appended and slot `(r,c)` points to it: live entries. -/
theorem live_append {f g : MFile} {r c : Nat} {k v : Bytes} {sig : BitVec 32} (hext : ExtOK f)
    (hk : k.length < 65536) (hv : v.length < 65536) (ho : f.writeOff < 4294967296)
    (hslot : ∀ r' c', g.slot r' c' = if r' = r ∧ c' = c then ⟨sig, f.newDesc k v⟩ else f.slot r' c')
    (hdata : g.data = writeAt f.data f.writeOff (k ++ v)) (hsig : sig ≠ INVALID_SIG)
    {r' c' : Nat} (hr : r' < NUM_ROWS) (hc : c' < ROW_WIDTH) :
    g.live r' c' = if r' = r ∧ c' = c then some (k, v) else f.live r' c' := by
  by_cases h : r' = r ∧ c' = c
  · rw [if_pos h, live_eq_some, hslot, if_pos h]
    refine ⟨hsig, ?_⟩
    apply readKV_written hk hv ho
    intro i
    rw [hdata, writeAt_idem]
  · rw [if_neg h]
    unfold MFile.live
    rw [hslot, if_neg h]
    by_cases hs : (f.slot r' c').sig ≠ INVALID_SIG
    · rw [if_pos hs, if_pos hs]
      congr 1
      apply readKV_congr
      intro i hi
      rw [hdata]
      exact writeAt_below (Nat.lt_of_lt_of_le hi (hext r' c' hr hc hs))
    · rw [if_neg hs, if_neg hs]

theorem live_put {f : MFile} {r c : Nat} {k v : Bytes} {sig : BitVec 32} (hext : ExtOK f)
    (hk : k.length < 65536) (hv : v.length < 65536) (ho : f.writeOff < 4294967296) (hsig : sig ≠ INVALID_SIG)
    {r' c' : Nat} (hr : r' < NUM_ROWS) (hc : c' < ROW_WIDTH) :
    (f.run (f.putPrims r c k v sig)).live r' c' = if r' = r ∧ c' = c then some (k, v) else f.live r' c' :=
  live_append hext hk hv ho (put_slot f r c k v sig) (put_data f r c k v sig) hsig hr hc

theorem live_replace {f : MFile} {r c : Nat} {k v old : Bytes} (hext : ExtOK f)
    (hk : k.length < 65536) (hv : v.length < 65536) (ho : f.writeOff < 4294967296)
    (hsig : (f.slot r c).sig ≠ INVALID_SIG) {r' c' : Nat} (hr : r' < NUM_ROWS) (hc : c' < ROW_WIDTH) :
    (f.run (f.replacePrims r c k v old)).live r' c' = if r' = r ∧ c' = c then some (k, v) else f.live r' c' :=
  live_append hext hk hv ho (replace_slot f r c k v old) (replace_data f r c k v old) hsig hr hc

theorem live_remove (f : MFile) (r c : Nat) (k v : Bytes) (r' c' : Nat) :
    (f.run (removePrims r c k v)).live r' c' = if r' = r ∧ c' = c then none else f.live r' c' := by
  by_cases h : r' = r ∧ c' = c
  · rw [if_pos h, live_eq_none, remove_slot, if_pos h]
  · rw [if_neg h]
    unfold MFile.live
    rw [remove_slot, if_neg h]
    rw [readKV_congr (f := f.run (removePrims r c k v)) (g := f) (fun i _ => by rw [(remove_fields f r c k v).1])]

theorem FileOK.extOK {cfg lo hi f} (h : FileOK cfg lo hi f) : ExtOK f := h.ext

/-- Putting a pair into a slot keeps the invariant if the key is not stored in another slot of the row. -/
theorem FileOK.append {cfg lo hi} {f g : MFile} {r c : Nat} {k v : Bytes} (h : FileOK cfg lo hi f)
    (hlive : ∀ r' c', r' < NUM_ROWS → c' < ROW_WIDTH → g.live r' c' = if r' = r ∧ c' = c then some (k, v) else f.live r' c')
    (hslot : ∀ r' c', g.slot r' c' = if r' = r ∧ c' = c then ⟨(cfg.ph k).sig, f.newDesc k v⟩ else f.slot r' c')
    (hoff : g.writeOff = f.writeOff + (k.length + v.length))
    (hk : k.length < 65536) (hv : v.length < 65536) (ho : f.writeOff < 4294967296)
    (hr : (cfg.ph k).rowSel = r) (hlo : lo ≤ (cfg.ph k).shardSel) (hhi : (cfg.ph k).shardSel < hi)
    (hfresh : ∀ c', c' < ROW_WIDTH → c' ≠ c → ∀ v', f.live r c' ≠ some (k, v')) :
    FileOK cfg lo hi g := by
  constructor
  · intro r' c' hr' hc' hs
    rw [hslot] at hs ⊢
    by_cases e : r' = r ∧ c' = c
    · rw [if_pos e] at hs ⊢
      rw [hoff]; show descEnd (f.newDesc k v) ≤ _
      rw [newDesc_end hk hv ho]; exact Nat.le_refl _
    · rw [if_neg e] at hs ⊢
      have := h.ext r' c' hr' hc' hs
      omega
  · intro r' c' kv hr' hc' hl
    rw [hlive r' c' hr' hc'] at hl
    rw [hslot]
    by_cases e : r' = r ∧ c' = c
    · rw [if_pos e] at hl ⊢
      simp only [Option.some.injEq] at hl
      subst hl; rfl
    · rw [if_neg e] at hl ⊢
      exact h.sig r' c' kv hr' hc' hl
  · intro r' c' kv hr' hc' hl
    rw [hlive r' c' hr' hc'] at hl
    by_cases e : r' = r ∧ c' = c
    · rw [if_pos e] at hl
      simp only [Option.some.injEq] at hl
      subst hl; rw [hr]; exact e.1.symm
    · rw [if_neg e] at hl
      exact h.row r' c' kv hr' hc' hl
  · intro r' c' kv hr' hc' hl
    rw [hlive r' c' hr' hc'] at hl
    by_cases e : r' = r ∧ c' = c
    · rw [if_pos e] at hl
      simp only [Option.some.injEq] at hl
      subst hl; exact ⟨hlo, hhi⟩
    · rw [if_neg e] at hl
      exact h.span r' c' kv hr' hc' hl
  · intro r' c1 c2 kv1 kv2 hr' hc1 hc2 hl1 hl2 hkk
    rw [hlive r' c1 hr' hc1] at hl1
    rw [hlive r' c2 hr' hc2] at hl2
    by_cases e1 : r' = r ∧ c1 = c <;> by_cases e2 : r' = r ∧ c2 = c
    · omega
    · rw [if_pos e1] at hl1; rw [if_neg e2] at hl2
      simp only [Option.some.injEq] at hl1
      subst hl1
      exfalso
      obtain ⟨rfl, rfl⟩ := e1
      refine hfresh c2 hc2 (fun e => e2 ⟨rfl, e⟩) kv2.2 ?_
      rw [hl2]; simp only at hkk; rw [hkk]
    · rw [if_neg e1] at hl1; rw [if_pos e2] at hl2
      simp only [Option.some.injEq] at hl2
      subst hl2
      exfalso
      obtain ⟨rfl, rfl⟩ := e2
      refine hfresh c1 hc1 (fun e => e1 ⟨rfl, e⟩) kv1.2 ?_
      rw [hl1]; simp only at hkk; rw [← hkk]
    · rw [if_neg e1] at hl1; rw [if_neg e2] at hl2
      exact h.inj r' c1 c2 kv1 kv2 hr' hc1 hc2 hl1 hl2 hkk

theorem FileOK.put {cfg lo hi} {f : MFile} {r c : Nat} {k v : Bytes} (h : FileOK cfg lo hi f)
    (hk : k.length < 65536) (hv : v.length < 65536) (ho : f.writeOff < 4294967296)
    (hr : (cfg.ph k).rowSel = r) (hlo : lo ≤ (cfg.ph k).shardSel) (hhi : (cfg.ph k).shardSel < hi)
    (hfresh : ∀ c', c' < ROW_WIDTH → c' ≠ c → ∀ v', f.live r c' ≠ some (k, v')) :
    FileOK cfg lo hi (f.run (f.putPrims r c k v (cfg.ph k).sig)) :=
  h.append (fun _ _ hr hc => live_put h.extOK hk hv ho (cfg.ph_sig_ne k) hr hc) (put_slot f r c k v _)
    (put_writeOff ..) hk hv ho hr hlo hhi hfresh

theorem FileOK.replace {cfg lo hi} {f : MFile} {r c : Nat} {k v old : Bytes} (h : FileOK cfg lo hi f)
    (hk : k.length < 65536) (hv : v.length < 65536) (ho : f.writeOff < 4294967296)
    (hr : r < NUM_ROWS) (hc : c < ROW_WIDTH) (hl : f.live r c = some (k, old)) :
    FileOK cfg lo hi (f.run (f.replacePrims r c k v old)) := by
  have hs : (f.slot r c).sig = (cfg.ph k).sig := h.sig r c (k, old) hr hc hl
  have hrow : (cfg.ph k).rowSel = r := h.row r c (k, old) hr hc hl
  have hspan : lo ≤ (cfg.ph k).shardSel ∧ (cfg.ph k).shardSel < hi := h.span r c (k, old) hr hc hl
  have hne : (f.slot r c).sig ≠ INVALID_SIG := (live_eq_some.1 hl).1
  refine h.append (r := r) (c := c) (k := k) (v := v) (fun r' c' hr' hc' => live_replace h.extOK hk hv ho hne hr' hc') ?_
    (replace_writeOff ..) hk hv ho hrow hspan.1 hspan.2 ?_
  · intro r' c'; rw [replace_slot, hs]
  · intro c' hc' hne' v' hl'
    exact hne' (h.inj r c' c _ _ hr hc' hc hl' hl rfl)

theorem FileOK.remove {cfg lo hi} {f : MFile} (h : FileOK cfg lo hi f) (r c : Nat) (k v : Bytes) :
    FileOK cfg lo hi (f.run (removePrims r c k v)) := by
  have hsub : ∀ r' c' kv, (f.run (removePrims r c k v)).live r' c' = some kv →
      ¬ (r' = r ∧ c' = c) ∧ f.live r' c' = some kv := by
    intro r' c' kv hl
    rw [live_remove] at hl
    by_cases e : r' = r ∧ c' = c
    · rw [if_pos e] at hl; exact absurd hl (by simp)
    · rw [if_neg e] at hl; exact ⟨e, hl⟩
  constructor
  · intro r' c' hr hc hs
    rw [remove_slot] at hs ⊢
    by_cases e : r' = r ∧ c' = c
    · rw [if_pos e] at hs; exact absurd rfl hs
    · rw [if_neg e] at hs ⊢; rw [(remove_fields f r c k v).2.1]; exact h.ext r' c' hr hc hs
  · intro r' c' kv hr hc hl
    obtain ⟨e, hl⟩ := hsub _ _ _ hl
    rw [remove_slot, if_neg e]; exact h.sig r' c' kv hr hc hl
  · intro r' c' kv hr hc hl; exact h.row r' c' kv hr hc (hsub _ _ _ hl).2
  · intro r' c' kv hr hc hl; exact h.span r' c' kv hr hc (hsub _ _ _ hl).2
  · intro r' c1 c2 kv1 kv2 hr h1 h2 hl1 hl2 hkk
    exact h.inj r' c1 c2 kv1 kv2 hr h1 h2 (hsub _ _ _ hl1).2 (hsub _ _ _ hl2).2 hkk

end Candy
