import Verif.Proofs.Quota
/-!
# A compaction that does not finish

While a compaction of a shard is running, insertions are not checked against the maximal size of a shard. Here: one key is overwritten again and again while the compaction thread does not get to run.
-/
namespace Candy
open Spec

/-- The shard after `n` insertions under the key `a` (row 0) of pairs of `x` bytes, the last with value `v`. -/
structure Swollen (cfg : Cfg) (a : Bytes) (x n : Nat) (v : Bytes) (s : Shard) : Prop where
  lo : s.lo = 0
  hi : s.hi = 65536
  sig : (s.src.slot 0 0).sig = (cfg.ph a).sig
  desc : s.src.readKV (s.src.slot 0 0).desc = (a, v)
  row1 : ∀ c, s.src.slot 1 c = ⟨0#32, 0#64⟩
  data : ∀ i, s.src.data i ≠ 255
  off : s.src.writeOff = n * x
  phase : (s.tgt = none ∧ s.src.wasted + x = s.src.writeOff) ∨ s.tgt = some MFile.empty

theorem lookup_zero {row : Nat → Slot} {sig : BitVec 32} (h : (row 0).sig = sig) : lookup row sig 0 = some 0 := by
  unfold lookup
  rw [show ROW_WIDTH - 0 = 511 + 1 from rfl, List.range'_succ, List.find?_cons_of_pos (by simp [h])]

theorem lookups_zero {row : Nat → Slot} {sig : BitVec 32} (h : (row 0).sig = sig) : ∃ l, lookups row sig 0 = 0 :: l := by
  rw [lookups]
  split
  · rename_i e; rw [lookup_zero h] at e; cases e
  · rename_i i e; rw [lookup_zero h] at e; cases e; exact ⟨_, rfl⟩

theorem lookups_none {row : Nat → Slot} {sig : BitVec 32} (h : ∀ c, (row c).sig ≠ sig) : lookups row sig 0 = [] := by
  rw [lookups]
  split
  · rfl
  · rename_i i e
    unfold lookup at e
    have := List.find?_some e
    simp only [beq_iff_eq] at this
    exact absurd this (h i)

theorem writeAt_ne {data : Nat → UInt8} {off : Nat} {bs : Bytes} (h : ∀ i, data i ≠ 255) (hb : ∀ x ∈ bs, x ≠ 255) (i : Nat) : writeAt data off bs i ≠ 255 := by
  unfold writeAt
  split
  · rename_i hi
    have hlt : i - off < bs.length := by omega
    rw [List.getD_eq_getElem?_getD, List.getElem?_eq_getElem hlt]
    exact hb _ (List.getElem_mem _)
  · exact h i

theorem writeAt_twice (data : Nat → UInt8) (off : Nat) (bs : Bytes) (i : Nat) : writeAt data off bs i = writeAt (writeAt data off bs) off bs i := by
  unfold writeAt
  split <;> rfl

theorem active_zero {s : Shard} (h : s.tgt = none ∨ s.tgt = some MFile.empty) (r : Nat) : s.active r = s.src ∧ ∀ ps, s.runActive r ps = { s with src := s.src.run ps } := by
  unfold Shard.active Shard.runActive
  rcases h with e | e <;> rw [e]
  · exact ⟨rfl, fun _ => rfl⟩
  · exact ⟨by simp [MFile.empty], fun ps => by simp [MFile.empty]⟩

theorem Swollen.phase' {cfg : Cfg} {a v : Bytes} {x n : Nat} {s : Shard} (h : Swollen cfg a x n v s) : s.tgt = none ∨ s.tgt = some MFile.empty :=
  h.phase.imp (fun h => h.1) id

/-- The insertion is never refused for lack of space. -/
theorem Swollen.notFull {cfg : Cfg} {a v : Bytes} {x n m : Nat} {s : Shard} (h : Swollen cfg a x n v s) (hm : m ≤ x) (hx : cfg.minCompaction.toNat + x + x ≤ cfg.maxShardSize.toNat) :
    (!s.tgt.isSome && !(decide (cfg.minCompaction.toNat ≤ s.src.wasted)) && decide (cfg.maxShardSize.toNat < s.src.writeOff + m)) = false := by
  rcases h.phase with ⟨e, hw⟩ | e
  · rw [e]
    by_cases hc : cfg.minCompaction.toNat ≤ s.src.wasted
    · simp [hc]
    · have : ¬ cfg.maxShardSize.toNat < s.src.writeOff + m := by omega
      simp [this]
  · rw [e]; simp

/-- One more insertion. -/
theorem Swollen.next {cfg : Cfg} {a v v' : Bytes} {x n : Nat} {s : Shard} (h : Swollen cfg a x n v s) (hr : (cfg.ph a).rowSel = 0) (ha : ∀ y ∈ a, y ≠ 255) (hv' : ∀ y ∈ v', y ≠ 255)
    (hka : a.length < 65536) (hlv' : v'.length < 65536) (hx : a.length + v'.length = x) (hxv : a.length + v.length = x) (hne : v' ≠ v) (hoff : n * x < 4294967296)
    (hc : cfg.minCompaction.toNat + x + x ≤ cfg.maxShardSize.toNat) :
    ∃ s', s.insert cfg (cfg.ph a) a v' .set = (s', .replaced v) ∧ Swollen cfg a x (n + 1) v' s' := by
  obtain ⟨e1, e2⟩ := active_zero h.phase' 0
  obtain ⟨l, hl⟩ := lookups_zero (row := s.src.slot 0) h.sig
  have hf := h.notFull (m := a.length + v'.length) (by omega) hc
  let ps := s.src.replacePrims 0 0 a v' v
  have hplan : s.insertPlan cfg (cfg.ph a) a v' .set = (ps, .replaced v, if !s.tgt.isSome && decide (cfg.minCompaction.toNat ≤ s.src.wasted) then some s.src.writeOff else none) := by
    unfold Shard.insertPlan
    rw [hr]
    dsimp only
    rw [e1, hf, hl]
    simp only [Bool.false_eq_true, if_false, MFile.tryReplace, h.desc, ne_eq, not_true_eq_false, hne, not_false_eq_true, if_true]
    rfl
  have hS : ∀ tgt, (tgt = none ∧ s.tgt = none) ∨ tgt = some MFile.empty → Swollen cfg a x (n + 1) v' { s with src := s.src.run ps, tgt := tgt } := by
    intro tgt ht
    have hdata : ∀ i, (s.src.run ps).data i = writeAt s.src.data s.src.writeOff (a ++ v') i := fun i => rfl
    refine ⟨h.lo, h.hi, ?_, ?_, ?_, ?_, ?_, ?_⟩
    · show (setSlot s.src.slot 0 0 _ 0 0).sig = _
      simp only [setSlot, and_self, if_true]
      exact h.sig
    · show (s.src.run ps).readKV (setSlot s.src.slot 0 0 _ 0 0).desc = _
      simp only [setSlot, and_self, if_true]
      refine readKV_written hka hlv' (by rw [h.off]; exact hoff) ?_
      exact writeAt_twice _ _ _
    · intro c
      show setSlot s.src.slot 0 0 ⟨(s.src.slot 0 0).sig, s.src.newDesc a v'⟩ 1 c = _
      simp only [setSlot, Nat.succ_ne_zero, false_and, if_false]
      exact h.row1 c
    · intro i
      exact writeAt_ne h.data (fun y hy => (List.mem_append.1 hy).elim (ha y) (hv' y)) i
    · show s.src.writeOff + (a.length + v'.length) = _
      rw [h.off, hx, Nat.succ_mul]
    · rcases ht with ⟨rfl, ht⟩ | rfl
      · left
        rcases h.phase with ⟨_, hw⟩ | e
        · refine ⟨rfl, ?_⟩
          show s.src.wasted + (a.length + v.length) + x = s.src.writeOff + (a.length + v'.length)
          omega
        · rw [ht] at e; cases e
      · exact .inr rfl
  unfold Shard.insert
  rw [hplan, hr]
  dsimp only
  rw [e2]
  rcases h.phase' with e | e
  · rw [e]
    by_cases hw : cfg.minCompaction.toNat ≤ s.src.wasted
    · simp only [Option.isSome_none, Bool.not_false, hw, decide_true, Bool.and_self, if_true]
      refine ⟨_, rfl, ?_⟩
      unfold Shard.beginCompaction
      rw [if_neg (by show ¬ s.src.writeOff + (a.length + v'.length) < s.src.writeOff; omega)]
      dsimp only
      exact hS _ (.inr rfl)
    · simp only [hw, decide_false, Bool.and_false, Bool.false_eq_true, if_false]
      refine ⟨_, rfl, ?_⟩
      have := hS none (.inl ⟨rfl, e⟩)
      rwa [← e] at this ⊢
  · rw [e]
    simp only [Option.isSome_some, Bool.not_true, Bool.false_and, Bool.false_eq_true, if_false]
    refine ⟨_, rfl, ?_⟩
    have := hS (some MFile.empty) (.inr rfl)
    rwa [← e] at this ⊢

/-- The first insertion. -/
theorem Swollen.first {cfg : Cfg} {a v : Bytes} {x : Nat} (hr : (cfg.ph a).rowSel = 0) (ha : ∀ y ∈ a, y ≠ 255) (hv : ∀ y ∈ v, y ≠ 255)
    (hka : a.length < 65536) (hlv : v.length < 65536) (hx : a.length + v.length = x) (hm : 0 < cfg.minCompaction.toNat) (hc : cfg.minCompaction.toNat + x + x ≤ cfg.maxShardSize.toNat) :
    ∃ s', (⟨0, 65536, MFile.empty, none⟩ : Shard).insert cfg (cfg.ph a) a v .set = (s', .added) ∧ Swollen cfg a x 1 v s' := by
  have hl : lookups (MFile.empty.slot 0) (cfg.ph a).sig 0 = [] := lookups_none (fun c => (cfg.ph_sig_ne a).symm)
  have hl0 : lookup (MFile.empty.slot 0) INVALID_SIG 0 = some 0 := lookup_zero rfl
  let ps := MFile.empty.putPrims 0 0 a v (cfg.ph a).sig
  have hplan : (⟨0, 65536, MFile.empty, none⟩ : Shard).insertPlan cfg (cfg.ph a) a v .set = (ps, .added, none) := by
    unfold Shard.insertPlan
    rw [hr]
    have e1 : (⟨0, 65536, MFile.empty, none⟩ : Shard).active 0 = MFile.empty := rfl
    dsimp only
    rw [e1, hl, hl0]
    have e2 : MFile.empty.wasted = 0 := rfl
    have e3 : MFile.empty.writeOff = 0 := rfl
    have h1 : ¬ cfg.minCompaction.toNat ≤ 0 := by omega
    have h2 : ¬ cfg.maxShardSize.toNat < 0 + (a.length + v.length) := by omega
    simp only [e2, e3, h1, h2, decide_false, Bool.and_false, Bool.false_eq_true, if_false, MFile.tryReplace]
    rfl
  unfold Shard.insert
  rw [hplan, hr]
  refine ⟨_, rfl, ?_⟩
  refine ⟨rfl, rfl, ?_, ?_, ?_, ?_, ?_, ?_⟩
  · show (setSlot (setSlot (MFile.empty.slot) 0 0 ⟨0#32, MFile.empty.newDesc a v⟩) 0 0 ⟨(cfg.ph a).sig, MFile.empty.newDesc a v⟩ 0 0).sig = _
    simp [setSlot]
  · show MFile.readKV _ (setSlot (setSlot (MFile.empty.slot) 0 0 ⟨0#32, MFile.empty.newDesc a v⟩) 0 0 ⟨(cfg.ph a).sig, MFile.empty.newDesc a v⟩ 0 0).desc = _
    simp only [setSlot, and_self, if_true]
    refine readKV_written hka hlv (by show 0 < _; omega) ?_
    exact writeAt_twice _ _ _
  · intro c
    show setSlot (setSlot (MFile.empty.slot) 0 0 ⟨0#32, MFile.empty.newDesc a v⟩) 0 0 ⟨(cfg.ph a).sig, MFile.empty.newDesc a v⟩ 1 c = _
    simp [setSlot, MFile.empty]
  · intro i
    exact writeAt_ne (data := MFile.empty.data) (fun _ => by show (0:UInt8) ≠ 255; decide) (fun y hy => (List.mem_append.1 hy).elim (ha y) (hv y)) i
  · show 0 + (a.length + v.length) = _
    omega
  · left
    refine ⟨rfl, ?_⟩
    show 0 + x = 0 + (a.length + v.length)
    omega

/-- What is written beyond 4 GiB cannot be found. -/
theorem Swollen.lost {cfg : Cfg} {a v b w : Bytes} {x n : Nat} {s : Shard} (h : Swollen cfg a x n v s) (hoff : 4294967296 ≤ n * x) (hr : (cfg.ph b).rowSel = 1) (hb : b.head? = some 255)
    (hm : b.length + w.length ≤ x) (hc : cfg.minCompaction.toNat + x + x ≤ cfg.maxShardSize.toNat) :
    ∃ s', s.insert cfg (cfg.ph b) b w .set = (s', .added) ∧ s'.get (cfg.ph b) b = none := by
  obtain ⟨e1, e2⟩ := active_zero h.phase' 1
  have hl : lookups (s.src.slot 1) (cfg.ph b).sig 0 = [] := lookups_none (fun c => by rw [h.row1 c]; exact (cfg.ph_sig_ne b).symm)
  have hl0 : lookup (s.src.slot 1) INVALID_SIG 0 = some 0 := lookup_zero (by rw [h.row1 0]; rfl)
  have hf := h.notFull hm hc
  let ps := s.src.putPrims 1 0 b w (cfg.ph b).sig
  have hplan : s.insertPlan cfg (cfg.ph b) b w .set = (ps, .added, if !s.tgt.isSome && decide (cfg.minCompaction.toNat ≤ s.src.wasted) then some s.src.writeOff else none) := by
    unfold Shard.insertPlan
    rw [hr]
    dsimp only
    rw [e1, hf, hl, hl0]
    simp only [Bool.false_eq_true, if_false, MFile.tryReplace]
    rfl
  have hget : ∀ tgt, tgt = none ∨ tgt = some MFile.empty → Shard.get { s with src := s.src.run ps, tgt := tgt } (cfg.ph b) b = none := by
    intro tgt ht
    unfold Shard.get
    rw [hr]
    dsimp only
    rw [(active_zero (s := { s with src := s.src.run ps, tgt := tgt }) ht 1).1]
    dsimp only
    have hslot : ∀ c, (s.src.run ps).slot 1 c = if c = 0 then ⟨(cfg.ph b).sig, s.src.newDesc b w⟩ else ⟨0#32, 0#64⟩ := by
      intro c
      show setSlot (setSlot s.src.slot 1 0 _) 1 0 _ 1 c = _
      simp only [setSlot, true_and]
      split
      · rfl
      · exact h.row1 c
    obtain ⟨l, hlk⟩ := lookups_zero (row := (s.src.run ps).slot 1) (sig := (cfg.ph b).sig) (by rw [hslot]; rfl)
    have hall : ∀ is, MFile.getLoop (s.src.run ps) 1 b is = none ∨ ∃ i ∈ is, i ≠ 0 := by
      intro is
      induction is with
      | nil => exact .inl rfl
      | cons i is ih =>
        by_cases hi : i = 0
        · subst hi
          have hne : b ≠ ((s.src.run ps).readKV ((s.src.run ps).slot 1 0).desc).1 := by
            intro e
            rw [hslot] at e
            simp only [if_true] at e
            have hlt : descOff (s.src.newDesc b w) < 4294967296 := by unfold descOff; exact BitVec.isLt _
            cases b with
            | nil => simp at hb
            | cons y bs =>
              simp at hb
              subst hb
              unfold MFile.readKV at e
              dsimp only at e
              have := congrArg List.head? e
              simp only [List.head?_cons, List.head?_take] at this
              split at this
              · cases this
              · unfold readAt at this
                rw [List.head?_map] at this
                cases hh : (List.range (descKlen (s.src.newDesc (255 :: bs) w) + descVlen (s.src.newDesc (255 :: bs) w))).head? with
                | none => rw [hh] at this; cases this
                | some j =>
                  rw [hh] at this
                  have hj : j = 0 := by
                    rw [List.head?_range] at hh
                    split at hh
                    · cases hh
                    · cases hh; rfl
                  subst hj
                  simp only [Option.map_some, Option.some.injEq, Nat.add_zero] at this
                  have hd : (s.src.run ps).data (descOff (s.src.newDesc (255 :: bs) w)) = s.src.data (descOff (s.src.newDesc (255 :: bs) w)) := by
                    show writeAt s.src.data s.src.writeOff _ _ = _
                    unfold writeAt
                    rw [if_neg (by rw [h.off]; omega)]
                  rw [hd] at this
                  exact h.data _ this.symm
          rcases ih with ih | ⟨j, hj, hj0⟩
          · left
            unfold MFile.getLoop
            dsimp only
            rw [if_neg hne]; exact ih
          · exact .inr ⟨j, List.mem_cons_of_mem _ hj, hj0⟩
        · exact .inr ⟨i, List.mem_cons_self, hi⟩
    rcases hall (lookups ((s.src.run ps).slot 1) (cfg.ph b).sig 0) with e | ⟨i, hi, hi0⟩
    · exact e
    · exfalso
      have hs := (mem_lookups.1 hi).2
      rw [hslot, if_neg hi0] at hs
      exact cfg.ph_sig_ne b hs.symm
  unfold Shard.insert
  rw [hplan, hr]
  dsimp only
  rw [e2]
  refine ⟨_, rfl, ?_⟩
  split
  · unfold Shard.beginCompaction
    split
    · exact hget _ h.phase'
    · dsimp only
      split
      · exact hget _ h.phase'
      · exact hget _ (.inr rfl)
  · exact hget _ h.phase'


/-! ## Histories -/

/-- Bytes given since a compaction began are among the bytes given in total. -/
theorem Charged.step_le {cfg : Cfg} {α : Type} {w : Charged} {t : Tree} {p : Prog α} {n : Nat} (h : ∀ sp, w sp ≤ n) (sp : Span) : w.step cfg t p sp ≤ n + p.cost := by
  have := h sp
  cases p with
  | ins k v mode c =>
    show w.add t _ _ sp ≤ n + (k.length + v.length)
    unfold Charged.add
    split
    · split <;> omega
    · omega
  | _ => exact Nat.le_trans this (Nat.le_add_right _ _)

theorem CExecB.toQ {cfg : Cfg} {α : Type} {n n' q : Nat} {t t' : Tree} {p p' : Prog α} (h : CExecB cfg n t p n' t' p') : ∀ {w : Charged}, (∀ sp, w sp ≤ n) → n' ≤ q →
    ∃ w', QExec cfg q t w p t' w' p' ∧ ∀ sp, w' sp ≤ n' := by
  induction h with
  | refl n t p => exact fun {w} hw _ => ⟨w, .refl _ _ _, hw⟩
  | step h hr ih =>
    intro w hw hq
    obtain ⟨w', h1, h2⟩ := ih (Charged.step_le hw) hq
    have hm := hr.mono
    exact ⟨w', .step h (fun sp _ => Nat.le_trans (Charged.step_le hw sp) (Nat.le_trans hm hq)) h1, h2⟩
  | bg sel h _ ih =>
    intro w hw hq
    obtain ⟨w', h1, h2⟩ := ih hw hq
    exact ⟨w', .bg sel h h1, h2⟩

/-- A history of calls and background steps that is given at most `q` bytes in total is within the quota `q`. -/
theorem RunB.toQ {cfg : Cfg} {n n' q : Nat} {t t' : Tree} {es : List Event} (h : RunB cfg n t es n' t') : (∀ b, Event.merge b ∉ es) → ∀ {w : Charged}, (∀ sp, w sp ≤ n) → n' ≤ q →
    ∃ w', QRun cfg q t w es t' w' ∧ ∀ sp, w' sp ≤ n' := by
  induction h with
  | nil n t => exact fun _ {w} hw _ => ⟨w, .nil _ _, hw⟩
  | call h hr hne rest ih =>
    intro hm w hw hq
    obtain ⟨w1, h1, h2⟩ := h.toQ hw (Nat.le_trans rest.mono hq)
    obtain ⟨w2, h3, h4⟩ := ih (fun b hb => hm b (List.mem_cons_of_mem _ hb)) h2 hq
    exact ⟨w2, .call h1 hr hne h3, h4⟩
  | bg sel h rest ih =>
    intro hm w hw hq
    obtain ⟨w2, h3, h4⟩ := ih hm hw hq
    exact ⟨w2, .bg sel h h3, h4⟩
  | @merge _ _ _ _ _ _ _ b _ _ _ _ _ => exact fun hm => absurd List.mem_cons_self (hm b)
  | clear h rest ih =>
    intro hm w hw hq
    obtain ⟨w2, h3, h4⟩ := ih (fun b hb => hm b (List.mem_cons_of_mem _ hb)) hw hq
    exact ⟨w2, .clear h h3, h4⟩

theorem RunB.append {cfg : Cfg} {n n' n'' : Nat} {t t' t'' : Tree} {es es' : List Event} (h : RunB cfg n t es n' t') (h' : RunB cfg n' t' es' n'' t'') : RunB cfg n t (es ++ es') n'' t'' := by
  induction h with
  | nil => exact h'
  | call h hr hne rest ih => exact .call h hr hne (ih h')
  | bg sel h rest ih => exact .bg sel h (ih h')
  | merge hn hc h rest ih => exact .merge hn hc h (ih h')
  | clear h rest ih => exact .clear h (ih h')

/-- A `set` on a store of one shard. -/
theorem set_call {cfg : Cfg} {n : Nat} {s s' : Shard} {k v : Bytes} {st : InsStatus} {r : SetStatus} (hk : k.length ≤ 16128) (hv : v.length ≤ 65280) (hm : k.length + 1 + v.length ≤ cfg.maxShardSize.toNat)
    (hi : s.insert cfg (cfg.ph (userKey k)) (userKey k) v .set = (s', st)) (hst : (st = .added ∧ r = .createdNew) ∨ ∃ u, st = .replaced u ∧ r = .prevValue u) :
    RunB cfg n (.leaf s) [.call (.kv k (.set v)) (.ok (.setStatus r))] (n + (k.length + 1 + v.length)) (.leaf s') := by
  have hz : sizeErr cfg (userKey k) v = none := by
    unfold sizeErr userKey USER_NS
    have e1 : MAX_TOTAL_KEY_SIZE = 16383 := rfl
    have e2 : MAX_TOTAL_VALUE_SIZE = 65535 := rfl
    rw [List.length_append, List.length_singleton, e1, e2, if_neg (by omega), if_neg (by omega), if_neg (by omega)]
  have hins : Tree.insert cfg (cfg.ph (userKey k)) (userKey k) v .set 1 (.leaf s) = .ok (.leaf s', st) := by
    unfold Tree.insert
    rw [hi]
    rcases hst with ⟨rfl, _⟩ | ⟨u, rfl, _⟩ <;> rfl
  have hens : ensureSizes k v = .ret () := by
    unfold ensureSizes
    have e1 : MAX_KEY_SIZE = 16128 := rfl
    have e2 : MAX_VALUE_SIZE = 65280 := rfl
    rw [e1, e2, if_neg (by omega), if_neg (by omega)]
  have hlen : (userKey k).length + v.length = k.length + 1 + v.length := by
    unfold userKey USER_NS; rw [List.length_append, List.length_singleton]
  have hp : ∃ c : InsStatus → Prog Resp, (Call.kv k (.set v)).prog cfg = .ins (userKey k) v .set c ∧ c st = .ret (.setStatus r) := by
    unfold Call.prog
    dsimp only
    unfold KvOp.prog kvSet
    dsimp only
    rw [hens]
    refine ⟨_, rfl, ?_⟩
    rcases hst with ⟨rfl, rfl⟩ | ⟨u, rfl, rfl⟩ <;> rfl
  obtain ⟨c, hp, hc⟩ := hp
  refine .call (p := c st) (r := .ok (.setStatus r)) ?_ (by rw [hc]; rfl) (by simp) (.nil _ _)
  rw [hp, ← hlen]
  exact .step (.ins _ _ _ _ _ _ _ _ hz hins) (.refl _ _ _)

/-- A `get` on a store of one shard. -/
theorem get_call {cfg : Cfg} {n : Nat} {t : Tree} {k : Bytes} : RunB cfg n t [.call (.kv k .get) (.ok (.val (t.get cfg (userKey k))))] n t := by
  refine .call (p := .ret (.val (t.get cfg (userKey k)))) (n' := n) ?_ rfl (by simp) (.nil _ _)
  exact .step (.get _ _ _) (.refl _ _ _)

/-- The key is set `n` times, to two values in turn. -/
theorem swell {cfg : Cfg} {k v0 v1 : Bytes} {x : Nat} (hr : (cfg.ph (userKey k)).rowSel = 0) (hk : k.length ≤ 16128) (hk1 : ∀ y ∈ k, y ≠ 255) (h0 : ∀ y ∈ v0, y ≠ 255) (h1 : ∀ y ∈ v1, y ≠ 255)
    (hl0 : v0.length ≤ 65280) (hl1 : v1.length ≤ 65280) (hx0 : k.length + 1 + v0.length = x) (hx1 : k.length + 1 + v1.length = x) (hne : v0 ≠ v1) (hm : 0 < cfg.minCompaction.toNat)
    (hc : cfg.minCompaction.toNat + x + x ≤ cfg.maxShardSize.toNat) :
    ∀ n, n * x < 4294967296 → ∃ es s v, RunB cfg 0 (.leaf ⟨0, 65536, MFile.empty, none⟩) es ((n + 1) * x) (.leaf s) ∧ Swollen cfg (userKey k) x (n + 1) v s ∧ (v = v0 ∨ v = v1) ∧
      ∀ e ∈ es, ∃ u r, e = .call (.kv k (.set u)) r := by
  have hu : ∀ y ∈ userKey k, y ≠ 255 := by
    intro y hy
    rcases List.mem_append.1 hy with hy | hy
    · exact hk1 y hy
    · simp [USER_NS] at hy; subst hy; decide
  have hul : (userKey k).length = k.length + 1 := by unfold userKey USER_NS; rw [List.length_append, List.length_singleton]
  have step : ∀ {n v v' s es}, RunB cfg 0 (.leaf ⟨0, 65536, MFile.empty, none⟩) es ((n + 1) * x) (.leaf s) → Swollen cfg (userKey k) x (n + 1) v s → (n + 1) * x < 4294967296 → v' ≠ v →
      (∀ y ∈ v', y ≠ 255) → v'.length ≤ 65280 → k.length + 1 + v'.length = x → k.length + 1 + v.length = x →
      ∃ s', RunB cfg 0 (.leaf ⟨0, 65536, MFile.empty, none⟩) (es ++ [.call (.kv k (.set v')) (.ok (.setStatus (.prevValue v)))]) ((n + 1 + 1) * x) (.leaf s') ∧ Swollen cfg (userKey k) x (n + 1 + 1) v' s' := by
    intro n v v' s es hrun hs hlt hne h255 hlen hx' hx
    obtain ⟨s', e, hs'⟩ := hs.next hr hu h255 (by omega) (by omega) (by omega) (by omega) hne hlt hc
    refine ⟨s', ?_, hs'⟩
    have := hrun.append (set_call (r := .prevValue v) hk hlen (by omega) e (.inr ⟨v, rfl, rfl⟩))
    rw [hx', ← Nat.succ_mul] at this
    exact this
  intro n
  induction n with
  | zero =>
    intro _
    obtain ⟨s', e, hs'⟩ := Swollen.first (cfg := cfg) (x := x) hr hu h0 (by omega) (by omega) (by omega) hm hc
    have := set_call (n := 0) (r := .createdNew) hk hl0 (by omega) e (.inl ⟨rfl, rfl⟩)
    refine ⟨[.call (.kv k (.set v0)) (.ok (.setStatus .createdNew))], s', v0, ?_, hs', .inl rfl, ?_⟩
    · rw [hx0] at this
      rw [Nat.succ_mul, Nat.zero_mul]
      exact this
    · intro e he
      rw [List.mem_singleton] at he
      exact ⟨_, _, he⟩
  | succ n ih =>
    intro hlt
    obtain ⟨es, s, v, h2, h3, h4, h5⟩ := ih (by rw [Nat.succ_mul] at hlt; omega)
    have hes : ∀ (u r), ∀ e ∈ es ++ [Event.call (.kv k (.set u)) r], ∃ u r, e = .call (.kv k (.set u)) r := by
      intro u r e he
      rcases List.mem_append.1 he with he | he
      · exact h5 e he
      · rw [List.mem_singleton] at he; exact ⟨_, _, he⟩
    rcases h4 with rfl | rfl
    · obtain ⟨s', h6, h7⟩ := step h2 h3 hlt (Ne.symm hne) h1 hl1 hx1 hx0
      exact ⟨_, s', _, h6, h7, .inr rfl, hes _ _⟩
    · obtain ⟨s', h6, h7⟩ := step h2 h3 hlt hne h0 hl0 hx0 hx1
      exact ⟨_, s', _, h6, h7, .inl rfl, hes _ _⟩

end Candy
