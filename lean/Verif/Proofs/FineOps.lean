import Verif.Proofs.FineCode
/-!
# The raw operations, and the copying of a row, are well-behaved
-/
namespace Candy
open Spec

/-! ## Stores to the slot table -/

/-- One cell changes, for one key. -/
theorem RowVal.cell {f g : MFile} {r c : Nat} {k k' : Bytes} {y : Option Bytes} (h : ∀ c', c' < ROW_WIDTH → c' ≠ c → g.live r c' = f.live r c')
    (hf : ∀ kv : KV, f.live r c = some kv → kv.1 = k) (hg : ∀ kv : KV, g.live r c = some kv → kv.1 = k) (hne : k' ≠ k) (hv : RowVal f r k' y) :
    RowVal g r k' y := by
  cases y with
  | none =>
    intro c' hc' v hl
    by_cases e : c' = c
    · subst e; exact hne (hg _ hl)
    · rw [h c' hc' e] at hl; exact hv c' hc' v hl
  | some v =>
    obtain ⟨c', hc', hl⟩ := hv
    refine ⟨c', hc', ?_⟩
    by_cases e : c' = c
    · subst e; exact absurd (hf _ hl) hne
    · rw [h c' hc' e]; exact hl

theorem inDesc_pack {k v : Bytes} {off : Nat} (hk : k.length < 65536) (hv : v.length < 65536) (ho : off < 4294967296) :
    descOff (pack k.length v.length off) = off ∧ descEnd (pack k.length v.length off) = off + (k.length + v.length) := by
  obtain ⟨h1, h2, h3⟩ := desc_pack hk hv ho
  exact ⟨h3, by unfold descEnd; rw [h1, h2, h3]⟩

theorem readKV_region {f : MFile} {k v : Bytes} {off : Nat} (hk : k.length < 65536) (hv : v.length < 65536) (ho : off < 4294967296)
    (hd : readAt f.data off (k.length + v.length) = k ++ v) : f.readKV (pack k.length v.length off) = (k, v) := by
  obtain ⟨h1, h2, h3⟩ := desc_pack hk hv ho
  unfold MFile.readKV
  simp only [h1, h2, h3, hd]
  simp

/-- The surplus after one cell has changed. -/
theorem surplus_cell {f g : MFile} {r c : Nat} (hr : r < NUM_ROWS) (hc : c < ROW_WIDTH)
    (h : ∀ r' c', ¬ (r' = r ∧ c' = c) → g.live r' c' = f.live r' c') (h1 : g.wasted = f.wasted) (h2 : g.writeOff = f.writeOff)
    (h3 : g.numRemovals = f.numRemovals) (h4 : g.numInserts = f.numInserts) :
    surplus g true + cellW kvSize g r c = surplus f true + cellW kvSize f r c ∧
    surplus g false + cellW (fun _ => 1) g r c = surplus f false + cellW (fun _ => 1) f r c := by
  have a := fileW_update kvSize hr hc (fun r' c' _ _ => h r' c')
  have b := fileW_update (fun _ => 1) hr hc (fun r' c' _ _ => h r' c')
  unfold surplus liveBytes liveCount
  simp only
  omega

/-- A store that changes one slot. -/
theorem store_slot {X : Actor} {pen pen' : Option Reg} {s : Shard} (hok : OKs X pen s) (p : Prim) (c : Nat)
    (hslot : ∀ r' c', ¬ (r' = X.row ∧ c' = c) → (p.app (s.file X.sd)).slot r' c' = (s.file X.sd).slot r' c')
    (hd : (p.app (s.file X.sd)).data = (s.file X.sd).data) (ho : (p.app (s.file X.sd)).writeOff = (s.file X.sd).writeOff)
    (hcu : (p.app (s.file X.sd)).compactedUpTo = (s.file X.sd).compactedUpTo) (hpen : ∀ R, pen' = some R → pen = some R)
    (hthis : (p.app (s.file X.sd)).live X.row c = none ∨ ∃ kv : KV, (p.app (s.file X.sd)).live X.row c = some kv ∧
      ((p.app (s.file X.sd)).slot X.row c).sig = (X.cfg.ph kv.1).sig ∧ (X.cfg.ph kv.1).rowSel = X.row ∧
      (X.lo ≤ (X.cfg.ph kv.1).shardSel ∧ (X.cfg.ph kv.1).shardSel < X.hi) ∧ pen' = none ∧
      (∀ b, inDesc ((p.app (s.file X.sd)).slot X.row c).desc b → inReg pen b) ∧ descEnd ((p.app (s.file X.sd)).slot X.row c).desc ≤ (s.file X.sd).writeOff ∧
      ∀ c', c' < ROW_WIDTH → c' ≠ c → ∀ kv' : KV, (s.file X.sd).live X.row c' = some kv' → kv'.1 ≠ kv.1)
    (hcp : X.bg = true → CopyAt X.row (s.upd X.sd p)) :
    Guar X pen pen' s (s.upd X.sd p) ∧
    (∀ r' c', ¬ (r' = X.row ∧ c' = c) → ((s.upd X.sd p).file X.sd).live r' c' = (s.file X.sd).live r' c') := by
  have hlive : ∀ r' c', ¬ (r' = X.row ∧ c' = c) → (p.app (s.file X.sd)).live r' c' = (s.file X.sd).live r' c' := fun r' c' h =>
    live_congr' (hslot r' c' h) (fun _ b _ => by rw [hd])
  refine ⟨mkGuar hok p (fun r hr c' => hslot r c' (fun e => hr e.1)) (fun b _ => by rw [hd]) (Nat.le_of_eq ho.symm) ?_ ?_ (fun R e => .inl (hpen R e)) (.inl hcu) hcp, ?_⟩
  · refine (hok.ok X.sd).set1 X.row c (Nat.le_of_eq ho.symm) (fun r' c' _ _ h => ⟨hslot r' c' h, hlive r' c' h⟩) (fun _ _ => ?_)
    rcases hthis with h | ⟨kv, h1, h2, h3, h4, _, _, h7, h8⟩
    · exact .inl h
    · exact .inr ⟨kv, h1, h2, h3, h4, by rw [ho]; exact h7, h8⟩
  · intro c' hc' hs
    by_cases e : c' = c
    · subst e
      rcases hthis with h | ⟨kv, _, _, _, _, h5, h6, _, _⟩
      · exact absurd (live_eq_none.1 h) hs
      · exact .inr ⟨h5, h6⟩
    · rw [hslot X.row c' (fun h => e h.2)] at hs ⊢
      exact .inl ⟨hs, rfl⟩
  · rw [Shard.upd_file p hok.has]; exact hlive

/-- The values after it, if the actor serves the row. -/
theorem slot_vals {X : Actor} {pen pen' : Option Reg} {s s' : Shard} (hok : OKs X pen s) (g : Guar X pen pen' s s') (hb : X.bg = false)
    (hcu : (s'.file X.sd).compactedUpTo = (s.file X.sd).compactedUpTo) {c : Nat} {k : Bytes} (hk : (X.cfg.ph k).rowSel = X.row)
    (hl : ∀ r' c', ¬ (r' = X.row ∧ c' = c) → (s'.file X.sd).live r' c' = (s.file X.sd).live r' c')
    (hf : ∀ kv : KV, (s.file X.sd).live X.row c = some kv → kv.1 = k) (hg : ∀ kv : KV, (s'.file X.sd).live X.row c = some kv → kv.1 = k)
    {x : Option Bytes} (hx : RowVal (s'.file X.sd) X.row k x) (k' : Bytes) : s'.val X.cfg k' = Map.upd (s.val X.cfg) k x k' := by
  have e1 : s.active X.row = s.file X.sd := by rw [s.active_eq, hok.side hb]
  have e2 : s'.active X.row = s'.file X.sd := by rw [s'.active_eq, g.sideOf_self hok hcu, hok.side hb]
  refine vals_upd hok.ok (g.files hok) (fun r hr hne => g.active_other hok hr hne) hk (by rw [e2]; exact hx) (fun k1 h1 y hy => ?_) k'
  rw [e1] at hy; rw [e2]
  exact hy.cell (fun c' _ h => hl _ _ (fun h' => h h'.2)) hf hg h1

/-- The values after it, if the row is served by the other file. -/
theorem slot_vals_bg {X : Actor} {pen pen' : Option Reg} {s s' : Shard} (hok : OKs X pen s) (g : Guar X pen pen' s s') (hb : X.bg = true)
    (hcu : (s'.file X.sd).compactedUpTo = (s.file X.sd).compactedUpTo) (hrow : (s.file .tgt).compactedUpTo = X.row) (k : Bytes) :
    s'.val X.cfg k = s.val X.cfg k := by
  have hs : s.sideOf X.row = .src := by rw [s.sideOf_eq, if_neg]; rw [hrow]; exact fun h => Nat.lt_irrefl _ h.2
  refine g.vals hok ?_ k
  rw [s.active_eq, s'.active_eq, g.sideOf_self hok hcu, hs]
  have : Side.src = X.sd.other := by rw [hok.bgs hb]; rfl
  rw [this, g.other]
  exact fun _ _ => rfl

section
variable {X : Actor} {α : Type} {fin : α → Gh → Shard → Prop} {cm : Gh} {pen : Option Reg}

theorem setDesc_same (f : MFile) (r c : Nat) (d : BitVec 64) : (Prim.app (.setDesc r c d) f).slot r c = ⟨(f.slot r c).sig, d⟩ := setSlot_same _ _ _ _
theorem setDesc_other (f : MFile) {r c r' c' : Nat} (d : BitVec 64) (h : ¬ (r' = r ∧ c' = c)) : (Prim.app (.setDesc r c d) f).slot r' c' = f.slot r' c' :=
  setSlot_other _ h
theorem setSig_same (f : MFile) (r c : Nat) (x : BitVec 32) : (Prim.app (.setSig r c x) f).slot r c = ⟨x, (f.slot r c).desc⟩ := setSlot_same _ _ _ _
theorem setSig_other (f : MFile) {r c r' c' : Nat} (x : BitVec 32) (h : ¬ (r' = r ∧ c' = c)) : (Prim.app (.setSig r c x) f).slot r' c' = f.slot r' c' :=
  setSlot_other _ h

/-- Storing the descriptor of a free slot. -/
theorem store_desc_free {s : Shard} (hok : OKs X pen s) {c : Nat} (d : BitVec 64) (hs : ((s.file X.sd).slot X.row c).sig = INVALID_SIG) :
    Guar X pen pen s (s.upd X.sd (.setDesc X.row c d)) ∧ (∀ k, (s.upd X.sd (.setDesc X.row c d)).val X.cfg k = s.val X.cfg k) ∧
    (∀ r' c', ((s.upd X.sd (.setDesc X.row c d)).file X.sd).live r' c' = (s.file X.sd).live r' c') ∧
    ∀ k, surplus ((s.upd X.sd (.setDesc X.row c d)).file X.sd) k = surplus (s.file X.sd) k := by
  have hn : (Prim.app (.setDesc X.row c d) (s.file X.sd)).live X.row c = none := live_eq_none.2 (by rw [setDesc_same]; exact hs)
  obtain ⟨g, hl⟩ := store_slot hok (.setDesc X.row c d) c (fun _ _ h => setDesc_other _ _ h) rfl rfl rfl (fun R e => e) (pen' := pen) (.inl hn)
    (hok.copy_upd _ (fun c' _ => by
      by_cases e : c' = c
      · subst e; rw [hn, live_eq_none.2 hs]
      · exact live_congr' (setDesc_other _ _ (fun h => e h.2)) (fun _ _ _ => rfl)) rfl)
  have hall : ∀ r' c', ((s.upd X.sd (.setDesc X.row c d)).file X.sd).live r' c' = (s.file X.sd).live r' c' := by
    intro r' c'
    by_cases e : r' = X.row ∧ c' = c
    · obtain ⟨rfl, rfl⟩ := e
      rw [Shard.upd_file _ hok.has, hn, live_eq_none.2 hs]
    · exact hl r' c' e
  refine ⟨g, g.vals hok ?_, hall, fun k => surplus_keep (fun r _ c _ => hall r c) ?_ ?_ ?_ ?_ k⟩
  all_goals try (rw [Shard.upd_file _ hok.has]; rfl)
  have hcu : ((s.upd X.sd (.setDesc X.row c d)).file X.sd).compactedUpTo = (s.file X.sd).compactedUpTo := by rw [Shard.upd_file _ hok.has]; rfl
  rw [s.active_eq, Shard.active_eq, g.sideOf_self hok hcu]
  intro c' _
  by_cases e : s.sideOf X.row = X.sd
  · rw [e]; exact hall _ _
  · rw [Side.ne_other e, g.other]

/-- What the code below keeps about the region it has written. -/
structure Written (X : Actor) (k v : Bytes) (off : Nat) (s : Shard) : Prop where
  ok : OKs X (some (off, k.length + v.length)) s
  key : k.length < 65536
  val : v.length < 65536
  small : off < 4294967296
  data : readAt (s.file X.sd).data off (k.length + v.length) = k ++ v

theorem Written.rely {k v : Bytes} {off : Nat} {s s' : Shard} (h : Written X k v off s) (hr : Rely X (some (off, k.length + v.length)) s s')
    (hok : OKs X (some (off, k.length + v.length)) s') : Written X k v off s' :=
  ⟨hok, h.key, h.val, h.small, by
    rw [← h.data]; exact readAt_congr' (fun i h1 h2 => hr.pen i ⟨_, rfl, h1, h2⟩)⟩

theorem Written.facts {k v : Bytes} {off : Nat} {s : Shard} (h : Written X k v off s) :
    (s.file X.sd).readKV (pack k.length v.length off) = (k, v) ∧
    (∀ b, inDesc (pack k.length v.length off) b → inReg (some (off, k.length + v.length)) b) ∧
    descEnd (pack k.length v.length off) ≤ (s.file X.sd).writeOff := by
  obtain ⟨h1, h2⟩ := inDesc_pack h.key h.val h.small
  refine ⟨readKV_region h.key h.val h.small h.data, fun b hb => ⟨_, rfl, ?_, ?_⟩, ?_⟩
  · have := hb.1; rw [h1] at this; exact this
  · have := hb.2; rw [h2] at this; exact this
  · rw [h2]; exact h.ok.pen.ext _ rfl

/-- Storing the descriptor of a live slot: the value is replaced. -/
theorem store_desc_live {s : Shard} {k v old : Bytes} {off c : Nat} (h : Written X k v off s) (hc : c < ROW_WIDTH)
    (hl : (s.file X.sd).live X.row c = some (k, old)) (hb : X.bg = false) :
    Guar X (some (off, k.length + v.length)) none s (s.upd X.sd (.setDesc X.row c (pack k.length v.length off))) ∧
    (∀ k', (s.upd X.sd (.setDesc X.row c (pack k.length v.length off))).val X.cfg k' = Map.upd (s.val X.cfg) k (some v) k') ∧
    s.val X.cfg k = some old ∧
    surplus ((s.upd X.sd (.setDesc X.row c (pack k.length v.length off))).file X.sd) true = surplus (s.file X.sd) true + ((k.length + old.length : Nat) : Int) - ((k.length + v.length : Nat) : Int) ∧
    surplus ((s.upd X.sd (.setDesc X.row c (pack k.length v.length off))).file X.sd) false = surplus (s.file X.sd) false := by
  have hok := h.ok
  obtain ⟨f1, f2, f3⟩ := h.facts
  have hvalid := (live_eq_some.1 hl).1
  have hsg := (hok.ok X.sd).sig _ _ _ hok.row hc hl
  have hrow := (hok.ok X.sd).row _ _ _ hok.row hc hl
  have hsp := (hok.ok X.sd).span _ _ _ hok.row hc hl
  have hfile := Shard.upd_file (s := s) (.setDesc X.row c (pack k.length v.length off)) hok.has
  have hn : (Prim.app (.setDesc X.row c (pack k.length v.length off)) (s.file X.sd)).live X.row c = some (k, v) := by
    refine live_eq_some.2 ⟨by rw [setDesc_same]; exact hvalid, ?_⟩
    rw [setDesc_same]
    exact (readKV_congr' (fun b _ => rfl)).trans f1
  obtain ⟨g, hlv⟩ := store_slot hok (.setDesc X.row c (pack k.length v.length off)) c (fun _ _ h => setDesc_other _ _ h) rfl rfl rfl
    (fun R e => by cases e) (pen' := none) (.inr ⟨(k, v), hn, by rw [setDesc_same]; exact hsg, hrow, hsp, rfl, by rw [setDesc_same]; exact f2,
      by rw [setDesc_same]; exact f3, fun c' hc' hne kv' hl' e => hne ((hok.ok X.sd).inj _ _ _ _ _ hok.row hc' hc hl' hl e)⟩) (fun e => by rw [hb] at e; cases e)
  have hv : s.val X.cfg k = some old := by
    refine Shard.val_of_files hok.ok ?_
    rw [hrow, s.active_eq, hok.side hb]
    exact ⟨c, hc, hl⟩
  have hsu := surplus_cell hok.row hc hlv (by rw [hfile]; rfl) (by rw [hfile]; rfl) (by rw [hfile]; rfl) (by rw [hfile]; rfl)
  have hn' : ((s.upd X.sd (.setDesc X.row c (pack k.length v.length off))).file X.sd).live X.row c = some (k, v) := by rw [hfile]; exact hn
  rw [cellW_some hl, cellW_some hl, cellW_some hn', cellW_some hn'] at hsu
  simp only [kvSize] at hsu
  refine ⟨g, slot_vals hok g hb (by rw [hfile]; rfl) hrow hlv (fun kv e => ?_) (fun kv e => ?_) ⟨c, hc, by rw [hfile]; exact hn⟩, hv, by omega, by omega⟩
  · rw [hl] at e; cases e; rfl
  · rw [hfile, hn] at e; cases e; rfl

/-- Storing the signature of a slot prepared. -/
theorem store_sig {s : Shard} {k v : Bytes} {off c : Nat} (h : Written X k v off s) (hc : c < ROW_WIDTH)
    (hs : (s.file X.sd).slot X.row c = ⟨INVALID_SIG, pack k.length v.length off⟩) (hrow : (X.cfg.ph k).rowSel = X.row)
    (hsp : X.lo ≤ (X.cfg.ph k).shardSel ∧ (X.cfg.ph k).shardSel < X.hi)
    (hno : RowVal (s.file X.sd) X.row k none) (hcp : X.bg = true → (s.file .tgt).compactedUpTo = X.row ∧ ((s.file .src).liveRow X.row)[c]? = some (k, v)) :
    Guar X (some (off, k.length + v.length)) none s (s.upd X.sd (.setSig X.row c (X.cfg.ph k).sig)) ∧
    ((s.upd X.sd (.setSig X.row c (X.cfg.ph k).sig)).file X.sd).live X.row c = some (k, v) ∧
    (∀ r' c', ¬ (r' = X.row ∧ c' = c) → ((s.upd X.sd (.setSig X.row c (X.cfg.ph k).sig)).file X.sd).live r' c' = (s.file X.sd).live r' c') ∧
    (X.bg = false → (∀ k', (s.upd X.sd (.setSig X.row c (X.cfg.ph k).sig)).val X.cfg k' = Map.upd (s.val X.cfg) k (some v) k') ∧ s.val X.cfg k = none) ∧
    surplus ((s.upd X.sd (.setSig X.row c (X.cfg.ph k).sig)).file X.sd) true = surplus (s.file X.sd) true - ((k.length + v.length : Nat) : Int) ∧
    surplus ((s.upd X.sd (.setSig X.row c (X.cfg.ph k).sig)).file X.sd) false = surplus (s.file X.sd) false - 1 := by
  have hok := h.ok
  obtain ⟨f1, f2, f3⟩ := h.facts
  have hfile := Shard.upd_file (s := s) (.setSig X.row c (X.cfg.ph k).sig) hok.has
  have hd : ((Prim.app (.setSig X.row c (X.cfg.ph k).sig) (s.file X.sd)).slot X.row c).desc = pack k.length v.length off := by rw [setSig_same, hs]
  have hn : (Prim.app (.setSig X.row c (X.cfg.ph k).sig) (s.file X.sd)).live X.row c = some (k, v) := by
    refine live_eq_some.2 ⟨by rw [setSig_same]; exact X.cfg.ph_sig_ne k, ?_⟩
    rw [hd]
    exact (readKV_congr' (fun b _ => rfl)).trans f1
  obtain ⟨g, hlv⟩ := store_slot hok (.setSig X.row c (X.cfg.ph k).sig) c (fun _ _ h => setSig_other _ _ h) rfl rfl rfl
    (fun R e => by cases e) (pen' := none) (.inr ⟨(k, v), hn, by rw [setSig_same], hrow, hsp, rfl, by rw [hd]; exact f2, by rw [hd]; exact f3,
      fun c' hc' _ kv' hl' e => hno c' hc' kv'.2 (by rw [hl']; exact congrArg some (Prod.ext e rfl))⟩)
    (fun hb => by
      obtain ⟨q1, q2⟩ := hcp hb
      have hsd := hok.bgs hb
      have hother : (s.upd X.sd (.setSig X.row c (X.cfg.ph k).sig)).file .src = s.file .src := by
        have := s.upd_other X.sd (.setSig X.row c (X.cfg.ph k).sig); rw [hsd] at this ⊢; exact this
      rw [hsd] at hfile hn
      refine .inr ⟨?_, fun c' hc' kv' hl' => ?_⟩
      · rw [hsd, hfile]; exact q1
      · rw [hother]
        rw [hsd, hfile] at hl'
        by_cases e : c' = c
        · subst e; rw [hn] at hl'; cases hl'; exact q2
        · have e1 : (Prim.app (.setSig X.row c (X.cfg.ph k).sig) (s.file .tgt)).live X.row c' = (s.file .tgt).live X.row c' :=
            live_congr' (setSig_other _ _ (fun h => e h.2)) (fun _ _ _ => rfl)
          rw [e1] at hl'
          rcases hok.copy hb with h' | ⟨_, h'⟩
          · rw [q1] at h'; omega
          · exact h' c' hc' kv' hl')
  have hsu := surplus_cell hok.row hc hlv (by rw [hfile]; rfl) (by rw [hfile]; rfl) (by rw [hfile]; rfl) (by rw [hfile]; rfl)
  have hn' : ((s.upd X.sd (.setSig X.row c (X.cfg.ph k).sig)).file X.sd).live X.row c = some (k, v) := by rw [hfile]; exact hn
  have hl0 : (s.file X.sd).live X.row c = none := live_eq_none.2 (by rw [hs])
  rw [cellW_none hl0, cellW_none hl0, cellW_some hn', cellW_some hn'] at hsu
  simp only [kvSize] at hsu
  refine ⟨g, by rw [hfile]; exact hn, hlv, fun hb => ⟨slot_vals hok g hb (by rw [hfile]; rfl) hrow hlv (fun kv e => ?_) (fun kv e => ?_)
    ⟨c, hc, by rw [hfile]; exact hn⟩, ?_⟩, by omega, by omega⟩
  · rw [live_eq_none.2 (by rw [hs])] at e; cases e
  · rw [hfile, hn] at e; cases e; rfl
  · refine Shard.val_of_files hok.ok ?_
    rw [hrow, s.active_eq, hok.side hb]
    exact hno

/-- Storing the invalid signature. -/
theorem store_remove {s : Shard} {k old : Bytes} {c : Nat} (hok : OKs X none s) (hc : c < ROW_WIDTH) (hl : (s.file X.sd).live X.row c = some (k, old))
    (hb : X.bg = false) :
    Guar X none none s (s.upd X.sd (.setSig X.row c INVALID_SIG)) ∧
    (∀ k', (s.upd X.sd (.setSig X.row c INVALID_SIG)).val X.cfg k' = Map.upd (s.val X.cfg) k none k') ∧ s.val X.cfg k = some old ∧
    surplus ((s.upd X.sd (.setSig X.row c INVALID_SIG)).file X.sd) true = surplus (s.file X.sd) true + ((k.length + old.length : Nat) : Int) ∧
    surplus ((s.upd X.sd (.setSig X.row c INVALID_SIG)).file X.sd) false = surplus (s.file X.sd) false + 1 := by
  have hrow := (hok.ok X.sd).row _ _ _ hok.row hc hl
  have hfile := Shard.upd_file (s := s) (.setSig X.row c INVALID_SIG) hok.has
  have hn : (Prim.app (.setSig X.row c INVALID_SIG) (s.file X.sd)).live X.row c = none := live_eq_none.2 (by rw [setSig_same])
  obtain ⟨g, hlv⟩ := store_slot hok (.setSig X.row c INVALID_SIG) c (fun _ _ h => setSig_other _ _ h) rfl rfl rfl (fun R e => e) (pen' := none) (.inl hn) (fun e => by rw [hb] at e; cases e)
  have hsu := surplus_cell hok.row hc hlv (by rw [hfile]; rfl) (by rw [hfile]; rfl) (by rw [hfile]; rfl) (by rw [hfile]; rfl)
  have hn' : ((s.upd X.sd (.setSig X.row c INVALID_SIG)).file X.sd).live X.row c = none := by rw [hfile]; exact hn
  rw [cellW_none hn', cellW_none hn', cellW_some hl, cellW_some hl] at hsu
  simp only [kvSize] at hsu
  refine ⟨g, slot_vals hok g hb (by rw [hfile]; rfl) hrow hlv (fun kv e => ?_) (fun kv e => ?_) (fun c' hc' v hl' => ?_), ?_, by omega, by omega⟩
  · rw [hl] at e; cases e; rfl
  · rw [hfile, hn] at e; cases e
  · by_cases e : c' = c
    · subst e; rw [hfile, hn] at hl'; cases hl'
    · rw [hlv _ _ (fun h => e h.2)] at hl'
      exact e ((hok.ok X.sd).inj _ _ _ _ _ hok.row hc' hc hl' hl rfl)
  · refine Shard.val_of_files hok.ok ?_
    rw [hrow, s.active_eq, hok.side hb]
    exact ⟨c, hc, hl⟩

/-- A store to a counter, and then the rest. -/
theorem Safe.quiet (hw : X.wr = true) {p : Prim} {k : MProg α} {s : Shard} (hs : ∀ f, (Prim.app p f).slot = f.slot) (hd : ∀ f, (Prim.app p f).data = f.data)
    (ho : ∀ f, (Prim.app p f).writeOff = f.writeOff) (hcu : ∀ f, (Prim.app p f).compactedUpTo = f.compactedUpTo)
    {cm' : Gh} (hle : 0 ≤ cm'.led true) (hcm : cm'.cm = cm.cm) (hsu : ∀ f b, surplus (Prim.app p f) b - cm'.led b = surplus f b - cm.led b)
    (hk : ∀ s', Rely X none s s' → OKs X pen s' → Safe X fin k cm' pen s') : Safe X fin (.store X.sd p k) cm pen s := by
  intro s' hr hok
  obtain ⟨g, hv, hrl⟩ := store_quiet hok p (hs _) (hd _) (ho _) (hcu _)
  exact ⟨cm', pen, hw, g, ⟨.inl ⟨hcm, hv⟩, fun b => by rw [surplus_upd hok]; exact hsu _ b, hle⟩, hk _ (hr.none.trans hrl) (g.self hok)⟩

theorem surplus_quiet (p : Prim) (f : MFile) (hs : (p.app f).slot = f.slot) (hd : (p.app f).data = f.data) :
    (surplus (p.app f) true + (p.app f).wasted - (p.app f).writeOff = surplus f true + f.wasted - f.writeOff) ∧
    (surplus (p.app f) false + (p.app f).numRemovals - (p.app f).numInserts = surplus f false + f.numRemovals - f.numInserts) :=
  surplus_same (fun r _ c _ => live_congr' (by rw [hs]) (fun _ b _ => by rw [hd]))

/-- `wasted_bytes.fetch_add(n)`, `num_inserted.fetch_add(1)`, `num_removed.fetch_add(1)`. -/
theorem Safe.wasted (hw : X.wr = true) {n : Nat} (hle : (n : Int) ≤ cm.led true) {k : MProg α} {s : Shard}
    (hk : ∀ s', Rely X none s s' → OKs X pen s' → Safe X fin k (cm.bytes (-n)) pen s') : Safe X fin (.store X.sd (.addWasted n) k) cm pen s := by
  refine Safe.quiet hw (fun _ => rfl) (fun _ => rfl) (fun _ => rfl) (fun _ => rfl) (cm' := cm.bytes (-n)) (by show 0 ≤ cm.led true + -_; omega) rfl (fun f b => ?_) hk
  obtain ⟨h1, h2⟩ := surplus_quiet (.addWasted n) f rfl rfl
  cases b
  · have : surplus (Prim.app (.addWasted n) f) false + f.numRemovals - f.numInserts = surplus f false + f.numRemovals - f.numInserts := h2
    show _ - cm.led false = _; omega
  · have : surplus (Prim.app (.addWasted n) f) true + ((f.wasted + n : Nat) : Int) - f.writeOff = surplus f true + f.wasted - f.writeOff := h1
    show _ - (cm.led true + _) = _; omega

theorem Safe.inserts (hw : X.wr = true) (hle : 0 ≤ cm.led true) {k : MProg α} {s : Shard}
    (hk : ∀ s', Rely X none s s' → OKs X pen s' → Safe X fin k (cm.count 1) pen s') : Safe X fin (.store X.sd .addInserts k) cm pen s := by
  refine Safe.quiet hw (fun _ => rfl) (fun _ => rfl) (fun _ => rfl) (fun _ => rfl) (cm' := cm.count 1) hle rfl (fun f b => ?_) hk
  obtain ⟨h1, h2⟩ := surplus_quiet .addInserts f rfl rfl
  cases b
  · have : surplus (Prim.app .addInserts f) false + f.numRemovals - ((f.numInserts + 1 : Nat) : Int) = surplus f false + f.numRemovals - f.numInserts := h2
    show _ - (cm.led false + _) = _; omega
  · have : surplus (Prim.app .addInserts f) true + f.wasted - f.writeOff = surplus f true + f.wasted - f.writeOff := h1
    show _ - cm.led true = _; omega

theorem Safe.removals (hw : X.wr = true) (hle : 0 ≤ cm.led true) {k : MProg α} {s : Shard}
    (hk : ∀ s', Rely X none s s' → OKs X pen s' → Safe X fin k (cm.count (-1)) pen s') : Safe X fin (.store X.sd .addRemovals k) cm pen s := by
  refine Safe.quiet hw (fun _ => rfl) (fun _ => rfl) (fun _ => rfl) (fun _ => rfl) (cm' := cm.count (-1)) hle rfl (fun f b => ?_) hk
  obtain ⟨h1, h2⟩ := surplus_quiet .addRemovals f rfl rfl
  cases b
  · have : surplus (Prim.app .addRemovals f) false + ((f.numRemovals + 1 : Nat) : Int) - f.numInserts = surplus f false + f.numRemovals - f.numInserts := h2
    show _ - (cm.led false + _) = _; omega
  · have : surplus (Prim.app .addRemovals f) true + f.wasted - f.writeOff = surplus f true + f.wasted - f.writeOff := h1
    show _ - cm.led true = _; omega

end

/-! ## The raw operations -/

/-- The operation changes nothing and answers `a`. -/
inductive NoEff (cfg : Cfg) (s : Shard) : ROp → Ans → Prop
  | get (k : Bytes) : NoEff cfg s (.get k) (.val (s.val cfg k))
  | ins (k v : Bytes) (mode : Mode) (h : (insertAt (s.val cfg k) v mode).1 = s.val cfg k) : NoEff cfg s (.ins k v mode) (.st (insertAt (s.val cfg k) v mode).2)
  | rem (k : Bytes) (h : s.val cfg k = none) : NoEff cfg s (.rem k) (.val none)
  | byHash (ph : PH) (l : List KV) (h : ph.sig ≠ INVALID_SIG → (∀ kv ∈ l, s.val cfg kv.1 = some kv.2 ∧ (cfg.ph kv.1).sig = ph.sig ∧
      s.lo ≤ (cfg.ph kv.1).shardSel ∧ (cfg.ph kv.1).shardSel < s.hi) ∧ (∀ k v, s.val cfg k = some v → cfg.ph k = ph → (k, v) ∈ l) ∧ DistinctKeys l) :
      NoEff cfg s (.byHash ph) (.kvs l)

/-- How an operation ends: it has taken effect with this answer, or has done nothing, and either a split is needed or the answer is right now. -/
def TFin (cfg : Cfg) (op : ROp) (a : Ans × Option Nat) (g : Gh) (s : Shard) : Prop :=
  (g.cm = some a.1 ∨ (g.cm = none ∧ (a.1 = .st .splitNeeded ∨ NoEff cfg s op a.1))) ∧ ∀ b, g.led b = 0

/-- The actor of an operation. -/
def ROp.actor (cfg : Cfg) (lo hi : Nat) (sd : Side) (op : ROp) : Actor := ⟨cfg, lo, hi, (op.ph cfg).rowSel, sd, op.writes, false, some op⟩

theorem val_of_live {X : Actor} {pen : Option Reg} {s : Shard} (hok : OKs X pen s) (hb : X.bg = false) {k : Bytes} (hrow : (X.cfg.ph k).rowSel = X.row)
    {x : Option Bytes} (hx : RowVal (s.file X.sd) X.row k x) : s.val X.cfg k = x :=
  Shard.val_of_files hok.ok (by rw [hrow, s.active_eq, hok.side hb]; exact hx)

theorem upd_safe {cfg : Cfg} {lo hi : Nat} {sd : Side} {k v old : Bytes} {mode : Mode} {sc : Option Nat} {c : Nat} {s : Shard}
    (hok : OKs ((ROp.ins k v mode).actor cfg lo hi sd) none s) (hk : k.length < 65536) (hv : v.length < 65536) (hc : c < ROW_WIDTH)
    (hl : (s.file sd).live (cfg.ph k).rowSel c = some (k, old)) :
    Safe ((ROp.ins k v mode).actor cfg lo hi sd) (TFin cfg (.ins k v mode)) (updCode sd (cfg.ph k).rowSel c k v old mode sc) Gh.zero none s := by
  have hval : ∀ s', Rely ((ROp.ins k v mode).actor cfg lo hi sd) none s s' → OKs ((ROp.ins k v mode).actor cfg lo hi sd) none s' → s'.val cfg k = some old :=
    fun s' hr hok' => val_of_live hok' rfl rfl ⟨c, hc, ((hr.rows _).live c hc).trans hl⟩
  have hret : ∀ st, (∀ cur, cur = some old → insertAt cur v mode = (some old, st)) →
      Safe ((ROp.ins k v mode).actor cfg lo hi sd) (TFin cfg (.ins k v mode)) (.ret (.st st, sc)) Gh.zero none s := by
    intro st hst s' hr hok'
    have hv' := hval s' hr hok'
    have hst' := hst _ hv'
    have := NoEff.ins (cfg := cfg) (s := s') k v mode (by rw [hst', hv'])
    rw [hst'] at this
    exact ⟨.inr ⟨rfl, .inr this⟩, fun _ => rfl⟩
  have hupd : (∀ cur, cur = some old → insertAt cur v mode = (some v, .replaced old)) →
      Safe ((ROp.ins k v mode).actor cfg lo hi sd) (TFin cfg (.ins k v mode)) (if v ≠ old then
      MProg.writeKV sd k v (fun d => .store sd (.setDesc (cfg.ph k).rowSel c d) (.store sd (.addWasted (k.length + old.length)) (.ret (.st (.replaced old), sc))))
      else .ret (.st (.replaced old), sc)) Gh.zero none s := by
    intro hins
    by_cases e : v = old
    · rw [if_neg (by simpa using e)]
      subst e
      exact hret _ hins
    · rw [if_pos e]
      refine Safe.writeKV (X := (ROp.ins k v mode).actor cfg lo hi sd) rfl (Int.le_refl 0) (fun s1 off hr1 hok1 hoff hd1 s2 hr2 hok2 => ?_)
      have W : Written ((ROp.ins k v mode).actor cfg lo hi sd) k v off s2 := Written.rely ⟨hok1, hk, hv, hoff, hd1⟩ hr2 hok2
      have hl2 : (s2.file sd).live (cfg.ph k).rowSel c = some (k, old) :=
        (((hr1.rows sd).trans (hr2.rows sd)).live c hc).trans hl
      obtain ⟨g, hvv, hcur, hs1, hs2⟩ := store_desc_live W hc hl2 rfl
      refine ⟨((Gh.zero.bytes ((k.length : Int) + v.length)).bytes (((k.length + old.length : Nat) : Int) - ((k.length + v.length : Nat) : Int))).commit (.st (.replaced old)), none, rfl, g,
        ⟨.inr ⟨rfl, _, rfl, ?_⟩, fun b => ?_, ?_⟩, ?_⟩
      · have hia : insertAt (s2.val cfg k) v mode = (some v, .replaced old) := hins _ hcur
        have := Commit.ins (X := (ROp.ins k v mode).actor cfg lo hi sd) (s := s2) k v mode rfl (fun k' => by
          show _ = Map.upd _ k (insertAt (s2.val cfg k) v mode).1 k'
          rw [hia]; exact hvv k')
        have e' : (insertAt (s2.val ((ROp.ins k v mode).actor cfg lo hi sd).cfg k) v mode).2 = .replaced old := by
          show (insertAt (s2.val cfg k) v mode).2 = _; rw [hia]
        rw [e'] at this
        exact this
      · cases b
        · exact (congrArg (· - _) hs2).trans rfl
        · refine (congrArg (· - _) hs1).trans ?_; show _ + _ - _ - ((0 : Int) + _ + _) = _ - (0 + _); omega
      · show 0 ≤ (0 : Int) + _ + _; omega
      · refine Safe.wasted (X := (ROp.ins k v mode).actor cfg lo hi sd) rfl (by show _ ≤ (0 : Int) + _ + _; omega) (fun s3 _ _ s4 _ _ => ⟨.inl rfl, fun b => ?_⟩)
        cases b
        · rfl
        · show (0 : Int) + _ + _ + _ = 0; omega
  unfold updCode
  cases mode with
  | getOrCreate => exact hret _ (fun cur e => by rw [e]; rfl)
  | set => exact hupd (fun cur e => by rw [e]; rfl)
  | replace x =>
    cases x with
    | none => exact hupd (fun cur e => by rw [e]; rfl)
    | some x =>
      show Safe _ _ (if x ≠ old then _ else _) Gh.zero none s
      by_cases e : x = old
      · rw [if_neg (by simpa using e)]
        exact hupd (fun cur e' => by rw [e']; simp [insertAt, e])
      · rw [if_pos e]
        exact hret _ (fun cur e' => by rw [e']; simp [insertAt, e])

theorem add_safe {cfg : Cfg} {lo hi : Nat} {sd : Side} {k v : Bytes} {mode : Mode} {sc : Option Nat} {s : Shard}
    (hok : OKs ((ROp.ins k v mode).actor cfg lo hi sd) none s) (hk : k.length < 65536) (hv : v.length < 65536)
    (hsp : lo ≤ (cfg.ph k).shardSel ∧ (cfg.ph k).shardSel < hi) (hno : RowVal (s.file sd) (cfg.ph k).rowSel k none) :
    Safe ((ROp.ins k v mode).actor cfg lo hi sd) (TFin cfg (.ins k v mode)) (addCode sd (cfg.ph k).rowSel (cfg.ph k).sig k v mode sc) Gh.zero none s := by
  have hadd : (∀ cur, cur = none → insertAt cur v mode = (some v, .added)) → Safe ((ROp.ins k v mode).actor cfg lo hi sd) (TFin cfg (.ins k v mode))
      (MProg.findFree sd (cfg.ph k).rowSel (fun o =>
        match o with
        | some c => MProg.writeKV sd k v (fun d => .store sd (.setDesc (cfg.ph k).rowSel c d) (.store sd (.setSig (cfg.ph k).rowSel c (cfg.ph k).sig) (.store sd .addInserts (.ret (.st .added, sc)))))
        | none => .ret (.st .splitNeeded, sc)) ROW_WIDTH 0) Gh.zero none s := by
    intro hins
    refine Safe.findFree (X := (ROp.ins k v mode).actor cfg lo hi sd) (s := s) (fun s1 c hr1 hok1 hc hfree => ?_) (fun s1 _ _ => ?_) ROW_WIDTH 0 s
      (Nat.zero_add _) (.refl _ _ _) hok
    rotate_left
    · exact fun s2 _ _ => ⟨.inr ⟨rfl, .inl rfl⟩, fun _ => rfl⟩
    refine Safe.writeKV (X := (ROp.ins k v mode).actor cfg lo hi sd) rfl (Int.le_refl 0) (fun s2 off hr2 hok2 hoff hd2 s3 hr3 hok3 => ?_)
    have W : Written ((ROp.ins k v mode).actor cfg lo hi sd) k v off s3 := Written.rely ⟨hok2, hk, hv, hoff, hd2⟩ hr3 hok3
    have hrows : RowSame (cfg.ph k).rowSel (s1.file sd) (s3.file sd) := (hr2.rows sd).trans (hr3.rows sd)
    have hfree3 : ((s3.file sd).slot (cfg.ph k).rowSel c).sig = INVALID_SIG := by rw [hrows.slot]; exact hfree
    have hno3 : RowVal (s3.file sd) (cfg.ph k).rowSel k none := RowVal.congr ((hr1.rows sd).trans hrows).live hno
    obtain ⟨g, hvv, hlv, hsu⟩ := store_desc_free (X := (ROp.ins k v mode).actor cfg lo hi sd) hok3 (c := c) (pack k.length v.length off) hfree3
    refine ⟨Gh.zero.bytes ((k.length : Int) + v.length), _, rfl, g, ⟨.inl ⟨rfl, hvv⟩, fun b => congrArg (· - _) (hsu b), by show 0 ≤ (0 : Int) + _; omega⟩, fun s5 hr5 hok5 => ?_⟩
    have hfile := Shard.upd_file (s := s3) (.setDesc (cfg.ph k).rowSel c (pack k.length v.length off)) hok3.has
    have W4 : Written ((ROp.ins k v mode).actor cfg lo hi sd) k v off (s3.upd sd (.setDesc (cfg.ph k).rowSel c (pack k.length v.length off))) :=
      ⟨g.self hok3, hk, hv, hoff, (congrArg (fun f => readAt (MFile.data f) off (k.length + v.length)) hfile).trans W.data⟩
    have W5 := W4.rely hr5 hok5
    have hslot5 : (s5.file sd).slot (cfg.ph k).rowSel c = ⟨INVALID_SIG, pack k.length v.length off⟩ := by
      refine Eq.trans ((hr5.rows sd).slot c) ?_
      refine Eq.trans (congrArg (fun f => MFile.slot f (cfg.ph k).rowSel c) hfile) ?_
      refine Eq.trans (setDesc_same _ _ _ _) ?_
      congr 1
    have hno5 : RowVal (s5.file sd) (cfg.ph k).rowSel k none := RowVal.congr (hr5.rows sd).live (RowVal.congr (fun c' _ => hlv _ c') hno3)
    obtain ⟨g', _, _, hval, hs1, hs2⟩ := store_sig W5 hc hslot5 rfl hsp hno5 (fun e => by cases e)
    obtain ⟨hvv', hcur⟩ := hval rfl
    refine ⟨(((Gh.zero.bytes ((k.length : Int) + v.length)).bytes (-((k.length + v.length : Nat) : Int))).count (-1)).commit (.st .added), none, rfl, g',
      ⟨.inr ⟨rfl, _, rfl, ?_⟩, fun b => ?_, ?_⟩, ?_⟩
    · have hia : insertAt (s5.val cfg k) v mode = (some v, .added) := hins _ hcur
      have := Commit.ins (X := (ROp.ins k v mode).actor cfg lo hi sd) (s := s5) k v mode rfl (fun k' => by
        show _ = Map.upd _ k (insertAt (s5.val cfg k) v mode).1 k'
        rw [hia]; exact hvv' k')
      have e' : (insertAt (s5.val ((ROp.ins k v mode).actor cfg lo hi sd).cfg k) v mode).2 = .added := by
        show (insertAt (s5.val cfg k) v mode).2 = _; rw [hia]
      rw [e'] at this
      exact this
    · cases b
      · refine (congrArg (· - _) hs2).trans ?_; show _ - (1 : Int) - (0 + -1) = _ - 0; omega
      · refine (congrArg (· - _) hs1).trans ?_; show _ - _ - ((0 : Int) + _ + _) = _ - (0 + _); omega
    · show 0 ≤ (0 : Int) + _ + _; omega
    · refine Safe.inserts (X := (ROp.ins k v mode).actor cfg lo hi sd) rfl (by show 0 ≤ (0 : Int) + _ + _; omega) (fun s6 _ _ s7 _ _ => ⟨.inl rfl, fun b => ?_⟩)
      cases b
      · rfl
      · show (0 : Int) + _ + _ = 0; omega
  unfold addCode
  cases mode with
  | replace x =>
    intro s' hr hok'
    have hv' : s'.val cfg k = none := val_of_live hok' rfl rfl (RowVal.congr (hr.rows sd).live hno)
    have := NoEff.ins (cfg := cfg) (s := s') k v (.replace x) (by rw [hv']; rfl)
    rw [hv'] at this
    exact ⟨.inr ⟨rfl, .inr this⟩, fun _ => rfl⟩
  | set => exact hadd (fun cur e => by rw [e]; rfl)
  | getOrCreate => exact hadd (fun cur e => by rw [e]; rfl)

theorem ins_safe {cfg : Cfg} {lo hi : Nat} {sd : Side} {k v : Bytes} {mode : Mode} {sc : Option Nat} {s : Shard}
    (hok : OKs ((ROp.ins k v mode).actor cfg lo hi sd) none s) (hk : k.length < 65536) (hv : v.length < 65536)
    (hsp : lo ≤ (cfg.ph k).shardSel ∧ (cfg.ph k).shardSel < hi) :
    Safe ((ROp.ins k v mode).actor cfg lo hi sd) (TFin cfg (.ins k v mode)) (insCode sd (cfg.ph k) k v mode sc) Gh.zero none s := by
  unfold insCode
  exact Safe.scan (X := (ROp.ins k v mode).actor cfg lo hi sd) (key := k) (s := s) (H := fun c old => updCode sd (cfg.ph k).rowSel c k v old mode sc) rfl
    (fun s1 c old _ hok1 hc hl => upd_safe hok1 hk hv hc hl) (fun s1 _ hok1 hno => add_safe hok1 hk hv hsp hno) ROW_WIDTH 0 s
    (Nat.zero_add _) (.refl _ _ _) hok (fun c' _ h => absurd h (Nat.not_lt_zero _))

theorem hits_eq (f : MFile) (r : Nat) (sig : BitVec 32) :
    hits f r sig ROW_WIDTH = (lookups (f.slot r) sig 0).map (fun i => f.readKV (f.slot r i).desc) := by
  rw [lookups_eq]; unfold hits; rw [Nat.sub_zero, List.range_eq_range']

theorem byHash_noEff {cfg : Cfg} {lo hi : Nat} {sd : Side} {ph : PH} {pen : Option Reg} {s : Shard} (hok : OKs ((ROp.byHash ph).actor cfg lo hi sd) pen s) :
    ph.sig ≠ INVALID_SIG → NoEff cfg s (.byHash ph) (.kvs (hits (s.file sd) ph.rowSel ph.sig ROW_WIDTH)) := by
  intro hs
  refine .byHash ph _ (fun _ => ?_)
  have hside : s.active ph.rowSel = s.file sd := (s.active_eq _).trans (congrArg s.file (hok.side rfl))
  have hq : FileOK cfg lo hi (s.file sd) := hok.ok sd
  have hqi := quiet_inv hq
  have e : hits (s.file sd) ph.rowSel ph.sig ROW_WIDTH = (Candy.quiet lo hi (s.file sd)).getByHash ph := hits_eq _ _ _
  rw [e]
  obtain ⟨h1, h2, h3⟩ := Shard.getByHash_spec hqi ph hs
  have hmem : ∀ kv ∈ (Candy.quiet lo hi (s.file sd)).getByHash ph, ∃ c, c < ROW_WIDTH ∧ (s.file sd).live ph.rowSel c = some kv ∧ ((s.file sd).slot ph.rowSel c).sig = ph.sig := by
    intro kv hkv
    unfold Shard.getByHash at hkv
    rw [List.mem_map] at hkv
    obtain ⟨c, hc, rfl⟩ := hkv
    obtain ⟨hc1, hc2⟩ := mem_lookups.1 hc
    exact ⟨c, hc1, live_eq_some.2 ⟨fun e => hs (hc2.symm.trans e), rfl⟩, hc2⟩
  refine ⟨fun kv hkv => ?_, fun k v hv e => ?_, h3⟩
  · obtain ⟨c, hc, hl, hsg⟩ := hmem kv hkv
    have hrow := hq.row _ _ _ ph.rowSel_lt hc hl
    have hspan := hq.span _ _ _ ph.rowSel_lt hc hl
    refine ⟨?_, ?_, ?_, ?_⟩
    · refine Shard.val_of_files (cfg := cfg) hok.ok ?_
      rw [hrow, hside]; exact ⟨c, hc, hl⟩
    · rw [← hsg]; exact (hq.sig _ _ _ ph.rowSel_lt hc hl).symm
    · rw [hok.lo]; exact hspan.1
    · rw [hok.hi]; exact hspan.2
  · refine h2 k v ?_ e
    have := Shard.val_files hok.ok (cfg := cfg) k
    have hv' : s.val cfg k = some v := hv
    have hx : RowVal (s.active (cfg.ph k).rowSel) (cfg.ph k).rowSel k (s.val cfg k) := this
    rw [hv', e, hside] at hx
    exact hqi.val_of (by rw [e]; exact hx)

set_option maxRecDepth 20000 in
/-- Every raw operation is well-behaved. -/
theorem ROp.safe {cfg : Cfg} {lo hi : Nat} {sd : Side} {op : ROp} {s : Shard} (hok : OKs (op.actor cfg lo hi sd) none s)
    (hsp : lo ≤ (op.ph cfg).shardSel ∧ (op.ph cfg).shardSel < hi) (hsz : ∀ k v mode, op = .ins k v mode → k.length < 65536 ∧ v.length < 65536) (comp : Bool) :
    Safe (op.actor cfg lo hi sd) (TFin cfg op) (op.code cfg sd comp) Gh.zero none s := by
  cases op with
  | get k =>
    refine Safe.scan (X := (ROp.get k).actor cfg lo hi sd) (key := k) (s := s) (sd := sd) (pen := none) (cm := Gh.zero) (fin := TFin cfg (.get k)) (H := fun _ old => .ret (.val (some old), none)) (miss := .ret (.val none, none)) rfl
      (fun s1 c old hr1 hok1 hc hl s2 hr2 hok2 => ?_) (fun s1 hr1 hok1 hno s2 hr2 hok2 => ?_) ROW_WIDTH 0 s
      (Nat.zero_add _) (.refl _ _ _) hok (fun c' _ h => absurd h (Nat.not_lt_zero _))
    · have hv : s2.val cfg k = some old := val_of_live hok2 rfl rfl ⟨c, hc, ((hr2.rows _).live c hc).trans hl⟩
      have := NoEff.get (cfg := cfg) (s := s2) k
      rw [hv] at this
      exact ⟨.inr ⟨rfl, .inr this⟩, fun _ => rfl⟩
    · have hv : s2.val cfg k = none := val_of_live hok2 rfl rfl (RowVal.congr (hr2.rows sd).live hno)
      have := NoEff.get (cfg := cfg) (s := s2) k
      rw [hv] at this
      exact ⟨.inr ⟨rfl, .inr this⟩, fun _ => rfl⟩
  | rem k =>
    refine Safe.scan (X := (ROp.rem k).actor cfg lo hi sd) (key := k) (s := s) (sd := sd) (pen := none) (cm := Gh.zero) (fin := TFin cfg (.rem k)) (miss := .ret (.val none, none)) (H := fun c old => .store sd (.setSig (cfg.ph k).rowSel c INVALID_SIG) (.store sd .addRemovals
            (.store sd (.addWasted (k.length + old.length)) (.ret (.val (some old), none))))) rfl
      (fun s1 c old hr1 hok1 hc hl s2 hr2 hok2 => ?_) (fun s1 hr1 hok1 hno s2 hr2 hok2 => ?_) ROW_WIDTH 0 s
      (Nat.zero_add _) (.refl _ _ _) hok (fun c' _ h => absurd h (Nat.not_lt_zero _))
    · have hl2 : (s2.file sd).live (cfg.ph k).rowSel c = some (k, old) := ((hr2.rows _).live c hc).trans hl
      obtain ⟨g, hvv, hcur, hs1, hs2⟩ := store_remove (X := (ROp.rem k).actor cfg lo hi sd) hok2 hc hl2 rfl
      refine ⟨((Gh.zero.bytes ((k.length + old.length : Nat) : Int)).count 1).commit (.val (some old)), none, rfl, g, ⟨.inr ⟨rfl, _, rfl, ?_⟩, fun b => ?_, ?_⟩, ?_⟩
      · have := Commit.rem (X := (ROp.rem k).actor cfg lo hi sd) (s := s2) k rfl hvv
        rw [hcur] at this
        exact this
      · cases b
        · refine (congrArg (· - _) hs2).trans ?_; show _ + (1 : Int) - (0 + 1) = _ - 0; omega
        · refine (congrArg (· - _) hs1).trans ?_; show _ + _ - ((0 : Int) + _) = _ - 0; omega
      · show 0 ≤ (0 : Int) + _; omega
      · refine Safe.removals (X := (ROp.rem k).actor cfg lo hi sd) rfl (by show 0 ≤ (0 : Int) + _; omega) (fun s3 _ _ => Safe.wasted (X := (ROp.rem k).actor cfg lo hi sd) rfl (by show _ ≤ (0 : Int) + _; omega)
            (fun s4 _ _ s5 _ _ => ⟨.inl rfl, fun b => ?_⟩))
        cases b
        · rfl
        · show (0 : Int) + _ + _ = 0; omega
    · have hv : s2.val cfg k = none := val_of_live hok2 rfl rfl (RowVal.congr (hr2.rows sd).live hno)
      exact ⟨.inr ⟨rfl, .inr (.rem k hv)⟩, fun _ => rfl⟩
  | byHash ph =>
    show Safe _ _ (MProg.collect sd ph.rowSel ph.sig _ ROW_WIDTH 0 []) Gh.zero none s
    by_cases hs : ph.sig = INVALID_SIG
    · exact Safe.collect_any (X := (ROp.byHash ph).actor cfg lo hi sd) (s := s) (sd := sd) (pen := none) (cm := Gh.zero) (fin := TFin cfg (.byHash ph)) (sig := ph.sig) (k := fun l => .ret (.kvs l, none))
        (fun l s1 _ _ s2 _ _ => ⟨.inr ⟨rfl, .inr (.byHash ph l (fun h => absurd hs h))⟩, fun _ => rfl⟩) ROW_WIDTH 0 [] s (.refl _ _ _) hok
    · refine Safe.collect (X := (ROp.byHash ph).actor cfg lo hi sd) (s := s) (sd := sd) (pen := none) (cm := Gh.zero) (fin := TFin cfg (.byHash ph)) (sig := ph.sig) (k := fun l => .ret (.kvs l, none)) hs (fun s1 hr1 hok1 s2 hr2 hok2 => ?_) ROW_WIDTH 0 [] s (Nat.zero_add _) (.refl _ _ _) hok rfl
      have := byHash_noEff hok2 hs
      have e : hits (s2.file sd) ph.rowSel ph.sig ROW_WIDTH = hits (s1.file sd) ph.rowSel ph.sig ROW_WIDTH := (hr2.rows sd).hits hs (Nat.le_refl _)
      rw [e] at this
      exact ⟨.inr ⟨rfl, .inr this⟩, fun _ => rfl⟩
  | ins k v mode =>
    obtain ⟨hk, hv⟩ := hsz k v mode rfl
    show Safe _ _ (if comp = true then _ else _) Gh.zero none s
    split
    · exact ins_safe hok hk hv hsp
    · intro s1 hr1 hok1
      show Safe _ _ (if cfg.minCompaction.toNat ≤ _ then _ else _) Gh.zero none s1
      split
      · intro s2 hr2 hok2
        exact ins_safe hok2 hk hv hsp
      · intro s2 hr2 hok2
        show Safe _ _ (if cfg.maxShardSize.toNat < _ then _ else _) Gh.zero none s2
        split
        · exact fun s3 _ _ => ⟨.inr ⟨rfl, .inl rfl⟩, fun _ => rfl⟩
        · exact ins_safe hok2 hk hv hsp

/-! ## Copying a row -/

/-- The actor of a background compaction. -/
def bgActor (cfg : Cfg) (lo hi row : Nat) : Actor := ⟨cfg, lo, hi, row, .tgt, true, true, none⟩

/-- The live entries left of a column. -/
def LeftOf (f : MFile) (r c : Nat) (kv : KV) : Prop := ∃ c', c' < c ∧ f.live r c' = some kv

theorem range_filterMap_succ {α : Type} (f : Nat → Option α) (c : Nat) : (List.range (c + 1)).filterMap f = (List.range c).filterMap f ++ (f c).toList := by
  rw [List.range_succ, List.filterMap_append]
  cases h : f c <;> simp [h]

theorem range_filterMap_prefix {α : Type} (f : Nat → Option α) (c n : Nat) : ∃ l, (List.range (c + n)).filterMap f = (List.range c).filterMap f ++ l := by
  induction n with
  | zero => exact ⟨[], (List.append_nil _).symm⟩
  | succ n ih =>
    obtain ⟨l, h⟩ := ih
    exact ⟨l ++ (f (c + n)).toList, by rw [← Nat.add_assoc, range_filterMap_succ, h, List.append_assoc]⟩

/-- The place of an entry among the entries of the row. -/
theorem liveRow_at {f : MFile} {r c tc : Nat} {kv : KV} (hc : c < ROW_WIDTH) (hl : f.live r c = some kv)
    (hlen : ((List.range c).filterMap (f.live r)).length = tc) : (f.liveRow r)[tc]? = some kv := by
  obtain ⟨l, h⟩ := range_filterMap_prefix (f.live r) (c + 1) (ROW_WIDTH - (c + 1))
  rw [liveRow_eq, show ROW_WIDTH = c + 1 + (ROW_WIDTH - (c + 1)) by omega, h, range_filterMap_succ, hl, List.append_assoc, ← hlen,
    List.getElem?_append_right (Nat.le_refl _), Nat.sub_self]
  rfl

/-- What has been copied: the entries left of column `c` of the source are those left of column `tc` of the target, and the target's row is empty from there. -/
structure CopyInv (cfg : Cfg) (lo hi row c tc : Nat) (s : Shard) : Prop where
  ok : OKs (bgActor cfg lo hi row) none s
  cu : (s.file .tgt).compactedUpTo = row
  le : tc ≤ c
  len : ((List.range c).filterMap ((s.file .src).live row)).length = tc
  same : ∀ kv, LeftOf (s.file .tgt) row tc kv ↔ LeftOf (s.file .src) row c kv
  free : ∀ c', tc ≤ c' → c' < ROW_WIDTH → ((s.file .tgt).slot row c').sig = INVALID_SIG

theorem LeftOf.congr {f g : MFile} {r c : Nat} (h : LiveSame r f g) (hc : c ≤ ROW_WIDTH) (kv : KV) : LeftOf g r c kv ↔ LeftOf f r c kv := by
  constructor
  · rintro ⟨c', h1, h2⟩; exact ⟨c', h1, by rw [← h c' (by omega)]; exact h2⟩
  · rintro ⟨c', h1, h2⟩; exact ⟨c', h1, by rw [h c' (by omega)]; exact h2⟩

theorem LeftOf.succ {f : MFile} {r c : Nat} {kv : KV} : LeftOf f r (c + 1) kv ↔ LeftOf f r c kv ∨ f.live r c = some kv := by
  constructor
  · rintro ⟨c', h1, h2⟩
    by_cases e : c' = c
    · rw [e] at h2; exact .inr h2
    · exact .inl ⟨c', by omega, h2⟩
  · rintro (⟨c', h1, h2⟩ | h)
    · exact ⟨c', by omega, h2⟩
    · exact ⟨c, by omega, h⟩

theorem CopyInv.rely {cfg : Cfg} {lo hi row c tc : Nat} {s s' : Shard} (h : CopyInv cfg lo hi row c tc s) (hr : Rely (bgActor cfg lo hi row) none s s')
    (hok : OKs (bgActor cfg lo hi row) none s') (hc : c ≤ ROW_WIDTH) : CopyInv cfg lo hi row c tc s' := by
  have hrow : ∀ sd, RowSame row (s.file sd) (s'.file sd) := hr.rows
  refine ⟨hok, (hr.cu rfl).trans h.cu, h.le, ?_, fun kv => ?_, fun c' h1 h2 => by rw [(hrow .tgt).slot]; exact h.free c' h1 h2⟩
  · rw [← h.len]
    exact congrArg List.length (filterMap_congr (fun c' hc' => (hrow .src).live c' (Nat.lt_of_lt_of_le (List.mem_range.1 hc') hc)))
  rw [LeftOf.congr (hrow .tgt).live (Nat.le_trans h.le hc), LeftOf.congr (hrow .src).live hc]
  exact h.same kv

/-- The end of the row: from now on the target serves it, with the same contents. -/
theorem CopyInv.done {cfg : Cfg} {lo hi row tc : Nat} {s : Shard} (h : CopyInv cfg lo hi row ROW_WIDTH tc s) :
    Guar (bgActor cfg lo hi row) none none s (s.upd .tgt .addCompacted) ∧ ∀ k, (s.upd .tgt .addCompacted).val cfg k = s.val cfg k := by
  have hok := h.ok
  have hfile := Shard.upd_file (s := s) (sd := .tgt) .addCompacted hok.has
  have g : Guar (bgActor cfg lo hi row) none none s (s.upd .tgt .addCompacted) :=
    mkGuar (X := bgActor cfg lo hi row) hok .addCompacted (fun r _ c => rfl) (fun b _ => rfl) (Nat.le_refl _)
      ((hok.ok .tgt).congr rfl rfl (Nat.le_refl _)) (fun c _ hs => .inl ⟨hs, rfl⟩) (fun R e => .inl e)
      (.inr ⟨rfl, h.cu, congrArg (· + 1) h.cu⟩) (fun _ => .inl (by rw [show (bgActor cfg lo hi row).sd = .tgt from rfl, hfile]; exact congrArg (· + 1) h.cu))
  refine ⟨g, fun k => ?_⟩
  have hcu' : ((s.upd .tgt .addCompacted).file .tgt).compactedUpTo = row + 1 := by rw [hfile]; exact congrArg (· + 1) h.cu
  have hsome : s.tgt.isSome = true := hok.has rfl
  by_cases er : (cfg.ph k).rowSel = row
  · have hs1 : s.sideOf row = .src := by rw [s.sideOf_eq, if_neg]; rw [h.cu]; exact fun h' => Nat.lt_irrefl _ h'.2
    have hs2 : (s.upd .tgt .addCompacted).sideOf row = .tgt := by
      rw [Shard.sideOf_eq, if_pos]
      exact ⟨by rw [g.span.2.2]; exact hsome, by rw [hcu']; exact Nat.lt_succ_self _⟩
    have hv := Shard.val_files (cfg := cfg) hok.ok k
    have hx : RowVal (s.active (cfg.ph k).rowSel) (cfg.ph k).rowSel k (s.val cfg k) := hv
    rw [er, s.active_eq, hs1] at hx
    refine Shard.val_of_files (cfg := cfg) (g.files hok) ?_
    rw [er, Shard.active_eq, hs2, hfile]
    have hl : ∀ c, (Prim.app .addCompacted (s.file .tgt)).live row c = (s.file .tgt).live row c := fun c => live_congr' rfl (fun _ _ _ => rfl)
    have hall : ∀ kv, (∃ c, c < ROW_WIDTH ∧ (s.file .tgt).live row c = some kv) ↔ ∃ c, c < ROW_WIDTH ∧ (s.file .src).live row c = some kv := by
      intro kv
      constructor
      · rintro ⟨c, hc, hlc⟩
        have : c < tc := by
          refine Nat.lt_of_not_le (fun hle => ?_)
          rw [live_eq_none.2 (h.free c hle hc)] at hlc
          cases hlc
        exact (h.same kv).1 ⟨c, this, hlc⟩
      · intro hx
        obtain ⟨c, hc, hlc⟩ := (h.same kv).2 hx
        exact ⟨c, Nat.lt_of_lt_of_le hc h.le, hlc⟩
    generalize s.val cfg k = x at hx
    cases x with
    | none =>
      intro c hc v hlc
      rw [hl] at hlc
      obtain ⟨c', hc', h'⟩ := (hall (k, v)).1 ⟨c, hc, hlc⟩
      exact hx c' hc' v h'
    | some v =>
      obtain ⟨c, hc, h'⟩ := (hall (k, v)).2 hx
      exact ⟨c, hc, by rw [hl]; exact h'⟩
  · refine Shard.val_of_files (cfg := cfg) (g.files hok) ?_
    exact RowVal.congr (g.active_other hok (cfg.ph k).rowSel_lt er) (Shard.val_files (cfg := cfg) hok.ok k)

theorem copy_safe {cfg : Cfg} {lo hi row : Nat} {first : Bool} :
    ∀ (n c tc : Nat) (s : Shard), c + n = ROW_WIDTH → CopyInv cfg lo hi row c tc s →
      Safe (bgActor cfg lo hi row) (fun _ g s' => g = Gh.zero ∧ (s'.file .tgt).compactedUpTo = row + 1) (copyCode cfg first row n c tc) Gh.zero none s
  | 0, c, tc, s, hn, h => by
    intro s' hr hok
    have h' := h.rely hr hok (by omega)
    have ec : c = ROW_WIDTH := by omega
    rw [ec] at h'
    obtain ⟨g, hv⟩ := h'.done
    refine ⟨Gh.zero, none, rfl, g, ⟨.inl ⟨rfl, hv⟩, fun b => ?_, Int.le_refl 0⟩, fun s2 hr2 _ => ⟨rfl, ?_⟩⟩
    · refine congrArg (· - _) ((surplus_upd hok .addCompacted b).trans ?_)
      exact surplus_keep (fun r _ c _ => live_congr' rfl (fun _ _ _ => rfl)) rfl rfl rfl rfl b
    rw [hr2.cu rfl, Shard.upd_file (sd := .tgt) _ hok.has]
    exact congrArg (· + 1) h'.cu
  | n + 1, c, tc, s, hn, h => by
    have hc : c < ROW_WIDTH := by omega
    intro s1 hr1 hok1
    have h1 := h.rely hr1 hok1 (by omega)
    show Safe _ _ (if ((s1.file .src).slot row c).sig = INVALID_SIG then _ else _) Gh.zero none s1
    split
    · rename_i hx
      refine copy_safe n (c + 1) tc s1 (by omega) ⟨h1.ok, h1.cu, Nat.le_succ_of_le h1.le, by rw [range_filterMap_succ, live_eq_none.2 hx]; exact (congrArg List.length (List.append_nil _)).trans h1.len, fun kv => ?_, h1.free⟩
      rw [LeftOf.succ, h1.same, live_eq_none.2 hx]
      simp
    · rename_i hx
      intro s2 hr2 hok2
      have h2 := h1.rely hr2 hok2 (by omega)
      have hx2 : ((s2.file .src).slot row c).sig ≠ INVALID_SIG := fun e => hx ((congrArg Slot.sig ((hr2.rows .src).slot c)).symm.trans e)
      refine Safe.readKV (X := bgActor cfg lo hi row) hc hok2 hx2 rfl (fun s3 hr3 hok3 s4 hr4 hok4 => ?_)
      have h4 := (h2.rely hr3 hok3 (by omega)).rely hr4 hok4 (by omega)
      have hl2 : (s2.file .src).live row c = some ((s2.file .src).readKV ((s2.file .src).slot row c).desc) := live_eq_some.2 ⟨hx2, rfl⟩
      have hl4 : (s4.file .src).live row c = some ((s2.file .src).readKV ((s2.file .src).slot row c).desc) :=
        (((hr3.rows .src).trans (hr4.rows .src)).live c hc).trans hl2
      have hk : ((s2.file .src).readKV ((s2.file .src).slot row c).desc).1.length < 65536 := by rw [readKV_klen]; exact descKlen_lt _
      have hv : ((s2.file .src).readKV ((s2.file .src).slot row c).desc).2.length < 65536 := by rw [readKV_vlen]; exact descVlen_lt _
      generalize (s2.file .src).readKV ((s2.file .src).slot row c).desc = kv at hl4 hk hv
      have htc : tc < ROW_WIDTH := Nat.lt_of_le_of_lt h4.le hc
      have hrow : (cfg.ph kv.1).rowSel = row := (hok4.ok .src).row _ _ _ hok4.row hc hl4
      have hsp : lo ≤ (cfg.ph kv.1).shardSel ∧ (cfg.ph kv.1).shardSel < hi := (hok4.ok .src).span _ _ _ hok4.row hc hl4
      have hfree := h4.free tc (Nat.le_refl _) htc
      show Safe _ _ (if ROW_WIDTH ≤ tc ∨ (first = false ∧ ((s4.file .tgt).slot row tc).sig ≠ INVALID_SIG) ∨ (cfg.ph kv.1).rowSel ≠ row then _ else _) Gh.zero none s4
      rw [if_neg (fun h => h.elim (fun h => absurd h (by omega)) (fun h => h.elim (fun h => h.2 hfree) (fun h => h hrow)))]
      have hno4 : RowVal (s4.file .tgt) row kv.1 none := by
        intro c' hc' v' hl'
        have hlt : c' < tc := by
          refine Nat.lt_of_not_le (fun hle => ?_)
          rw [live_eq_none.2 (h4.free c' hle hc')] at hl'
          cases hl'
        obtain ⟨c2, hc2, hl2'⟩ := (h4.same (kv.1, v')).1 ⟨c', hlt, hl'⟩
        have := (hok4.ok .src).inj _ _ _ _ _ hok4.row (by omega) hc hl2' hl4 rfl
        omega
      refine Safe.writeKV (X := bgActor cfg lo hi row) rfl (Int.le_refl 0) (fun s5 off hr5 hok5 hoff hd5 s6 hr6 hok6 => ?_)
      have W : Written (bgActor cfg lo hi row) kv.1 kv.2 off s6 := Written.rely ⟨hok5, hk, hv, hoff, hd5⟩ hr6 hok6
      have hrows6 : ∀ sd, RowSame row (s4.file sd) (s6.file sd) := fun sd => (hr5.rows sd).trans (hr6.rows sd)
      have hcu6 : (s6.file .tgt).compactedUpTo = row := (hr6.cu rfl).trans ((hr5.cu rfl).trans h4.cu)
      obtain ⟨g, hvv, hlv, hsu⟩ := store_desc_free (X := bgActor cfg lo hi row) hok6 (c := tc) (pack kv.1.length kv.2.length off)
        (by rw [show (bgActor cfg lo hi row).row = row from rfl]; exact (congrArg Slot.sig ((hrows6 .tgt).slot tc)).trans hfree)
      refine ⟨Gh.zero.bytes ((kv.1.length : Int) + kv.2.length), _, rfl, g, ⟨.inl ⟨rfl, hvv⟩, fun b => congrArg (· - _) (hsu b), by show 0 ≤ (0 : Int) + _; omega⟩, fun s8 hr8 hok8 => ?_⟩
      have hfile := Shard.upd_file (s := s6) (.setDesc row tc (pack kv.1.length kv.2.length off)) hok6.has
      have W7 : Written (bgActor cfg lo hi row) kv.1 kv.2 off (s6.upd .tgt (.setDesc row tc (pack kv.1.length kv.2.length off))) :=
        ⟨g.self hok6, hk, hv, hoff, (congrArg (fun f => readAt (MFile.data f) off (kv.1.length + kv.2.length)) hfile).trans W.data⟩
      have W8 := W7.rely hr8 hok8
      have hslot8 : (s8.file .tgt).slot row tc = ⟨INVALID_SIG, pack kv.1.length kv.2.length off⟩ := by
        refine Eq.trans ((hr8.rows .tgt).slot tc) ?_
        refine Eq.trans (congrArg (fun f => MFile.slot f row tc) hfile) ?_
        refine Eq.trans (setDesc_same _ _ _ _) ?_
        congr 1
        exact (congrArg Slot.sig ((hrows6 .tgt).slot tc)).trans hfree
      have hlt8 : LiveSame row (s4.file .tgt) (s8.file .tgt) := fun c' hc' =>
        ((hr8.rows .tgt).live c' hc').trans ((hlv row c').trans ((hrows6 .tgt).live c' hc'))
      have hsrc7 : (s6.upd .tgt (.setDesc row tc (pack kv.1.length kv.2.length off))).file .src = s6.file .src := s6.upd_other .tgt _
      have hls8 : LiveSame row (s4.file .src) (s8.file .src) := fun c' hc' => by
        have e1 := (hr8.rows .src).live c' hc'
        rw [hsrc7] at e1
        exact e1.trans ((hrows6 .src).live c' hc')
      have hcu8 : (s8.file .tgt).compactedUpTo = row := by
        refine (hr8.cu rfl).trans ?_
        exact (congrArg MFile.compactedUpTo hfile).trans hcu6
      have hlen8 : ((List.range c).filterMap ((s8.file .src).live row)).length = ((List.range c).filterMap ((s4.file .src).live row)).length :=
        congrArg List.length (filterMap_congr (fun c' hc' => hls8 c' (Nat.lt_trans (List.mem_range.1 hc') hc)))
      obtain ⟨g', hnew, hold, _, hs1, hs2⟩ := store_sig W8 htc hslot8 hrow hsp (RowVal.congr hlt8 hno4)
        (fun _ => ⟨hcu8, liveRow_at hc (hls8 c hc |>.trans hl4) (hlen8.trans h4.len)⟩)
      have hcu9 : ((s8.upd .tgt (.setSig row tc (cfg.ph kv.1).sig)).file .tgt).compactedUpTo = (s8.file .tgt).compactedUpTo := by
        rw [Shard.upd_file (s := s8) (sd := .tgt) (.setSig row tc (cfg.ph kv.1).sig) hok8.has]; rfl
      refine ⟨((Gh.zero.bytes ((kv.1.length : Int) + kv.2.length)).bytes (-((kv.1.length + kv.2.length : Nat) : Int))).count (-1), none, rfl, g',
        ⟨.inl ⟨rfl, slot_vals_bg hok8 g' rfl hcu9 hcu8⟩, fun b => ?_, by show 0 ≤ (0 : Int) + _ + _; omega⟩, ?_⟩
      · cases b
        · refine (congrArg (· - _) hs2).trans ?_; show _ - (1 : Int) - (0 + -1) = _ - 0; omega
        · refine (congrArg (· - _) hs1).trans ?_; show _ - _ - ((0 : Int) + _ + _) = _ - (0 + _); omega
      have h8 : CopyInv cfg lo hi row (c + 1) (tc + 1) (s8.upd .tgt (.setSig row tc (cfg.ph kv.1).sig)) := by
        refine ⟨g'.self hok8, hcu9.trans hcu8, Nat.succ_le_succ h4.le, ?_, fun kv' => ?_, fun c' h1' h2' => ?_⟩
        · have e2 : (s8.upd .tgt (.setSig row tc (cfg.ph kv.1).sig)).file .src = s8.file .src := s8.upd_other .tgt _
          rw [e2, range_filterMap_succ, (hls8 c hc).trans hl4]
          exact (List.length_append).trans (congrArg (· + 1) (hlen8.trans h4.len))
        · have e1 : LeftOf ((s8.upd .tgt (.setSig row tc (cfg.ph kv.1).sig)).file .tgt) row tc kv' ↔ LeftOf (s4.file .tgt) row tc kv' := by
            have hh : ∀ c', c' < tc → ((s8.upd .tgt (.setSig row tc (cfg.ph kv.1).sig)).file .tgt).live row c' = (s4.file .tgt).live row c' := fun c' hlt =>
              (hold row c' (fun h => by have := h.2; omega)).trans (hlt8 c' (by omega))
            constructor
            · rintro ⟨c', a, b⟩; exact ⟨c', a, by rw [← hh c' a]; exact b⟩
            · rintro ⟨c', a, b⟩; exact ⟨c', a, by rw [hh c' a]; exact b⟩
          have e2 : (s8.upd .tgt (.setSig row tc (cfg.ph kv.1).sig)).file .src = s8.file .src := s8.upd_other .tgt _
          have e3 : ((s8.upd .tgt (.setSig row tc (cfg.ph kv.1).sig)).file .tgt).live row tc = some kv := hnew
          rw [LeftOf.succ, LeftOf.succ, e2, LeftOf.congr hls8 (Nat.le_of_lt hc), hls8 c hc, hl4, e3, e1, h4.same]
        · refine live_eq_none.1 ?_
          refine (hold row c' (fun h => by have := h.2; omega)).trans ((hlt8 c' h2').trans ?_)
          exact live_eq_none.2 (h4.free c' (by omega) h2')
      refine Safe.inserts (X := bgActor cfg lo hi row) rfl (by show 0 ≤ (0 : Int) + _ + _; omega) (fun s10 hr10 hok10 => ?_)
      have ez : (((Gh.zero.bytes ((kv.1.length : Int) + kv.2.length)).bytes (-((kv.1.length + kv.2.length : Nat) : Int))).count (-1)).count 1 = Gh.zero := by
        unfold Gh.zero Gh.bytes Gh.count
        congr 1
        funext b
        cases b
        · rfl
        · show (0 : Int) + _ + _ = 0; omega
      rw [ez]
      exact copy_safe n (c + 1) (tc + 1) s10 (by omega) (h8.rely hr10 hok10 (by omega))

end Candy
