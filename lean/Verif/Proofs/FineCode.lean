import Verif.Proofs.FineSafe
/-!
# The code of the raw operations is well-behaved
-/
namespace Candy
open Spec

/-! ## Single accesses -/

theorem mkGuar {X : Actor} {pen pen' : Option Reg} {s : Shard} (hok : OKs X pen s) (p : Prim)
    (slots : ∀ r, r ≠ X.row → ∀ c, (p.app (s.file X.sd)).slot r c = (s.file X.sd).slot r c)
    (data : ∀ b, ¬ inReg pen b → (p.app (s.file X.sd)).data b = (s.file X.sd).data b)
    (off : (s.file X.sd).writeOff ≤ (p.app (s.file X.sd)).writeOff) (ok : FileOK X.cfg X.lo X.hi (p.app (s.file X.sd)))
    (reg : ∀ c, c < ROW_WIDTH → ((p.app (s.file X.sd)).slot X.row c).sig ≠ INVALID_SIG →
      (((s.file X.sd).slot X.row c).sig ≠ INVALID_SIG ∧ ((p.app (s.file X.sd)).slot X.row c).desc = ((s.file X.sd).slot X.row c).desc) ∨
      (pen' = none ∧ ∀ b, inDesc ((p.app (s.file X.sd)).slot X.row c).desc b → inReg pen b))
    (hpen : ∀ R, pen' = some R → pen = some R ∨ (pen = none ∧ R.1 = (s.file X.sd).writeOff ∧ R.1 + R.2 ≤ (p.app (s.file X.sd)).writeOff))
    (cu : (p.app (s.file X.sd)).compactedUpTo = (s.file X.sd).compactedUpTo ∨
      (X.bg = true ∧ (s.file X.sd).compactedUpTo = X.row ∧ (p.app (s.file X.sd)).compactedUpTo = X.row + 1))
    (copy : X.bg = true → CopyAt X.row (s.upd X.sd p)) :
    Guar X pen pen' s (s.upd X.sd p) := by
  have e := Shard.upd_file p hok.has
  refine ⟨⟨p, rfl⟩, ?_, ?_, ?_, ?_, ?_, ?_, ?_, copy⟩ <;> rw [e] <;> assumption

/-- An access that keeps the entries of the row. -/
theorem OKs.copy_upd {X : Actor} {pen : Option Reg} {s : Shard} (hok : OKs X pen s) (p : Prim) (hl : LiveSame X.row (s.file X.sd) (p.app (s.file X.sd)))
    (hcu : (p.app (s.file X.sd)).compactedUpTo = (s.file X.sd).compactedUpTo) : X.bg = true → CopyAt X.row (s.upd X.sd p) := by
  intro hb
  have e := Shard.upd_file (s := s) p hok.has
  have hsd := hok.bgs hb
  have e2 := s.upd_other X.sd p
  rw [hsd] at e e2 hl hcu ⊢
  refine (hok.copy hb).congr ?_ ?_ ?_
  · have : (s.upd .tgt p).file .src = s.file .src := e2
    rw [this]; exact fun _ _ => rfl
  · rw [e]; exact hl
  · rw [e]; exact hcu

/-- The surplus after an access. -/
theorem surplus_upd {X : Actor} {pen : Option Reg} {s : Shard} (hok : OKs X pen s) (p : Prim) (k : Bool) :
    surplus ((s.upd X.sd p).file X.sd) k = surplus (p.app (s.file X.sd)) k := by rw [Shard.upd_file p hok.has]

/-- The totals of a file whose entries are the same. -/
theorem fileW_same (w : KV → Nat) {f g : MFile} (h : ∀ r, r < NUM_ROWS → LiveSame r f g) : fileW w g = fileW w f := by
  apply sumTo_congr
  intro r hr
  apply sumTo_congr
  intro c hc
  simp only [cellW]; rw [h r hr c hc]

theorem surplus_same {f g : MFile} (h : ∀ r, r < NUM_ROWS → LiveSame r f g) :
    (surplus g true + g.wasted - g.writeOff = surplus f true + f.wasted - f.writeOff) ∧
    (surplus g false + g.numRemovals - g.numInserts = surplus f false + f.numRemovals - f.numInserts) := by
  have h1 := fileW_same kvSize h
  have h2 := fileW_same (fun _ => 1) h
  unfold surplus liveBytes liveCount
  simp only
  omega

/-- An access that changes neither entries nor counters. -/
theorem surplus_keep {f g : MFile} (h : ∀ r, r < NUM_ROWS → LiveSame r f g) (h1 : g.wasted = f.wasted) (h2 : g.writeOff = f.writeOff)
    (h3 : g.numRemovals = f.numRemovals) (h4 : g.numInserts = f.numInserts) (k : Bool) : surplus g k = surplus f k := by
  obtain ⟨a, b⟩ := surplus_same h
  cases k
  · omega
  · omega

/-- The values, after an access that leaves the slots of the row and `compacted_up_to` alone. -/
theorem Guar.vals_slots {X : Actor} {pen pen' : Option Reg} {s s' : Shard} (h : Guar X pen pen' s s') (hok : OKs X pen s)
    (hs : ∀ c, (s'.file X.sd).slot X.row c = (s.file X.sd).slot X.row c)
    (hcu : (s'.file X.sd).compactedUpTo = (s.file X.sd).compactedUpTo) (k : Bytes) : s'.val X.cfg k = s.val X.cfg k :=
  h.vals hok (by rw [s.active_eq, s'.active_eq, h.sideOf_self hok hcu]; exact (h.rowSame_self hok hs _).live) k

/-- Such an access is one that the actor itself may rely on. -/
theorem Guar.rely_slots {X : Actor} {pen pen' : Option Reg} {s s' : Shard} (h : Guar X pen pen' s s') (hok : OKs X pen s)
    (hs : ∀ c, (s'.file X.sd).slot X.row c = (s.file X.sd).slot X.row c)
    (hcu : (s'.file X.sd).compactedUpTo = (s.file X.sd).compactedUpTo) : Rely X none s s' := by
  refine ⟨h.span.2.2, h.rowSame_self hok hs, fun b hb => ?_, fun e => ?_⟩
  · obtain ⟨_, e, _⟩ := hb; cases e
  · rw [← hok.bgs e]; exact hcu

/-- A store to a counter. -/
theorem store_quiet {X : Actor} {pen : Option Reg} {s : Shard} (hok : OKs X pen s) (p : Prim) (hs : (p.app (s.file X.sd)).slot = (s.file X.sd).slot)
    (hd : (p.app (s.file X.sd)).data = (s.file X.sd).data) (ho : (p.app (s.file X.sd)).writeOff = (s.file X.sd).writeOff)
    (hcu : (p.app (s.file X.sd)).compactedUpTo = (s.file X.sd).compactedUpTo) :
    Guar X pen pen s (s.upd X.sd p) ∧ (∀ k, (s.upd X.sd p).val X.cfg k = s.val X.cfg k) ∧ Rely X none s (s.upd X.sd p) := by
  have g : Guar X pen pen s (s.upd X.sd p) := mkGuar hok p (fun r _ c => by rw [hs]) (fun b _ => by rw [hd]) (by rw [ho]; exact Nat.le_refl _)
    ((hok.ok X.sd).congr hs hd (by rw [ho]; exact Nat.le_refl _)) (fun c _ h => by rw [hs] at h ⊢; exact .inl ⟨h, rfl⟩) (fun R e => .inl e) (.inl hcu)
    (hok.copy_upd p (fun c _ => live_congr' (by rw [hs]) (fun _ _ _ => by rw [hd])) hcu)
  have e := Shard.upd_file p hok.has
  have h1 : ∀ c, ((s.upd X.sd p).file X.sd).slot X.row c = (s.file X.sd).slot X.row c := fun c => by rw [e, hs]
  have h2 : ((s.upd X.sd p).file X.sd).compactedUpTo = (s.file X.sd).compactedUpTo := by rw [e, hcu]
  exact ⟨g, g.vals_slots hok h1 h2, g.rely_slots hok h1 h2⟩

/-- Reserving space. -/
theorem store_bump {X : Actor} {s : Shard} (hok : OKs X none s) (n : Nat) :
    Guar X none (some ((s.file X.sd).writeOff, n)) s (s.upd X.sd (.bump n)) ∧ (∀ k, (s.upd X.sd (.bump n)).val X.cfg k = s.val X.cfg k) ∧
    Rely X none s (s.upd X.sd (.bump n)) ∧
    surplus ((s.upd X.sd (.bump n)).file X.sd) true = surplus (s.file X.sd) true + n ∧ surplus ((s.upd X.sd (.bump n)).file X.sd) false = surplus (s.file X.sd) false := by
  have g : Guar X none (some ((s.file X.sd).writeOff, n)) s (s.upd X.sd (.bump n)) := mkGuar hok _ (fun r _ c => rfl) (fun b _ => rfl) (Nat.le_add_right _ _)
    ((hok.ok X.sd).congr rfl rfl (Nat.le_add_right _ _)) (fun c _ h => .inl ⟨h, rfl⟩) (fun R e => by cases e; exact .inr ⟨rfl, rfl, Nat.le_refl _⟩) (.inl rfl)
    (hok.copy_upd _ (fun c _ => live_congr' rfl (fun _ _ _ => rfl)) rfl)
  have e := Shard.upd_file (.bump n) hok.has
  have h1 : ∀ c, ((s.upd X.sd (.bump n)).file X.sd).slot X.row c = (s.file X.sd).slot X.row c := fun c => by rw [e]; rfl
  have h2 : ((s.upd X.sd (.bump n)).file X.sd).compactedUpTo = (s.file X.sd).compactedUpTo := by rw [e]; rfl
  refine ⟨g, g.vals_slots hok h1 h2, g.rely_slots hok h1 h2, ?_⟩
  rw [e]
  obtain ⟨a, b⟩ := surplus_same (f := s.file X.sd) (g := Prim.app (.bump n) (s.file X.sd)) (fun r _ c _ => live_congr' rfl (fun _ _ _ => rfl))
  have e1 : (Prim.app (.bump n) (s.file X.sd)).wasted = (s.file X.sd).wasted := rfl
  have e2 : (Prim.app (.bump n) (s.file X.sd)).writeOff = (s.file X.sd).writeOff + n := rfl
  have e3 : (Prim.app (.bump n) (s.file X.sd)).numInserts = (s.file X.sd).numInserts := rfl
  have e4 : (Prim.app (.bump n) (s.file X.sd)).numRemovals = (s.file X.sd).numRemovals := rfl
  rw [e1, e2] at a
  rw [e3, e4] at b
  omega

/-- Writing a byte of the reserved region. -/
theorem store_byte {X : Actor} {pen : Option Reg} {s : Shard} (hok : OKs X pen s) (off : Nat) (b : UInt8) (hin : inReg pen off) :
    Guar X pen pen s (s.upd X.sd (.pwrite off [b])) ∧ (∀ k, (s.upd X.sd (.pwrite off [b])).val X.cfg k = s.val X.cfg k) ∧
    Rely X none s (s.upd X.sd (.pwrite off [b])) ∧ ∀ k, surplus ((s.upd X.sd (.pwrite off [b])).file X.sd) k = surplus (s.file X.sd) k := by
  have hdat : ∀ i, ¬ inReg pen i → (Prim.app (.pwrite off [b]) (s.file X.sd)).data i = (s.file X.sd).data i := by
    intro i hi
    show writeAt _ _ _ _ = _
    unfold writeAt
    rw [if_neg]
    rintro ⟨h1, h2⟩
    have : i = off := by simp at h2; omega
    exact hi (this ▸ hin)
  have g : Guar X pen pen s (s.upd X.sd (.pwrite off [b])) := mkGuar hok _ (fun r _ c => rfl) hdat (Nat.le_refl _)
    ((hok.ok X.sd).sameLive rfl (fun r hr c hc => live_congr' rfl (fun hs i hi => hdat i (hok.pen.live r c hr hc hs i hi))) (Nat.le_refl _))
    (fun c _ h => .inl ⟨h, rfl⟩) (fun R e => .inl e) (.inl rfl)
    (hok.copy_upd _ (fun c hc => live_congr' rfl (fun hs i hi => hdat i (hok.pen.live X.row c hok.row hc hs i hi))) rfl)
  have e := Shard.upd_file (.pwrite off [b]) hok.has
  have h1 : ∀ c, ((s.upd X.sd (.pwrite off [b])).file X.sd).slot X.row c = (s.file X.sd).slot X.row c := fun c => by rw [e]; rfl
  have h2 : ((s.upd X.sd (.pwrite off [b])).file X.sd).compactedUpTo = (s.file X.sd).compactedUpTo := by rw [e]; rfl
  refine ⟨g, g.vals_slots hok h1 h2, g.rely_slots hok h1 h2, fun k => ?_⟩
  rw [e]
  exact surplus_keep (f := s.file X.sd) (g := Prim.app (.pwrite off [b]) (s.file X.sd)) (fun r hr c hc => live_congr' rfl (fun hs i hi => hdat i (hok.pen.live r c hr hc hs i hi))) rfl rfl rfl rfl k

/-! ## Reading -/

theorem readAt_succ (d : Nat → UInt8) (off n : Nat) : readAt d off (n + 1) = d off :: readAt d (off + 1) n := by
  unfold readAt
  rw [List.range_succ_eq_map, List.map_cons, List.map_map]
  congr 1
  apply List.map_congr_left
  intro i _
  show d (off + (i + 1)) = d (off + 1 + i)
  congr 1; omega

theorem readAt_snoc (d : Nat → UInt8) (off n : Nat) : readAt d off (n + 1) = readAt d off n ++ [d (off + n)] := by
  unfold readAt
  rw [List.range_succ, List.map_append]; rfl

section
variable {X : Actor} {α : Type} {fin : α → Gh → Shard → Prop} {cm : Gh} {pen : Option Reg}

theorem Safe.readBytes {sd : Side} {k : Bytes → MProg α} {d : BitVec 64} {cc : Nat} (hcc : cc < ROW_WIDTH) :
    ∀ (n off : Nat) (acc : Bytes) (s : Shard), OKs X pen s → ((s.file sd).slot X.row cc).sig ≠ INVALID_SIG → ((s.file sd).slot X.row cc).desc = d →
      descOff d ≤ off → off + n ≤ descEnd d →
      (∀ s', Rely X pen s s' → OKs X pen s' → Safe X fin (k (acc ++ readAt (s.file sd).data off n)) cm pen s') →
      Safe X fin (MProg.readBytes sd k n off acc) cm pen s
  | 0, off, acc, s, hok, _, _, _, _, hk => by
    have := hk s (.refl _ _ _) hok
    simpa [MProg.readBytes, readAt] using this
  | n + 1, off, acc, s, hok, hs, hd, h1, h2, hk => by
    intro s' hr hok'
    have hrow := hr.rows sd
    refine Safe.readBytes (d := d) hcc n (off + 1) _ s' hok' (by rw [hrow.slot]; exact hs) (by rw [hrow.slot]; exact hd) (by omega) (by omega) (fun s'' hr' hok'' => ?_)
    have hdat : ∀ b, inDesc d b → (s'.file sd).data b = (s.file sd).data b := fun b hb => hrow.data cc hcc hs b (hd.symm ▸ hb)
    have e1 : (s'.file sd).data off = (s.file sd).data off := hdat off ⟨h1, by omega⟩
    have e2 : readAt (s'.file sd).data (off + 1) n = readAt (s.file sd).data (off + 1) n :=
      readAt_congr' (fun i a b => hdat i ⟨by omega, by omega⟩)
    have := hk s'' (hr.trans hr') hok''
    rw [readAt_succ, ← e1, ← e2] at this
    rw [List.append_assoc]
    exact this

theorem Safe.readKV {sd : Side} {k : KV → MProg α} {d : BitVec 64} {cc : Nat} (hcc : cc < ROW_WIDTH) {s : Shard} (hok : OKs X pen s)
    (hs : ((s.file sd).slot X.row cc).sig ≠ INVALID_SIG) (hd : ((s.file sd).slot X.row cc).desc = d)
    (hk : ∀ s', Rely X pen s s' → OKs X pen s' → Safe X fin (k ((s.file sd).readKV d)) cm pen s') : Safe X fin (MProg.readKV sd d k) cm pen s := by
  unfold MProg.readKV
  exact Safe.readBytes hcc _ _ [] s hok hs hd (Nat.le_refl _) (Nat.le_refl _) hk

/-- Looking for a key. -/
theorem Safe.scan {sd : Side} {key : Bytes} {H : Nat → Bytes → MProg α} {miss : MProg α} {s : Shard} (hrow : (X.cfg.ph key).rowSel = X.row)
    (hH : ∀ s' c old, Rely X pen s s' → OKs X pen s' → c < ROW_WIDTH → (s'.file sd).live X.row c = some (key, old) → Safe X fin (H c old) cm pen s')
    (hM : ∀ s', Rely X pen s s' → OKs X pen s' → RowVal (s'.file sd) X.row key none → Safe X fin miss cm pen s') :
    ∀ (n c : Nat) (s1 : Shard), c + n = ROW_WIDTH → Rely X pen s s1 → OKs X pen s1 →
      (∀ c' v, c' < c → (s1.file sd).live X.row c' ≠ some (key, v)) →
      Safe X fin (MProg.scan sd X.row (X.cfg.ph key).sig (fun c kv => if key = kv.1 then some (H c kv.2) else none) miss n c) cm pen s1
  | 0, c, s1, hn, hr, hok, hno => hM s1 hr hok (fun c' hc' v => hno c' v (by omega))
  | n + 1, c, s1, hn, hr, hok, hno => by
    have hc : c < ROW_WIDTH := by omega
    intro s2 hr2 hok2
    have hsame := (hr2.rows sd).live
    have hno2 : ∀ c' v, c' < c → (s2.file sd).live X.row c' ≠ some (key, v) := fun c' v h => by rw [hsame c' (by omega)]; exact hno c' v h
    show Safe X fin (if ((s2.file sd).slot X.row c).sig = (X.cfg.ph key).sig then _ else _) cm pen s2
    split
    · rename_i hsig
      have hval : ((s2.file sd).slot X.row c).sig ≠ INVALID_SIG := by rw [hsig]; exact X.cfg.ph_sig_ne key
      intro s3 hr3 hok3
      have hval3 : ((s3.file sd).slot X.row c).sig ≠ INVALID_SIG := by rw [(hr3.rows sd).slot]; exact hval
      refine Safe.readKV hc hok3 hval3 rfl (fun s4 hr4 hok4 => ?_)
      have hl3 : (s3.file sd).live X.row c = some ((s3.file sd).readKV ((s3.file sd).slot X.row c).desc) := live_eq_some.2 ⟨hval3, rfl⟩
      have hl4 : (s4.file sd).live X.row c = some ((s3.file sd).readKV ((s3.file sd).slot X.row c).desc) := by
        rw [(hr4.rows sd).live c hc]; exact hl3
      generalize (s3.file sd).readKV ((s3.file sd).slot X.row c).desc = kv at hl4
      obtain ⟨kk, vv⟩ := kv
      by_cases e : key = kk
      · subst e
        simp only [if_true]
        exact hH s4 c vv (((hr.trans hr2).trans hr3).trans hr4) hok4 hc hl4
      · simp only [e, if_false]
        refine Safe.scan hrow hH hM n (c + 1) s4 (by omega) (((hr.trans hr2).trans hr3).trans hr4) hok4 (fun c' v h => ?_)
        by_cases ec : c' = c
        · subst ec; rw [hl4]; intro h'; cases h'; exact e rfl
        · rw [((hr3.rows sd).trans (hr4.rows sd)).live c' (by omega)]; exact hno2 c' v (by omega)
    · rename_i hsig
      refine Safe.scan hrow hH hM n (c + 1) s2 (by omega) (hr.trans hr2) hok2 (fun c' v h => ?_)
      by_cases ec : c' = c
      · subst ec; intro hl; exact hsig ((hok2.ok sd).sig _ _ _ hok2.row hc hl)
      · exact hno2 c' v (by omega)

/-- The entries of the row with a signature, left of a column. -/
def hits (f : MFile) (r : Nat) (sig : BitVec 32) (c : Nat) : List KV :=
  ((List.range c).filter (fun i => (f.slot r i).sig == sig)).map (fun i => f.readKV (f.slot r i).desc)

theorem hits_succ (f : MFile) (r : Nat) (sig : BitVec 32) (c : Nat) :
    hits f r sig (c + 1) = hits f r sig c ++ if (f.slot r c).sig = sig then [f.readKV (f.slot r c).desc] else [] := by
  unfold hits
  rw [List.range_succ, List.filter_append, List.map_append]
  congr 1
  by_cases h : (f.slot r c).sig = sig <;> simp [h]

theorem RowSame.hits {r : Nat} {f g : MFile} (h : RowSame r f g) {sig : BitVec 32} (hs : sig ≠ INVALID_SIG) {c : Nat} (hc : c ≤ ROW_WIDTH) :
    Candy.hits g r sig c = Candy.hits f r sig c := by
  induction c with
  | zero => rfl
  | succ c ih =>
    rw [hits_succ, hits_succ, ih (by omega), h.slot c]
    congr 1
    split
    · rename_i e
      rw [readKV_congr' (h.data c (by omega) (by rw [e]; exact hs))]
    · rfl

theorem Safe.collect {sd : Side} {sig : BitVec 32} (hsig : sig ≠ INVALID_SIG) {k : List KV → MProg α} {s : Shard}
    (hk : ∀ s', Rely X pen s s' → OKs X pen s' → Safe X fin (k (hits (s'.file sd) X.row sig ROW_WIDTH)) cm pen s') :
    ∀ (n c : Nat) (acc : List KV) (s1 : Shard), c + n = ROW_WIDTH → Rely X pen s s1 → OKs X pen s1 → acc = hits (s1.file sd) X.row sig c →
      Safe X fin (MProg.collect sd X.row sig k n c acc) cm pen s1
  | 0, c, acc, s1, hn, hr, hok, ha => by
    have e : c = ROW_WIDTH := by omega
    rw [e] at ha
    rw [show MProg.collect sd X.row sig k 0 c acc = k acc from rfl, ha]
    exact hk s1 hr hok
  | n + 1, c, acc, s1, hn, hr, hok, ha => by
    have hc : c < ROW_WIDTH := by omega
    intro s2 hr2 hok2
    have ha2 : acc = hits (s2.file sd) X.row sig c := by rw [(hr2.rows sd).hits hsig (by omega)]; exact ha
    show Safe X fin (if ((s2.file sd).slot X.row c).sig = sig then _ else _) cm pen s2
    split
    · rename_i hx
      intro s3 hr3 hok3
      have hx3 : ((s3.file sd).slot X.row c).sig = sig := by rw [(hr3.rows sd).slot]; exact hx
      refine Safe.readKV hc hok3 (by rw [hx3]; exact hsig) rfl (fun s4 hr4 hok4 => ?_)
      refine Safe.collect hsig hk n (c + 1) _ s4 (by omega) (((hr.trans hr2).trans hr3).trans hr4) hok4 ?_
      rw [(hr4.rows sd).hits hsig (by omega), hits_succ, (hr3.rows sd).hits hsig (by omega), ← ha2, if_pos hx3]
    · rename_i hx
      refine Safe.collect hsig hk n (c + 1) _ s2 (by omega) (hr.trans hr2) hok2 ?_
      rw [hits_succ, if_neg hx, List.append_nil]; exact ha2

/-- Reading bytes of which nothing is known. -/
theorem Safe.readBytes_any {sd : Side} {k : Bytes → MProg α} {s : Shard}
    (hk : ∀ l s', Rely X pen s s' → OKs X pen s' → Safe X fin (k l) cm pen s') :
    ∀ (n off : Nat) (acc : Bytes) (s1 : Shard), Rely X pen s s1 → OKs X pen s1 → Safe X fin (MProg.readBytes sd k n off acc) cm pen s1
  | 0, _, acc, s1, hr, hok => hk acc s1 hr hok
  | n + 1, off, _, _, hr, _ => fun s' hr' hok' => Safe.readBytes_any hk n (off + 1) _ s' (hr.trans hr') hok'

/-- Looking for any signature: nothing is known of the list. -/
theorem Safe.collect_any {sd : Side} {sig : BitVec 32} {k : List KV → MProg α} {s : Shard}
    (hk : ∀ l s', Rely X pen s s' → OKs X pen s' → Safe X fin (k l) cm pen s') :
    ∀ (n c : Nat) (acc : List KV) (s1 : Shard), Rely X pen s s1 → OKs X pen s1 → Safe X fin (MProg.collect sd X.row sig k n c acc) cm pen s1
  | 0, _, acc, s1, hr, hok => hk acc s1 hr hok
  | n + 1, c, acc, s1, hr, hok => by
    intro s2 hr2 hok2
    show Safe X fin (if ((s2.file sd).slot X.row c).sig = sig then _ else _) cm pen s2
    split
    · intro s3 hr3 hok3
      unfold MProg.readKV
      refine Safe.readBytes_any (s := s3) (fun l s4 hr4 hok4 => ?_) _ _ _ s3 (.refl _ _ _) hok3
      exact Safe.collect_any hk n (c + 1) _ s4 (((hr.trans hr2).trans hr3).trans hr4) hok4
    · exact Safe.collect_any hk n (c + 1) _ s2 (hr.trans hr2) hok2

theorem Safe.findFree {sd : Side} {k : Option Nat → MProg α} {s : Shard}
    (hsome : ∀ s' c, Rely X pen s s' → OKs X pen s' → c < ROW_WIDTH → ((s'.file sd).slot X.row c).sig = INVALID_SIG → Safe X fin (k (some c)) cm pen s')
    (hnone : ∀ s', Rely X pen s s' → OKs X pen s' → Safe X fin (k none) cm pen s') :
    ∀ (n c : Nat) (s1 : Shard), c + n = ROW_WIDTH → Rely X pen s s1 → OKs X pen s1 → Safe X fin (MProg.findFree sd X.row k n c) cm pen s1
  | 0, c, s1, hn, hr, hok => hnone s1 hr hok
  | n + 1, c, s1, hn, hr, hok => by
    intro s2 hr2 hok2
    show Safe X fin (if ((s2.file sd).slot X.row c).sig = INVALID_SIG then _ else _) cm pen s2
    split
    · rename_i hx; exact hsome s2 c (hr.trans hr2) hok2 (by omega) hx
    · exact Safe.findFree hsome hnone n (c + 1) s2 (by omega) (hr.trans hr2) hok2

/-! ## Writing -/

theorem Safe.writeBytes (hw : X.wr = true) (hcm : 0 ≤ cm.led true) {R : Reg} {k : MProg α} {s0 : Shard} {total : Bytes} (hR : R.2 = total.length)
    (hk : ∀ s', Rely X none s0 s' → OKs X (some R) s' → readAt (s'.file X.sd).data R.1 R.2 = total → Safe X fin k cm (some R) s') :
    ∀ (bs acc : Bytes) (s : Shard), Rely X none s0 s → OKs X (some R) s → readAt (s.file X.sd).data R.1 acc.length = acc → total = acc ++ bs →
      Safe X fin (MProg.writeBytes X.sd k (R.1 + acc.length) bs) cm (some R) s
  | [], acc, s, hr, hok, hacc, ht => by
    rw [List.append_nil] at ht
    subst ht
    exact hk s hr hok (by rw [hR]; exact hacc)
  | b :: bs, acc, s, hr, hok, hacc, ht => by
    intro s' hr' hok'
    have hlen : total.length = acc.length + (bs.length + 1) := by rw [ht]; simp
    have hin : inReg (some R) (R.1 + acc.length) := ⟨R, rfl, by omega, by omega⟩
    obtain ⟨g, hv, hrl, hsu⟩ := store_byte hok' (R.1 + acc.length) b hin
    refine ⟨cm, some R, hw, g, ⟨.inl ⟨rfl, hv⟩, fun k => by rw [hsu], hcm⟩, ?_⟩
    have := Safe.writeBytes hw hcm hR hk bs (acc ++ [b]) (s'.upd X.sd (.pwrite (R.1 + acc.length) [b])) ((hr.trans hr'.none).trans hrl) (g.self hok') ?_ (by rw [ht]; simp)
    · rw [List.length_append, List.length_singleton, ← Nat.add_assoc] at this
      exact this
    · rw [Shard.upd_file _ hok'.has, List.length_append, List.length_singleton, readAt_snoc]
      have e1 : readAt (Prim.app (.pwrite (R.1 + acc.length) [b]) (s'.file X.sd)).data R.1 acc.length = acc := by
        refine Eq.trans ?_ hacc
        refine Eq.trans (readAt_congr' fun i h1 h2 => ?_) (readAt_congr' (d := (s'.file X.sd).data) fun i h1 h2 => ?_)
        · exact writeAt_below (by omega)
        · exact hr'.pen i ⟨R, rfl, h1, by omega⟩
      rw [e1]
      congr 1
      show [writeAt (s'.file X.sd).data (R.1 + acc.length) [b] (R.1 + acc.length)] = [b]
      simp [writeAt]

theorem fits_off {s : Shard} (hf : s.Fits) {sd : Side} (h : sd = .tgt → s.tgt.isSome = true) : (s.file sd).writeOff < 4294967296 := by
  cases sd with
  | src => exact hf.1
  | tgt =>
    have := h rfl
    unfold Shard.file
    cases ht : s.tgt with
    | none => rw [ht] at this; cases this
    | some t => exact hf.2 t ht

/-- So many more bytes; one more or less entry. -/
def Gh.bytes (g : Gh) (n : Int) : Gh := ⟨g.cm, fun k => match k with | true => g.led true + n | false => g.led false⟩
def Gh.count (g : Gh) (n : Int) : Gh := ⟨g.cm, fun k => match k with | true => g.led true | false => g.led false + n⟩
/-- It has taken effect. -/
def Gh.commit (g : Gh) (a : Ans) : Gh := ⟨some a, g.led⟩

theorem Safe.writeKV (hw : X.wr = true) (hcm : 0 ≤ cm.led true) {key val : Bytes} {k : BitVec 64 → MProg α} {s : Shard}
    (hk : ∀ s' off, Rely X none s s' → OKs X (some (off, key.length + val.length)) s' → off < 4294967296 →
      readAt (s'.file X.sd).data off (key.length + val.length) = key ++ val →
      Safe X fin (k (pack key.length val.length off)) (cm.bytes (key.length + val.length)) (some (off, key.length + val.length)) s') :
    Safe X fin (MProg.writeKV X.sd key val k) cm none s := by
  intro s' hr hok hf
  obtain ⟨g, hv, hrl, hs1, hs2⟩ := store_bump hok (key.length + val.length)
  have hcm' : 0 ≤ (cm.bytes (key.length + val.length)).led true := by show 0 ≤ cm.led true + _; omega
  refine ⟨cm.bytes (key.length + val.length), _, hw, g, ⟨.inl ⟨rfl, hv⟩, fun k => ?_, hcm'⟩, ?_⟩
  · cases k
    · rw [hs2]; rfl
    · rw [hs1]; show _ + _ - (_ + _) = _; omega
  have := Safe.writeBytes (cm := cm.bytes (key.length + val.length)) (fin := fin) hw hcm' (R := ((s'.file X.sd).writeOff, key.length + val.length))
    (k := k (pack key.length val.length (s'.file X.sd).writeOff)) (s0 := s) (total := key ++ val) (by simp)
    (fun s2 h1 h2 h3 => hk s2 _ h1 h2 (fits_off hf hok.has) h3) (key ++ val) [] _ (hr.trans hrl) (g.self hok) rfl rfl
  exact this

end
end Candy
