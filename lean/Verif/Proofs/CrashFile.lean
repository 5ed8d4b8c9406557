import Verif.Proofs.Reorg
/-!
# A process dying inside a list of stores to one file
-/
namespace Candy

/-- The file left behind by a process that dies while performing the stores `ps` (see `Dir.Crash`). -/
inductive MFile.Crash : MFile → List Prim → MFile → Prop
  | stop (f : MFile) (ps : List Prim) : MFile.Crash f ps f
  | torn (f : MFile) (off : Nat) (bs : Bytes) (data : Nat → UInt8) (ps : List Prim)
      (hd : ∀ i, ¬ (off ≤ i ∧ i < off + bs.length) → data i = f.data i) : MFile.Crash f (.pwrite off bs :: ps) { f with data := data }
  | step {f g : MFile} {p : Prim} {ps : List Prim} (h : MFile.Crash (p.app f) ps g) : MFile.Crash f (p :: ps) g

theorem MFile.Crash.append {f g : MFile} {ps qs : List Prim} (h : f.Crash (ps ++ qs) g) : f.Crash ps g ∨ (f.run ps).Crash qs g := by
  induction ps generalizing f with
  | nil => exact Or.inr h
  | cons p ps ih =>
    cases h with
    | stop => exact Or.inl (.stop _ _)
    | torn _ _ _ _ _ hd => exact Or.inl (.torn _ _ _ _ _ hd)
    | step h =>
      rcases ih h with h | h
      · exact Or.inl (.step h)
      · exact Or.inr h

theorem MFile.Crash.nil {f g : MFile} (h : f.Crash [] g) : g = f := by cases h; rfl

/-- `g` is `f` with possibly more written in the data area. -/
structure Grown (f g : MFile) : Prop where
  slot : g.slot = f.slot
  data : ∀ i, i < f.writeOff → g.data i = f.data i
  off : f.writeOff ≤ g.writeOff
  cu : g.compactedUpTo = f.compactedUpTo
  wasted : g.wasted = f.wasted

theorem Grown.refl (f : MFile) : Grown f f := ⟨rfl, fun _ _ => rfl, Nat.le_refl _, rfl, rfl⟩

theorem Grown.readKV {f g : MFile} (h : Grown f g) (hext : ExtOK f) {r c : Nat} (hr : r < NUM_ROWS) (hc : c < ROW_WIDTH)
    (hs : (f.slot r c).sig ≠ INVALID_SIG) : g.readKV (f.slot r c).desc = f.readKV (f.slot r c).desc :=
  readKV_congr (fun i hi => h.data i (Nat.lt_of_lt_of_le hi (hext r c hr hc hs)))

theorem Grown.live {f g : MFile} (h : Grown f g) (hext : ExtOK f) {r c : Nat} (hr : r < NUM_ROWS) (hc : c < ROW_WIDTH) :
    g.live r c = f.live r c := by
  unfold MFile.live
  rw [h.slot]
  split
  · rename_i hs; rw [h.readKV hext hr hc hs]
  · rfl

/-- Two files show the same pairs in the same places, and `FileOK` carries over. -/
theorem FileOK.of_live {cfg lo hi} {f g : MFile} (h : FileOK cfg lo hi f)
    (hlive : ∀ r c, r < NUM_ROWS → c < ROW_WIDTH → g.live r c = f.live r c)
    (hsig : ∀ r c, r < NUM_ROWS → c < ROW_WIDTH → (f.slot r c).sig ≠ INVALID_SIG → (g.slot r c).sig = (f.slot r c).sig)
    (hext : ExtOK g) : FileOK cfg lo hi g where
  ext := hext
  sig := by
    intro r c kv hr hc hl
    rw [hlive r c hr hc] at hl
    rw [hsig r c hr hc (live_eq_some.1 hl).1]
    exact h.sig r c kv hr hc hl
  row := by
    intro r c kv hr hc hl
    rw [hlive r c hr hc] at hl; exact h.row r c kv hr hc hl
  span := by
    intro r c kv hr hc hl
    rw [hlive r c hr hc] at hl; exact h.span r c kv hr hc hl
  inj := by
    intro r c c' kv kv' hr hc hc' hl hl'
    rw [hlive r c hr hc] at hl; rw [hlive r c' hr hc'] at hl'
    exact h.inj r c c' kv kv' hr hc hc' hl hl'

theorem Grown.extOK {f g : MFile} (h : Grown f g) (hext : ExtOK f) : ExtOK g := by
  intro r c hr hc hs
  rw [h.slot] at hs ⊢
  exact Nat.le_trans (hext r c hr hc hs) h.off

theorem Grown.ok {cfg lo hi} {f g : MFile} (h : Grown f g) (hok : FileOK cfg lo hi f) : FileOK cfg lo hi g :=
  hok.of_live (fun _ _ hr hc => h.live hok.extOK hr hc) (fun r c _ _ _ => by rw [h.slot]) (h.extOK hok.extOK)

theorem fileW_congr {w : KV → Nat} {f g : MFile} (h : ∀ r c, r < NUM_ROWS → c < ROW_WIDTH → g.live r c = f.live r c) :
    fileW w g = fileW w f :=
  sumTo_congr (fun r hr => rowW_congr (fun c hc => h r c hr hc))

theorem FileAcct.iff_le {f : MFile} : FileAcct false f ↔ liveBytes f + f.wasted ≤ f.writeOff := by
  constructor
  · rintro ⟨d, e, ⟨h, _⟩, _⟩; omega
  · intro h
    exact ⟨f.writeOff - (liveBytes f + f.wasted), f.numInserts - ((liveCount f : Int) + f.numRemovals), ⟨by omega, by omega⟩, by simp⟩

/-- The stores of `write_kv`, complete or not. -/
theorem write_crash {f g : MFile} {k v : Bytes} (h : f.Crash (f.writePrims k v) g) :
    Grown f g ∧ g.writeOff ≤ f.writeOff + (k.length + v.length) := by
  unfold MFile.writePrims at h
  cases h with
  | stop => exact ⟨Grown.refl f, by omega⟩
  | step h =>
    have base : Grown f ((Prim.bump (k.length + v.length)).app f) := ⟨rfl, fun _ _ => rfl, Nat.le_add_right _ _, rfl, rfl⟩
    cases h with
    | stop => exact ⟨base, Nat.le_refl _⟩
    | torn _ _ _ data _ hd =>
      exact ⟨⟨rfl, fun i hi => hd i (by omega), Nat.le_add_right _ _, rfl, rfl⟩, Nat.le_refl _⟩
    | step h =>
      have e := h.nil
      subst e
      exact ⟨⟨rfl, fun i hi => writeAt_below hi, Nat.le_add_right _ _, rfl, rfl⟩, Nat.le_refl _⟩

theorem write_run (f : MFile) (k v : Bytes) : f.run (f.writePrims k v) =
    { f with writeOff := f.writeOff + (k.length + v.length), data := writeAt f.data f.writeOff (k ++ v) } := rfl

theorem write_grown (f : MFile) (k v : Bytes) : Grown f (f.run (f.writePrims k v)) := by
  rw [write_run]
  exact ⟨rfl, fun i hi => writeAt_below hi, Nat.le_add_right _ _, rfl, rfl⟩

/-- What a crash may leave of a modification that was to turn `f` into `f'`: the pairs of one or of the other. -/
structure OneOf (cfg : Cfg) (lo hi : Nat) (f f' g : MFile) : Prop where
  ok : FileOK cfg lo hi g
  live : (∀ r c, r < NUM_ROWS → c < ROW_WIDTH → g.live r c = f.live r c) ∨ (∀ r c, r < NUM_ROWS → c < ROW_WIDTH → g.live r c = f'.live r c)
  cu : g.compactedUpTo = f.compactedUpTo
  acct : FileAcct false f → FileAcct false g
  lo : f.writeOff ≤ g.writeOff
  hi : g.writeOff ≤ f'.writeOff

theorem OneOf.of_grown {cfg lo hi} {f f' g : MFile} (hok : FileOK cfg lo hi f) (h : Grown f g) (ho : g.writeOff ≤ f'.writeOff) : OneOf cfg lo hi f f' g where
  ok := h.ok hok
  live := Or.inl (fun _ _ hr hc => h.live hok.extOK hr hc)
  cu := h.cu
  acct := fun ha => by
    rw [FileAcct.iff_le] at ha ⊢
    unfold liveBytes at *
    rw [fileW_congr (fun r c hr hc => h.live hok.extOK hr hc), h.wasted]
    exact Nat.le_trans ha h.off
  lo := h.off
  hi := ho

/-- A file whose table and data are those of the final state. -/
theorem OneOf.of_final {cfg lo hi} {f f' g : MFile} (hok' : FileOK cfg lo hi f') (hs : g.slot = f'.slot) (hd : g.data = f'.data)
    (ho : g.writeOff = f'.writeOff) (hcu : g.compactedUpTo = f.compactedUpTo) (hle : f.writeOff ≤ f'.writeOff)
    (hacct : FileAcct false f → liveBytes f' + g.wasted ≤ f'.writeOff) : OneOf cfg lo hi f f' g := by
  have hl : ∀ r c, g.live r c = f'.live r c := by
    intro r c; unfold MFile.live MFile.readKV; rw [hs, hd]
  refine ⟨hok'.congr hs hd (Nat.le_of_eq ho.symm), Or.inr (fun r c _ _ => hl r c), hcu, fun ha => ?_, ho ▸ hle, Nat.le_of_eq ho⟩
  rw [FileAcct.iff_le]
  have := hacct ha
  unfold liveBytes at *
  rw [fileW_congr (f := f') (fun r c _ _ => hl r c), ho]; exact this

/-- Filling a slot that is empty or already holds the same pair. -/
theorem put_crash {cfg lo hi} {f g : MFile} {r c : Nat} {k v : Bytes} (hok : FileOK cfg lo hi f) (hr : r < NUM_ROWS) (hc : c < ROW_WIDTH)
    (hk : k.length < 65536) (hv : v.length < 65536) (ho : f.writeOff < 4294967296)
    (hcell : f.live r c = none ∨ f.live r c = some (k, v))
    (hok' : FileOK cfg lo hi (f.run (f.putPrims r c k v (cfg.ph k).sig)))
    (h : f.Crash (f.putPrims r c k v (cfg.ph k).sig) g) : OneOf cfg lo hi f (f.run (f.putPrims r c k v (cfg.ph k).sig)) g := by
  have hlive := fun {r' c'} => live_put (r := r) (c := c) (r' := r') (c' := c') hok.extOK hk hv ho (cfg.ph_sig_ne k)
  have hoff := put_writeOff f r c k v (cfg.ph k).sig
  have hfin : FileAcct false f → liveBytes (f.run (f.putPrims r c k v (cfg.ph k).sig)) + f.wasted ≤
      (f.run (f.putPrims r c k v (cfg.ph k).sig)).writeOff := by
    intro ha
    rw [FileAcct.iff_le] at ha
    have := fileW_update kvSize (f := f) (g := f.run (f.putPrims r c k v (cfg.ph k).sig)) hr hc
      (fun r' c' hr' hc' hne => by rw [hlive hr' hc', if_neg hne])
    rw [cellW_some (kv := (k, v)) (f := f.run _) (by rw [hlive hr hc]; simp)] at this
    unfold liveBytes at *
    rw [hoff]
    simp only [kvSize] at this ha ⊢
    omega
  unfold MFile.putPrims at h
  rcases h.append with h | h
  · obtain ⟨h1, h2⟩ := write_crash h
    exact .of_grown hok h1 (by rw [hoff]; exact h2)
  · have hg := write_grown f k v
    have hw := write_run f k v
    have hslot0 := put_slot f r c k v (cfg.ph k).sig
    have hdata0 := put_data f r c k v (cfg.ph k).sig
    have hcu0 := put_cu f r c k v (cfg.ph k).sig
    have hwas := put_wasted f r c k v (cfg.ph k).sig
    cases h with
    | stop => exact .of_grown hok hg (by rw [hoff, hw]; exact Nat.le_refl _)
    | step h =>
      -- the descriptor is written
      have h1slot : ∀ r' c', (Prim.app (.setDesc r c (f.newDesc k v)) (f.run (f.writePrims k v))).slot r' c' =
          if r' = r ∧ c' = c then ⟨(f.slot r c).sig, f.newDesc k v⟩ else f.slot r' c' := by
        intro r' c'; rw [hw]; rfl
      cases h with
      | stop =>
        rcases hcell with hn | hs
        · have hsig := live_eq_none.1 hn
          have hl : ∀ r' c', r' < NUM_ROWS → c' < ROW_WIDTH →
              (Prim.app (.setDesc r c (f.newDesc k v)) (f.run (f.writePrims k v))).live r' c' = f.live r' c' := by
            intro r' c' hr' hc'
            by_cases e : r' = r ∧ c' = c
            · obtain ⟨rfl, rfl⟩ := e
              rw [hn, live_eq_none, h1slot, if_pos ⟨rfl, rfl⟩]; exact hsig
            · rw [← hg.live hok.extOK hr' hc']
              unfold MFile.live
              rw [h1slot, if_neg e, hg.slot]; rfl
          refine ⟨hok.of_live hl ?_ ?_, Or.inl hl, hg.cu, ?_, hg.off, ?_⟩
          · intro r' c' _ _ hs'
            rw [h1slot]; split
            · rename_i e; rw [e.1, e.2]
            · rfl
          · intro r' c' hr' hc' hs'
            rw [h1slot] at hs' ⊢
            split at hs'
            · exact absurd hsig hs'
            · rename_i e; rw [if_neg e]; exact Nat.le_trans (hok.ext r' c' hr' hc' hs') hg.off
          · intro ha
            rw [FileAcct.iff_le] at ha ⊢
            unfold liveBytes at *
            rw [fileW_congr hl]
            have e1 : (Prim.app (.setDesc r c (f.newDesc k v)) (f.run (f.writePrims k v))).wasted = f.wasted := hg.wasted
            rw [e1]
            exact Nat.le_trans ha hg.off
          · rw [hoff, hw]; exact Nat.le_refl _
        · refine .of_final hok' ?_ ?_ ?_ hg.cu (by rw [hoff]; omega) (fun ha => ?_)
          · funext r' c'
            rw [h1slot, hslot0]
            split
            · rw [hok.sig r c _ hr hc hs]
            · rfl
          · rw [hdata0, hw]; rfl
          · rw [hoff, hw]; rfl
          · have := hfin ha
            rw [hw]; exact this
      | step h =>
        cases h with
        | stop =>
          refine .of_final hok' ?_ ?_ ?_ hg.cu (by rw [hoff]; omega) (fun ha => ?_)
          · rw [hw]; rfl
          · rw [hdata0, hw]; rfl
          · rw [hoff, hw]; rfl
          · have := hfin ha
            rw [hw]; exact this
        | step h =>
          have e := h.nil
          subst e
          refine .of_final hok' ?_ ?_ ?_ hg.cu (by rw [hoff]; omega) (fun ha => ?_)
          · rw [hw]; rfl
          · rw [hdata0, hw]; rfl
          · rw [hoff, hw]; rfl
          · have := hfin ha
            rw [hw]; exact this

/-- Replacing a value. -/
theorem replace_crash {cfg lo hi} {f g : MFile} {r c : Nat} {k v old : Bytes} (hok : FileOK cfg lo hi f) (hr : r < NUM_ROWS) (hc : c < ROW_WIDTH)
    (hk : k.length < 65536) (hv : v.length < 65536) (ho : f.writeOff < 4294967296) (hcell : f.live r c = some (k, old))
    (h : f.Crash (f.replacePrims r c k v old) g) : OneOf cfg lo hi f (f.run (f.replacePrims r c k v old)) g := by
  have hok' := hok.replace hk hv ho hr hc hcell
  have hlive := fun {r' c'} => live_replace (r := r) (c := c) (r' := r') (c' := c') (old := old) hok.extOK hk hv ho (live_eq_some.1 hcell).1
  have hoff := replace_writeOff f r c k v old
  have hfin : FileAcct false f → liveBytes (f.run (f.replacePrims r c k v old)) + (f.wasted + (k.length + old.length)) ≤
      (f.run (f.replacePrims r c k v old)).writeOff := by
    intro ha
    rw [FileAcct.iff_le] at ha
    have := fileW_update kvSize (f := f) (g := f.run (f.replacePrims r c k v old)) hr hc
      (fun r' c' hr' hc' hne => by rw [hlive hr' hc', if_neg hne])
    rw [cellW_some (kv := (k, v)) (f := f.run _) (by rw [hlive hr hc]; simp), cellW_some hcell] at this
    unfold liveBytes at *
    rw [hoff]
    simp only [kvSize] at this ha ⊢
    omega
  unfold MFile.replacePrims at h
  rcases h.append with h | h
  · obtain ⟨h1, h2⟩ := write_crash h
    exact .of_grown hok h1 (by rw [hoff]; exact h2)
  · have hg := write_grown f k v
    have hw := write_run f k v
    have hdata0 := replace_data f r c k v old
    cases h with
    | stop => exact .of_grown hok hg (by rw [hoff, hw]; exact Nat.le_refl _)
    | step h =>
      cases h with
      | stop =>
        refine .of_final hok' ?_ ?_ ?_ hg.cu (by rw [hoff]; omega) (fun ha => ?_)
        · rw [hw]; rfl
        · rw [hdata0, hw]; rfl
        · rw [hoff, hw]; rfl
        · have := hfin ha
          rw [hw]
          show _ + f.wasted ≤ _
          omega
      | step h =>
        have e := h.nil
        subst e
        refine .of_final hok' ?_ ?_ ?_ hg.cu (by rw [hoff]; omega) (fun ha => ?_)
        · rw [hw]; rfl
        · rw [hdata0, hw]; rfl
        · rw [hoff, hw]; rfl
        · have := hfin ha
          rw [hw]; exact this

/-- Removing a pair. -/
theorem remove_crash {cfg lo hi} {f g : MFile} {r c : Nat} {k old : Bytes} (hok : FileOK cfg lo hi f) (hr : r < NUM_ROWS) (hc : c < ROW_WIDTH)
    (hcell : f.live r c = some (k, old)) (h : f.Crash (removePrims r c k old) g) : OneOf cfg lo hi f (f.run (removePrims r c k old)) g := by
  have hok' := hok.remove r c k old
  obtain ⟨f1, f2, f3, f4, _, _⟩ := remove_fields f r c k old
  have hfin : FileAcct false f → liveBytes (f.run (removePrims r c k old)) + (f.wasted + (k.length + old.length)) ≤ f.writeOff := by
    intro ha
    rw [FileAcct.iff_le] at ha
    have := fileW_update kvSize (f := f) (g := f.run (removePrims r c k old)) hr hc
      (fun r' c' hr' hc' hne => by rw [live_remove, if_neg hne])
    rw [cellW_none (f := f.run _) (by rw [live_remove]; simp), cellW_some hcell] at this
    unfold liveBytes at *
    simp only [kvSize] at this ha ⊢
    omega
  unfold removePrims at h
  cases h with
  | stop => exact .of_grown hok (Grown.refl f) (Nat.le_of_eq f2.symm)
  | step h =>
    cases h with
    | stop =>
      refine .of_final hok' rfl rfl rfl rfl (Nat.le_refl _) (fun ha => ?_)
      have := hfin ha
      show _ + f.wasted ≤ f.writeOff
      omega
    | step h =>
      cases h with
      | stop =>
        refine .of_final hok' rfl rfl rfl rfl (Nat.le_refl _) (fun ha => ?_)
        have := hfin ha
        show _ + f.wasted ≤ f.writeOff
        omega
      | step h =>
        have e := h.nil
        subst e
        exact .of_final hok' rfl rfl rfl rfl (Nat.le_refl _) (fun ha => hfin ha)

/-- A crash inside a client call leaves the pairs from before or from after it. -/
theorem Effect.crash {cfg lo hi} {f g : MFile} {k : Bytes} {cur ps new} (hok : FileOK cfg lo hi f)
    (h : Effect cfg f (cfg.ph k).rowSel k cur ps new) (hcur : RowVal f (cfg.ph k).rowSel k cur)
    (hlo : lo ≤ (cfg.ph k).shardSel) (hhi : (cfg.ph k).shardSel < hi) (hc : f.Crash ps g) : OneOf cfg lo hi f (f.run ps) g := by
  have hr := PH.rowSel_lt (cfg.ph k)
  have hok' := (h.ok hok hcur hlo hhi).1
  cases h with
  | noop => rw [hc.nil]; exact .of_grown hok (Grown.refl f) (Nat.le_refl _)
  | put c v hcw he hcur hk hv ho => exact put_crash hok hr hcw hk hv ho (Or.inl he) hok' hc
  | replace c old v hcw he hcur hk hv ho => exact replace_crash hok hr hcw hk hv ho he hc
  | remove c old hcw he hcur => exact remove_crash hok hr hcw he hc

end Candy
