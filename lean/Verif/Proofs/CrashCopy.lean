import Verif.Proofs.CrashFile
import Verif.Model.Dir
/-!
# A process dying while copying pairs into a compaction target
-/
namespace Candy

theorem MFile.Crash.done (f : MFile) (ps : List Prim) : f.Crash ps (f.run ps) := by
  induction ps generalizing f with
  | nil => exact .stop _ _
  | cons p ps ih => exact .step (ih _)

/-- What an interrupted copy of `kvs` into row `r` of `f` leaves. -/
structure PartCopied (cfg : Cfg) (lo hi : Nat) (f g : MFile) (r col : Nat) (kvs : List KV) : Prop where
  ok : FileOK cfg lo hi g
  part : Partial g r col kvs
  before : ∀ c, c < col → c < ROW_WIDTH → g.live r c = f.live r c
  other : ∀ r' c, r' < NUM_ROWS → c < ROW_WIDTH → r' ≠ r → g.live r' c = f.live r' c
  cu : g.compactedUpTo = f.compactedUpTo
  acct : FileAcct false f → FileAcct false g
  lo : f.writeOff ≤ g.writeOff
  hi : g.writeOff ≤ f.writeOff + bytesOf kvs

theorem copyPrims_crash {cfg : Cfg} {lo hi r : Nat} {first : Bool} (hr : r < NUM_ROWS) :
    ∀ (kvs : List KV) (f : MFile) (col : Nat) (ps : List Prim) (g : MFile), FileOK cfg lo hi f → CopyOK cfg lo hi r kvs → Partial f r col kvs →
      col + kvs.length ≤ ROW_WIDTH → f.writeOff + bytesOf kvs < 4294967296 → copyPrims cfg first r f col kvs = some ps → f.Crash ps g →
      PartCopied cfg lo hi f g r col kvs
  | [], f, col, ps, g, hok, _, hpar, _, _, hps, hcr => by
    simp only [copyPrims, Option.some.injEq] at hps
    subst hps
    rw [hcr.nil]
    exact ⟨hok, hpar, fun _ _ _ => rfl, fun _ _ _ _ _ => rfl, rfl, id, Nat.le_refl _, by simp [bytesOf]⟩
  | kv :: kvs, f, col, ps, g, hok, hcp, hpar, hlen, hoff, hps, hcr => by
    simp only [List.length_cons] at hlen
    have hsz := hcp.size kv (List.mem_cons_self)
    have hrow := hcp.row kv (List.mem_cons_self)
    have hspan := hcp.span kv (List.mem_cons_self)
    have hdist := List.pairwise_cons.1 hcp.distinct
    rw [bytesOf_cons] at hoff
    have ho : f.writeOff < 4294967296 := by omega
    have hcol : col < ROW_WIDTH := by omega
    have hlive := fun {r' c'} => live_put (r := r) (c := col) (r' := r') (c' := c') hok.extOK hsz.1 hsz.2 ho
      (cfg.ph_sig_ne kv.1)
    have hok' : FileOK cfg lo hi (f.run (f.putPrims r col kv.1 kv.2 (cfg.ph kv.1).sig)) := by
      apply hok.put hsz.1 hsz.2 ho hrow hspan.1 hspan.2
      intro c' hc' hne v' hl
      by_cases hlt : c' < col
      · exact hpar.left c' hlt hc' _ hl kv (List.mem_cons_self) rfl
      · have := hpar.right c' (by omega) hc' _ hl
        have e : c' - col = (c' - (col + 1)) + 1 := by omega
        rw [e, List.getElem?_cons_succ] at this
        have hm := List.mem_of_getElem? this
        exact hdist.1 _ hm rfl
    have hcell : f.live r col = none ∨ f.live r col = some (kv.1, kv.2) := by
      cases hl : f.live r col with
      | none => exact Or.inl rfl
      | some x =>
        have := hpar.right col (Nat.le_refl _) hcol x hl
        simp only [Nat.sub_self, List.getElem?_cons_zero, Option.some.injEq] at this
        rw [← this]; exact Or.inr rfl
    have hput : ∀ {g}, f.Crash (f.putPrims r col kv.1 kv.2 (cfg.ph kv.1).sig) g → _ := fun {g} h =>
      put_crash hok hr hcol hsz.1 hsz.2 ho hcell hok' h
    generalize hg : f.run (f.putPrims r col kv.1 kv.2 (cfg.ph kv.1).sig) = f1 at hok' hlive hput
    have hgoff : f1.writeOff = f.writeOff + (kv.1.length + kv.2.length) := by rw [← hg]; exact put_writeOff ..
    have hpar' : Partial f1 r (col + 1) kvs := by
      constructor
      · intro c h1 h2 x hx
        rw [hlive hr h2, if_neg (by omega)] at hx
        have := hpar.right c (by omega) h2 x hx
        have e : c - col = (c - (col + 1)) + 1 := by omega
        rwa [e, List.getElem?_cons_succ] at this
      · intro c h1 h2 x hx y hy
        rw [hlive hr h2] at hx
        by_cases e : c = col
        · subst e
          simp only [and_self, if_true, Option.some.injEq] at hx
          rw [← hx]
          exact hdist.1 y hy
        · rw [if_neg (by omega)] at hx
          exact hpar.left c (by omega) h2 x hx y (List.mem_cons_of_mem _ hy)
    have hparf1 : Partial f1 r col (kv :: kvs) := by
      constructor
      · intro c h1 h2 x hx
        rw [hlive hr h2] at hx
        by_cases e : c = col
        · subst e
          simp only [and_self, if_true, Option.some.injEq] at hx
          rw [Nat.sub_self, ← hx]; rfl
        · rw [if_neg (by omega)] at hx
          exact hpar.right c h1 h2 x hx
      · intro c h1 h2 x hx
        rw [hlive hr h2, if_neg (by omega)] at hx
        exact hpar.left c h1 h2 x hx
    simp only [copyPrims] at hps
    rw [if_neg (by omega)] at hps
    split at hps
    · simp at hps
    · split at hps
      · simp at hps
      · rw [hg] at hps
        cases hq : copyPrims cfg first r f1 (col + 1) kvs with
        | none => rw [hq] at hps; simp at hps
        | some qs =>
          rw [hq] at hps
          simp only [Option.some.injEq] at hps
          subst hps
          rcases hcr.append with hcr | hcr
          · have h1 := hput hcr
            have hpg : Partial g r col (kv :: kvs) ∧ (∀ c, c < col → c < ROW_WIDTH → g.live r c = f.live r c) ∧ ∀ r' c, r' < NUM_ROWS → c < ROW_WIDTH → r' ≠ r → g.live r' c = f.live r' c := by
              rcases h1.live with hl | hl
              · refine ⟨⟨fun c a b x hx => ?_, fun c a b x hx => ?_⟩, fun c a b => hl r c hr b, fun r' c a b _ => hl r' c a b⟩
                · rw [hl r c hr b] at hx; exact hpar.right c a b x hx
                · rw [hl r c hr b] at hx; exact hpar.left c a b x hx
              · refine ⟨⟨fun c a b x hx => ?_, fun c a b x hx => ?_⟩, fun c a b => ?_, fun r' c a b e => ?_⟩
                · rw [hl r c hr b] at hx; exact hparf1.right c a b x hx
                · rw [hl r c hr b] at hx; exact hparf1.left c a b x hx
                · rw [hl r c hr b, hlive hr b, if_neg (by omega)]
                · rw [hl r' c a b, hlive a b, if_neg (by omega)]
            exact ⟨h1.ok, hpg.1, hpg.2.1, hpg.2.2, h1.cu, h1.acct, h1.lo, by have := h1.hi; rw [bytesOf_cons]; omega⟩
          · rw [hg] at hcr
            have ih := copyPrims_crash hr kvs f1 (col + 1) qs g hok' hcp.tail hpar' (by omega) (by omega) hq hcr
            have hf1 := hput (g := f1) (by rw [← hg]; exact MFile.Crash.done f _)
            refine ⟨ih.ok, ?_, ?_, ?_, ?_, fun ha => ih.acct (hf1.acct ha), by have := ih.lo; omega, by have := ih.hi; rw [bytesOf_cons]; omega⟩
            · constructor
              · intro c h1 h2 x hx
                by_cases e : c = col
                · subst e
                  rw [ih.before c (by omega) h2, hlive hr h2, if_pos ⟨rfl, rfl⟩] at hx
                  simp only [Option.some.injEq] at hx
                  rw [Nat.sub_self, ← hx]; rfl
                · have := ih.part.right c (by omega) h2 x hx
                  have e : c - col = (c - (col + 1)) + 1 := by omega
                  rw [e, List.getElem?_cons_succ]; exact this
              · intro c h1 h2 x hx
                rw [ih.before c (by omega) h2, hlive hr h2, if_neg (by omega)] at hx
                exact hpar.left c h1 h2 x hx
            · intro c h1 h2
              rw [ih.before c (by omega) h2, hlive hr h2, if_neg (by omega)]
            · intro r' c a b e
              rw [ih.other r' c a b e, hlive a b, if_neg (by omega)]
            · rw [ih.cu, ← hg]; exact put_cu ..


/-- A copy that passes the emptiness assertions writes to empty slots only. -/
theorem copyPrims_empty {cfg : Cfg} {r : Nat} : ∀ (kvs : List KV) (f : MFile) (col : Nat) (ps : List Prim),
    copyPrims cfg false r f col kvs = some ps → ∀ c, col ≤ c → c < col + kvs.length → (f.slot r c).sig = INVALID_SIG
  | [], _, _, _, _, c, h1, h2 => by simp at h2; omega
  | kv :: kvs, f, col, ps, h, c, h1, h2 => by
    simp only [List.length_cons] at h2
    simp only [copyPrims] at h
    split at h
    · simp at h
    · split at h
      · simp at h
      · rename_i hs
        split at h
        · simp at h
        · cases hq : copyPrims cfg false r (f.run (f.putPrims r col kv.1 kv.2 (cfg.ph kv.1).sig)) (col + 1) kvs with
          | none => rw [hq] at h; simp at h
          | some qs =>
            by_cases e : c = col
            · subst e
              by_cases hi : (f.slot r c).sig = INVALID_SIG
              · exact hi
              · exact absurd ⟨trivial, hi⟩ hs
            · have := copyPrims_empty kvs _ (col + 1) qs hq c (by omega) (by omega)
              rw [put_slot, if_neg (by omega)] at this
              exact this

/-- `g` shows the same pairs as `f` in the rows that count. -/
def SameDone (src f g : MFile) : Prop :=
  f.compactedUpTo ≤ g.compactedUpTo ∧
  (∀ r, r < NUM_ROWS → r < f.compactedUpTo → g.liveRow r = f.liveRow r) ∧
  (∀ r, r < NUM_ROWS → f.compactedUpTo ≤ r → r < g.compactedUpTo → g.liveRow r = src.liveRow r)

theorem SameDone.refl (src f : MFile) : SameDone src f f := ⟨Nat.le_refl _, fun _ _ _ => rfl, fun _ _ h1 h2 => by omega⟩

theorem SameDone.trans {src f g h : MFile} (h1 : SameDone src f g) (h2 : SameDone src g h) : SameDone src f h := by
  refine ⟨Nat.le_trans h1.1 h2.1, fun r hr hlt => ?_, fun r hr hge hlt => ?_⟩
  · rw [h2.2.1 r hr (Nat.lt_of_lt_of_le hlt h1.1), h1.2.1 r hr hlt]
  · by_cases e : r < g.compactedUpTo
    · rw [h2.2.1 r hr e, h1.2.2 r hr hge e]
    · exact h2.2.2 r hr (by omega) hlt

theorem compactRow_crash {cfg : Cfg} {lo hi : Nat} {src t g : MFile} {first : Bool} {ps : List Prim} (hs : FileOK cfg lo hi src)
    (ht : TgtOK cfg lo hi src t) (hlt : t.compactedUpTo < NUM_ROWS)
    (hsmall : t.writeOff + rowW kvSize src t.compactedUpTo < 4294967296)
    (hps : compactRowPrims cfg first src t = some ps) (hcr : t.Crash ps g) :
    (TgtOK cfg lo hi src g ∧ SameDone src t g ∧ (FileAcct false t → FileAcct false g) ∧ t.writeOff ≤ g.writeOff ∧
      g.writeOff ≤ t.writeOff + rowW kvSize src t.compactedUpTo ∧ g.compactedUpTo ≤ t.compactedUpTo + 1) := by
  have hlen := liveRow_length src t.compactedUpTo
  unfold compactRowPrims at hps
  cases hq : copyPrims cfg first t.compactedUpTo t 0 (src.liveRow t.compactedUpTo) with
  | none => rw [hq] at hps; simp at hps
  | some qs =>
    rw [hq] at hps
    simp only [Option.some.injEq] at hps
    subst hps
    have hcopy := fun {g} (h : t.Crash qs g) => copyPrims_crash hlt _ t 0 qs g ht.ok (hs.copyOK hlt) (ht.part hlt) (by omega)
      (by rw [bytesOf_liveRow]; exact hsmall) hq h
    have main : ∀ {g}, t.Crash qs g → _ := fun {g} (hcr : t.Crash qs g) =>
      show TgtOK cfg lo hi src g ∧ SameDone src t g ∧ (FileAcct false t → FileAcct false g) ∧ t.writeOff ≤ g.writeOff ∧
        g.writeOff ≤ t.writeOff + rowW kvSize src t.compactedUpTo ∧ g.compactedUpTo = t.compactedUpTo from by
      have h := hcopy hcr
      refine ⟨⟨h.ok, by rw [h.cu]; exact ht.cu, fun _ => by rw [h.cu]; exact h.part, ?_⟩, ?_, h.acct, h.lo, ?_, h.cu⟩
      · intro r c h1 h2 h3
        rw [h.cu] at h1
        rw [h.other r c h2 h3 (by omega)]
        exact ht.fresh r c h1 h2 h3
      · refine ⟨Nat.le_of_eq h.cu.symm, fun r hr hlt' => liveRow_congr (fun c hc => h.other r c hr hc (by omega)), fun r hr h1 h2 => ?_⟩
        rw [h.cu] at h2; omega
      · rw [← bytesOf_liveRow]; exact h.hi
    rcases hcr.append with hcr | hcr
    · obtain ⟨a, b, c, d, e, f⟩ := main hcr
      exact ⟨a, b, c, d, e, by omega⟩
    · cases hcr with
      | stop =>
        obtain ⟨a, b, c, d, e, f⟩ := main (MFile.Crash.done t qs)
        exact ⟨a, b, c, d, e, by omega⟩
      | step hcr =>
        have e := hcr.nil
        subst e
        have hf : first = true ∨ ∀ c, c < ROW_WIDTH → t.live t.compactedUpTo c = none := by
          cases first with
          | true => exact Or.inl rfl
          | false =>
            refine Or.inr (fun c hc => ?_)
            cases hl : t.live t.compactedUpTo c with
            | none => rfl
            | some kv =>
              have h1 := (ht.part hlt).right c (Nat.zero_le _) hc kv hl
              obtain ⟨h2, _⟩ := List.getElem?_eq_some_iff.1 h1
              exact absurd (copyPrims_empty _ _ _ _ hq c (Nat.zero_le _) (by omega)) (live_eq_some.1 hl).1
        obtain ⟨t', h1, h2, h3, _⟩ := compactRow_spec hs ht hlt hf hsmall
        unfold compactRow compactRowPrims at h1
        rw [hq] at h1
        simp only [Option.map_some, Option.some.injEq, run_append] at h1
        have he : Prim.app .addCompacted (t.run qs) = t' := h1
        rw [he]
        refine ⟨h2, ⟨by rw [h3.cu]; omega, fun r hr hlt' => liveRow_congr (fun c hc => h3.other r c hr hc (by omega)), fun r hr h4 h5 => ?_⟩,
          fun ha => ?_, by rw [h3.off]; omega, by rw [h3.off]; omega, by rw [h3.cu]; omega⟩
        · rw [h3.cu] at h5
          have : r = t.compactedUpTo := by omega
          rw [this]; exact h3.row
        · have hc := (hcopy (MFile.Crash.done t qs)).acct ha
          rw [← he]
          rw [FileAcct.iff_le] at hc ⊢
          exact hc


theorem compactPrims_zero (cfg : Cfg) (src : MFile) (first : Bool) (t : MFile) : compactPrims cfg src 0 first t = some [] := rfl

set_option maxRecDepth 20000 in
theorem compactPrims_succ (cfg : Cfg) (src : MFile) (n : Nat) (first : Bool) (t : MFile) : compactPrims cfg src (n + 1) first t =
    match compactRowPrims cfg first src t with
    | none => none
    | some ps => (compactPrims cfg src n false (t.run ps)).map (ps ++ ·) := rfl

/-- A crash inside several iterations of the compaction loop. -/
theorem compactPrims_crash {cfg : Cfg} {lo hi : Nat} {src : MFile} (hs : FileOK cfg lo hi src) :
    ∀ (n : Nat) (t g : MFile) (first : Bool) (ps : List Prim), t.compactedUpTo + n ≤ NUM_ROWS → TgtOK cfg lo hi src t →
      t.writeOff + remW kvSize src t.compactedUpTo < 4294967296 → compactPrims cfg src n first t = some ps → t.Crash ps g →
      TgtOK cfg lo hi src g ∧ SameDone src t g ∧ (FileAcct false t → FileAcct false g) ∧ t.writeOff ≤ g.writeOff := by
  intro n
  induction n with
  | zero =>
    intro t g first ps _ ht _ hps hcr
    rw [compactPrims_zero] at hps; simp only [Option.some.injEq] at hps
    subst hps
    rw [hcr.nil]
    exact ⟨ht, .refl _ _, id, Nat.le_refl _⟩
  | succ n ih =>
    intro t g first ps hn ht hsmall hps hcr
    have hlt : t.compactedUpTo < NUM_ROWS := by omega
    have hrem := remW_step kvSize src hlt
    have hsm : t.writeOff + rowW kvSize src t.compactedUpTo < 4294967296 := by omega
    rw [compactPrims_succ] at hps
    cases hq : compactRowPrims cfg first src t with
    | none => rw [hq] at hps; simp at hps
    | some qs =>
      rw [hq] at hps
      have hrow := fun {g} (h : t.Crash qs g) => compactRow_crash hs ht hlt hsm hq h
      cases hr : compactPrims cfg src n false (t.run qs) with
      | none => simp only [hr, Option.map_none] at hps; simp at hps
      | some rs =>
        simp only [hr, Option.map_some, Option.some.injEq] at hps
        subst hps
        rcases hcr.append with hcr | hcr
        · obtain ⟨a, b, c, d, _⟩ := hrow hcr
          exact ⟨a, b, c, d⟩
        · obtain ⟨a, b, c, d, e, f⟩ := hrow (MFile.Crash.done t qs)
          have hcu : (t.run qs).compactedUpTo = t.compactedUpTo + 1 := by
            unfold compactRowPrims at hq
            cases hq' : copyPrims cfg first t.compactedUpTo t 0 (src.liveRow t.compactedUpTo) with
            | none => rw [hq'] at hq; simp at hq
            | some us =>
              rw [hq'] at hq
              simp only [Option.some.injEq] at hq
              subst hq
              rw [run_append]
              show (t.run us).compactedUpTo + 1 = _
              have hlen := liveRow_length src t.compactedUpTo
              rw [(copyPrims_crash hlt _ t 0 us _ ht.ok (hs.copyOK hlt) (ht.part hlt) (by omega)
                (by rw [bytesOf_liveRow]; exact hsm) hq' (MFile.Crash.done t us)).cu]
          obtain ⟨a', b', c', d'⟩ := ih (t.run qs) g false rs (by omega) a (by rw [hcu]; omega) hr hcr
          exact ⟨a', b.trans b', fun h => c' (c h), Nat.le_trans d d'⟩

/-- The stores of the loop are those of `compactRows`. -/
theorem compactRows_eq {cfg : Cfg} {src : MFile} : ∀ (n : Nat) (first : Bool) (t : MFile),
    compactRows cfg src n first t = (compactPrims cfg src n first t).map t.run
  | 0, _, t => rfl
  | n + 1, first, t => by
    rw [compactPrims_succ]
    show (compactRow cfg first src t).bind _ = _
    unfold compactRow
    cases hq : compactRowPrims cfg first src t with
    | none => rfl
    | some qs =>
      simp only [Option.map_some, Option.bind_some]
      rw [compactRows_eq n false (t.run qs)]
      cases compactPrims cfg src n false (t.run qs) with
      | none => rfl
      | some rs => simp [run_append]

/-- The stores of `fillRows`. -/
theorem fillRows_eq {cfg : Cfg} {contents : Nat → List KV} : ∀ (rows : List Nat) (f : MFile),
    fillRows cfg contents f rows = (fillPrims cfg contents f rows).map f.run
  | [], f => rfl
  | row :: rows, f => by
    simp only [fillRows, fillPrims]
    cases hq : copyPrims cfg false row f 0 (contents row) with
    | none => rfl
    | some ps =>
      simp only
      rw [fillRows_eq rows (f.run ps)]
      cases fillPrims cfg contents (f.run ps) rows with
      | none => rfl
      | some rs => simp [run_append]

end Candy
