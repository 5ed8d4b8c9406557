import Verif.Proofs.FineCore
/-!
# The header counters while actors are at work
-/
namespace Candy
open Spec

/-- What each actor has added to the surplus of each file (by the start of the shard's span and the side). -/
abbrev Ledger := Who → Nat → Side → Bool → Int

def setL (led : Ledger) (a : Who) (lo : Nat) (sd : Side) (x : Bool → Int) : Ledger :=
  fun b l d => if b = a ∧ l = lo ∧ d = sd then x else led b l d

theorem setL_same (led : Ledger) (a : Who) (lo : Nat) (sd : Side) (x : Bool → Int) : setL led a lo sd x a lo sd = x := if_pos ⟨rfl, rfl, rfl⟩
theorem setL_other (led : Ledger) {a b : Who} {lo l : Nat} {sd d : Side} (x : Bool → Int) (h : ¬ (b = a ∧ l = lo ∧ d = sd)) :
    setL led a lo sd x b l d = led b l d := if_neg h

/-- A sum over some actors. -/
def total (L : List Who) (F : Who → Int) : Int := (L.map F).sum

theorem total_zero {L : List Who} {F : Who → Int} (h : ∀ a ∈ L, F a = 0) : total L F = 0 := by
  induction L with
  | nil => rfl
  | cons a L ih =>
    show F a + total L F = 0
    rw [h a List.mem_cons_self, ih (fun b hb => h b (List.mem_cons_of_mem _ hb))]; rfl

theorem total_congr {L : List Who} {F G : Who → Int} (h : ∀ a ∈ L, F a = G a) : total L F = total L G := by
  unfold total
  rw [List.map_congr_left h]

theorem total_update {L : List Who} {F G : Who → Int} {a : Who} (hd : L.Nodup) (ha : a ∈ L) (h : ∀ b, b ≠ a → G b = F b) :
    total L G - G a = total L F - F a := by
  induction L with
  | nil => cases ha
  | cons b L ih =>
    show G b + total L G - G a = F b + total L F - F a
    rw [List.nodup_cons] at hd
    by_cases e : b = a
    · subst e
      rw [total_congr (L := L) (F := G) (G := F) (fun c hc => h c (fun e => hd.1 (e ▸ hc)))]
      omega
    · have := ih hd.2 (by cases ha with | head => exact absurd rfl e | tail _ h => exact h)
      rw [h b e]
      omega

/-- The header of the file against its contents; `tot`: what the actors at work account for. -/
def FileBal (ex : Bool) (f : MFile) (tot : Bool → Int) : Prop := tot true ≤ surplus f true ∧ (ex = true → ∀ k, surplus f k = tot k)

theorem FileAcct.bal {ex : Bool} {f : MFile} (h : FileAcct ex f) : FileBal ex f (fun _ => 0) := by
  obtain ⟨d, e, ⟨h1, h2⟩, h3⟩ := h
  refine ⟨?_, fun hx k => ?_⟩
  · show (0 : Int) ≤ (f.writeOff : Int) - f.wasted - liveBytes f; omega
  · obtain ⟨rfl, rfl⟩ := h3 hx
    cases k
    · show (f.numInserts : Int) - f.numRemovals - liveCount f = 0; omega
    · show (f.writeOff : Int) - f.wasted - liveBytes f = 0; omega

theorem FileBal.acct {ex : Bool} {f : MFile} (h : FileBal ex f (fun _ => 0)) : FileAcct ex f := by
  obtain ⟨h1, h2⟩ := h
  have h1 : (0 : Int) ≤ (f.writeOff : Int) - f.wasted - liveBytes f := h1
  refine ⟨f.writeOff - f.wasted - liveBytes f, (f.numInserts : Int) - f.numRemovals - liveCount f, ⟨by omega, by omega⟩, fun hx => ?_⟩
  have a : (f.writeOff : Int) - f.wasted - liveBytes f = 0 := h2 hx true
  have b : (f.numInserts : Int) - f.numRemovals - liveCount f = 0 := h2 hx false
  exact ⟨by omega, b⟩

theorem FileBal.congr {ex : Bool} {f : MFile} {t t' : Bool → Int} (h : FileBal ex f t) (e : ∀ k, t' k = t k) : FileBal ex f t' := by
  have : t' = t := funext e
  rw [this]; exact h

theorem FileBal.upd {ex : Bool} {f f' : MFile} {t t' : Bool → Int} (h : FileBal ex f t) (e : ∀ k, surplus f' k - t' k = surplus f k - t k) : FileBal ex f' t' := by
  refine ⟨?_, fun hx k => ?_⟩
  · have := h.1; have := e true; omega
  · have := h.2 hx k; have := e k; omega

/-- The headers of all files against their contents and the actors `W` at work. -/
structure Bal (ex : Bool) (t : Tree) (W : Who → Actor → Nat → Prop) (led : Ledger) : Prop where
  list : ∃ L : List Who, L.Nodup ∧ (∀ a, a ∉ L → ∀ lo sd k, led a lo sd k = 0) ∧ ∀ sel, sel < END_OF_SHARDS → ∀ sd,
    FileBal ex ((t.find sel).file sd) (fun k => total L (fun a => led a (t.find sel).lo sd k))
  supp : ∀ a lo sd k, led a lo sd k ≠ 0 → ∃ X sel, W a X sel ∧ X.lo = lo ∧ X.sd = sd
  pos : ∀ a lo sd, 0 ≤ led a lo sd true

theorem Bal.congr {ex : Bool} {t : Tree} {W W' : Who → Actor → Nat → Prop} {led : Ledger} (h : Bal ex t W led)
    (e : ∀ a X sel, W' a X sel ↔ W a X sel) : Bal ex t W' led := by
  have : W' = W := funext fun a => funext fun X => funext fun sel => propext (e a X sel)
  rw [this]; exact h

/-- Actors enter, or leave after they have settled their account. -/
theorem Bal.drop {ex : Bool} {t : Tree} {W W' : Who → Actor → Nat → Prop} {led : Ledger} (h : Bal ex t W led)
    (e : ∀ a X sel, W a X sel → W' a X sel ∨ ∀ k, led a X.lo X.sd k = 0) : Bal ex t W' led := by
  refine ⟨h.list, fun a lo sd k hne => ?_, h.pos⟩
  obtain ⟨X, sel, hw, rfl, rfl⟩ := h.supp a lo sd k hne
  rcases e a X sel hw with h1 | h1
  · exact ⟨X, sel, h1, rfl, rfl⟩
  · exact absurd (h1 k) hne

theorem Bal.zero {ex : Bool} {t : Tree} {W : Who → Actor → Nat → Prop} {led : Ledger} (h : Bal ex t W led) {a : Who} (hno : ∀ X sel, ¬ W a X sel) (lo : Nat) (sd : Side) :
    led a lo sd = fun _ => 0 := by
  funext k
  refine Classical.byContradiction (fun hne => ?_)
  obtain ⟨X, sel, hw, _⟩ := h.supp a lo sd k hne
  exact hno X sel hw

/-- Nobody is at work on the shard: its headers say what is there. -/
theorem Bal.quiet {ex : Bool} {t : Tree} {W : Who → Actor → Nat → Prop} {led : Ledger} (h : Bal ex t W led) {sel : Nat} (hsel : sel < END_OF_SHARDS)
    (hno : ∀ a X sel', W a X sel' → X.lo ≠ (t.find sel).lo) (sd : Side) : FileAcct ex ((t.find sel).file sd) := by
  obtain ⟨L, _, _, h3⟩ := h.list
  refine FileBal.acct ((h3 sel hsel sd).congr (fun k => (total_zero (fun a _ => ?_)).symm))
  refine Classical.byContradiction (fun hne => ?_)
  obtain ⟨X, sel', hw, e, _⟩ := h.supp a _ sd k hne
  exact hno a X sel' hw e

/-- A shard on which nobody is at work is replaced. -/
theorem Bal.replace {ex : Bool} {t t' : Tree} {W : Who → Actor → Nat → Prop} {led : Ledger} (h : Bal ex t W led) {P : Nat → Prop}
    (hout : ∀ sel, sel < END_OF_SHARDS → ¬ P sel → t'.find sel = t.find sel)
    (hin : ∀ sel, sel < END_OF_SHARDS → P sel → (∀ sd, FileAcct ex ((t'.find sel).file sd)) ∧ ∀ a X sel', W a X sel' → X.lo ≠ (t'.find sel).lo) : Bal ex t' W led := by
  refine ⟨?_, h.supp, h.pos⟩
  obtain ⟨L, h1, h2, h3⟩ := h.list
  refine ⟨L, h1, h2, fun sel hsel sd => ?_⟩
  by_cases e : P sel
  · obtain ⟨g1, g2⟩ := hin sel hsel e
    refine (g1 sd).bal.congr (fun k => total_zero (fun a _ => ?_))
    refine Classical.byContradiction (fun hne => ?_)
    obtain ⟨X, sel', hw, e, _⟩ := h.supp a _ sd k hne
    exact g2 a X sel' hw e
  · rw [hout sel hsel e]; exact h3 sel hsel sd

/-- An access. -/
theorem Bal.write {ex : Bool} {t t' : Tree} {W : Who → Actor → Nat → Prop} {led : Ledger} (h : Bal ex t W led) {a : Who} {X : Actor} {sel : Nat}
    (hw : W a X sel) (hlo : X.lo = (t.find sel).lo) {sh' : Shard} (hlo' : sh'.lo = (t.find sel).lo)
    (hcase : ∀ sel', sel' < END_OF_SHARDS → (t'.find sel' = t.find sel' ∧ (t.find sel').lo ≠ (t.find sel).lo) ∨ (t.find sel' = t.find sel ∧ t'.find sel' = sh'))
    (hoth : sh'.file X.sd.other = (t.find sel).file X.sd.other) {x : Bool → Int}
    (hx : ∀ k, surplus (sh'.file X.sd) k - x k = surplus ((t.find sel).file X.sd) k - led a X.lo X.sd k) (hp : 0 ≤ x true) : Bal ex t' W (setL led a X.lo X.sd x) := by
  obtain ⟨L, h1, h2, h3⟩ := h.list
  -- `a` may be taken to be in the list
  have hL : ∃ L : List Who, L.Nodup ∧ a ∈ L ∧ (∀ a, a ∉ L → ∀ lo sd k, led a lo sd k = 0) ∧ ∀ sel, sel < END_OF_SHARDS → ∀ sd,
      FileBal ex ((t.find sel).file sd) (fun k => total L (fun a => led a (t.find sel).lo sd k)) := by
    by_cases e : a ∈ L
    · exact ⟨L, h1, e, h2, h3⟩
    · refine ⟨a :: L, List.nodup_cons.2 ⟨e, h1⟩, List.mem_cons_self, fun b hb => h2 b (fun hb' => hb (List.mem_cons_of_mem _ hb')), fun sel hsel sd => ?_⟩
      refine (h3 sel hsel sd).congr (fun k => ?_)
      show led a _ sd k + total L _ = _
      rw [h2 a e]; omega
  obtain ⟨L, h1, ha, h2, h3⟩ := hL
  refine ⟨⟨L, h1, fun b hb lo sd k => ?_, fun sel' hs sd => ?_⟩, fun b lo sd k hne => ?_, fun b lo sd => ?_⟩
  · have hba : b ≠ a := fun e => hb (e ▸ ha)
    rw [setL_other _ _ (fun e => hba e.1)]; exact h2 b hb lo sd k
  · rcases hcase sel' hs with ⟨e1, e2⟩ | ⟨e1, e2⟩
    · rw [e1]
      refine (h3 sel' hs sd).congr (fun k => total_congr (fun b _ => ?_))
      rw [setL_other _ _ (fun e => e2 (e.2.1.trans hlo))]
    · rw [e2]
      have := h3 sel' hs sd
      rw [e1] at this
      by_cases ed : sd = X.sd
      · subst ed
        refine this.upd (fun k => ?_)
        have hu := total_update (F := fun a => led a (t.find sel).lo X.sd k) (G := fun b => setL led a X.lo X.sd x b sh'.lo X.sd k) h1 ha (fun b hb => by
          show setL _ _ _ _ _ _ _ _ k = led _ _ _ k
          rw [setL_other _ _ (fun e => hb e.1), hlo'])
        have e3 : setL led a X.lo X.sd x a sh'.lo X.sd k = x k := by rw [hlo', ← hlo, setL_same]
        have hu : total L _ - setL led a X.lo X.sd x a sh'.lo X.sd k = _ - led a (t.find sel).lo X.sd k := hu
        rw [e3, ← hlo] at hu
        have := hx k
        rw [← hlo]
        omega
      · rw [Side.ne_other ed, hoth, ← Side.ne_other ed]
        refine this.congr (fun k => total_congr (fun b _ => ?_))
        rw [setL_other _ _ (fun e => ed e.2.2), hlo']
  · by_cases e : b = a ∧ lo = X.lo ∧ sd = X.sd
    · obtain ⟨rfl, rfl, rfl⟩ := e; exact ⟨X, sel, hw, rfl, rfl⟩
    · rw [setL_other _ _ e] at hne; exact h.supp b lo sd k hne
  · by_cases e : b = a ∧ lo = X.lo ∧ sd = X.sd
    · obtain ⟨rfl, rfl, rfl⟩ := e; rw [setL_same]; exact hp
    · rw [setL_other _ _ e]; exact h.pos b lo sd

theorem total_nonneg {L : List Who} {F : Who → Int} (h : ∀ a ∈ L, 0 ≤ F a) : 0 ≤ total L F := by
  induction L with
  | nil => exact Int.le_refl 0
  | cons a L ih =>
    have h1 := h a List.mem_cons_self
    have h2 := ih (fun b hb => h b (List.mem_cons_of_mem _ hb))
    show 0 ≤ F a + total L F
    omega

/-- At any time no header claims more than there is: it never counts a live byte as wasted. -/
theorem Bal.loose {ex : Bool} {t : Tree} {W : Who → Actor → Nat → Prop} {led : Ledger} (h : Bal ex t W led) {sel : Nat} (hsel : sel < END_OF_SHARDS) (sd : Side) :
    FileAcct false ((t.find sel).file sd) := by
  obtain ⟨L, _, _, h3⟩ := h.list
  have h1 := (h3 sel hsel sd).1
  refine FileBal.acct ⟨Int.le_trans (total_nonneg (fun a _ => h.pos a _ _)) h1, fun e => by cases e⟩

end Candy
