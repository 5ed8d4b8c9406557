import Verif.Proofs.ShardOps
import Verif.Proofs.Sum
/-!
# Accounting: live bytes and live entries of a file against its header counters
-/
namespace Candy

/-- Stored size of a pair. -/
def kvSize (kv : KV) : Nat := kv.1.length + kv.2.length

/-- Total stored size of a list of pairs. -/
def bytesOf (l : List KV) : Nat := (l.map kvSize).sum

/-- Weight of a table position. -/
def cellW (w : KV → Nat) (f : MFile) (r c : Nat) : Nat :=
  match f.live r c with
  | some kv => w kv
  | none => 0

/-- Total weight of a row / of the file. -/
def rowW (w : KV → Nat) (f : MFile) (r : Nat) : Nat := sumTo ROW_WIDTH (cellW w f r)
def fileW (w : KV → Nat) (f : MFile) : Nat := sumTo NUM_ROWS (rowW w f)

theorem rowW_eq (w : KV → Nat) (f : MFile) (r : Nat) : rowW w f r = ((f.liveRow r).map w).sum := by
  rw [liveRow_eq, map_sum_filterMap_range]; unfold rowW; apply sumTo_congr; intro i _; unfold cellW; cases f.live r i <;> rfl

/-- Number of live entries and live bytes of a file. -/
def liveCount (f : MFile) : Nat := fileW (fun _ => 1) f
def liveBytes (f : MFile) : Nat := fileW kvSize f

/-- The header counters account for all live entries, up to a slack of `d` leaked bytes and `e` phantom (or, if negative,
uncounted) entries (both zero unless the process crashed inside an update). -/
def Acct (d : Nat) (e : Int) (f : MFile) : Prop :=
  liveBytes f + f.wasted + d = f.writeOff ∧ (liveCount f : Int) + f.numRemovals + e = f.numInserts

theorem Acct.empty : Acct 0 0 MFile.empty := by
  have : ∀ w, fileW w MFile.empty = 0 := by
    intro w
    apply sumTo_zero; intro r _; apply sumTo_zero; intro c _
    simp [cellW, empty_live]
  unfold Acct liveBytes liveCount
  rw [this, this]
  exact ⟨rfl, rfl⟩

theorem fileW_update (w : KV → Nat) {f g : MFile} {r c : Nat} (hr : r < NUM_ROWS) (hc : c < ROW_WIDTH)
    (h : ∀ r' c', r' < NUM_ROWS → c' < ROW_WIDTH → ¬ (r' = r ∧ c' = c) → g.live r' c' = f.live r' c') :
    fileW w g + cellW w f r c = fileW w f + cellW w g r c := by
  have h1 : rowW w g r + cellW w f r c = rowW w f r + cellW w g r c := by
    apply sumTo_update hc
    intro i hi hne
    simp only [cellW]; rw [h r i hr hi (by omega)]
  have h2 : fileW w g + rowW w f r = fileW w f + rowW w g r := by
    apply sumTo_update hr
    intro i hi hne
    apply sumTo_congr
    intro j hj
    simp only [cellW]; rw [h i j hi hj (by omega)]
  omega

theorem cellW_some {w : KV → Nat} {f : MFile} {r c : Nat} {kv : KV} (h : f.live r c = some kv) : cellW w f r c = w kv := by
  simp [cellW, h]
theorem cellW_none {w : KV → Nat} {f : MFile} {r c : Nat} (h : f.live r c = none) : cellW w f r c = 0 := by
  simp [cellW, h]

/-- Client calls keep the accounting exact. -/
theorem Effect.acct {cfg f r k cur ps new d e} (hext : ExtOK f) (hr : r < NUM_ROWS) (h : Effect cfg f r k cur ps new)
    (ha : Acct d e f) : Acct d e (f.run ps) := by
  obtain ⟨a1, a2⟩ := ha
  cases h with
  | noop => exact ⟨a1, a2⟩
  | put c v hc he hcur hk hv ho =>
    have hl := fun {r' c'} => live_put (r := r) (c := c) (r' := r') (c' := c') hext hk hv ho (cfg.ph_sig_ne k)
    have hw : ∀ w : KV → Nat, fileW w (f.run (f.putPrims r c k v (cfg.ph k).sig)) = fileW w f + w (k, v) := by
      intro w
      have := fileW_update w (f := f) (g := f.run (f.putPrims r c k v (cfg.ph k).sig)) hr hc
        (fun r' c' hr' hc' hne => by rw [hl hr' hc', if_neg hne])
      rw [cellW_none he, cellW_some (kv := (k, v)) (by rw [hl hr hc]; simp)] at this
      omega
    unfold Acct liveBytes liveCount at *
    rw [hw, hw, put_writeOff, put_wasted, put_inserts, put_removals]
    simp only [kvSize] at *
    omega
  | replace c old v hc he hcur hk hv ho =>
    have hl := fun {r' c'} => live_replace (r := r) (c := c) (r' := r') (c' := c') (old := old) hext hk hv ho
      (live_eq_some.1 he).1
    have hw : ∀ w : KV → Nat, fileW w (f.run (f.replacePrims r c k v old)) + w (k, old) = fileW w f + w (k, v) := by
      intro w
      have := fileW_update w (f := f) (g := f.run (f.replacePrims r c k v old)) hr hc
        (fun r' c' hr' hc' hne => by rw [hl hr' hc', if_neg hne])
      rwa [cellW_some he, cellW_some (kv := (k, v)) (by rw [hl hr hc]; simp)] at this
    unfold Acct liveBytes liveCount at *
    have h1 := hw kvSize
    have h2 := hw (fun _ => 1)
    rw [replace_writeOff, replace_wasted, replace_inserts, replace_removals]
    simp only [kvSize] at *
    omega
  | remove c old hc he hcur =>
    have hl := live_remove f r c k old
    have hw : ∀ w : KV → Nat, fileW w (f.run (removePrims r c k old)) + w (k, old) = fileW w f := by
      intro w
      have := fileW_update w (f := f) (g := f.run (removePrims r c k old)) hr hc
        (fun r' c' hr' hc' hne => by rw [hl, if_neg hne])
      rwa [cellW_some he, cellW_none (f := f.run (removePrims r c k old)) (by rw [hl]; simp)] at this
    unfold Acct liveBytes liveCount at *
    have h1 := hw kvSize
    have h2 := hw (fun _ => 1)
    obtain ⟨_, f2, _, f4, f5, f6⟩ := remove_fields f r c k old
    rw [f2, f4, f5, f6]
    simp only [kvSize] at *
    omega

end Candy
