import Verif.Proofs.File
import Verif.Spec.Map
/-!
# get / insert / remove on one shard
-/
namespace Candy

/-! ## Loops on one file -/

theorem getLoop_absent {f : MFile} {r : Nat} {k : Bytes} :
    ∀ {is : List Nat}, (∀ i ∈ is, (f.readKV (f.slot r i).desc).1 ≠ k) → f.getLoop r k is = none
  | [], _ => rfl
  | i :: is, h => by
    have h1 := h i (List.mem_cons_self)
    simp only [MFile.getLoop]
    rw [if_neg (fun e => h1 e.symm)]
    exact getLoop_absent (fun j hj => h j (List.mem_cons_of_mem _ hj))

theorem getLoop_present {f : MFile} {r c : Nat} {k v : Bytes} (hc : f.readKV (f.slot r c).desc = (k, v)) :
    ∀ {is : List Nat}, c ∈ is → (∀ j ∈ is, (f.readKV (f.slot r j).desc).1 = k → j = c) → f.getLoop r k is = some v
  | [], h, _ => absurd h (by simp)
  | i :: is, h, hu => by
    simp only [MFile.getLoop]
    by_cases e : k = (f.readKV (f.slot r i).desc).1
    · rw [if_pos e]
      have := hu i (List.mem_cons_self) e.symm
      subst this; rw [hc]
    · rw [if_neg e]
      have hne : c ≠ i := by rintro rfl; rw [hc] at e; exact e rfl
      have hm : c ∈ is := by rcases List.mem_cons.1 h with h | h; exact absurd h hne; exact h
      exact getLoop_present hc hm (fun j hj => hu j (List.mem_cons_of_mem _ hj))

theorem removeLoop_absent {f : MFile} {r : Nat} {k : Bytes} :
    ∀ {is : List Nat}, (∀ i ∈ is, (f.readKV (f.slot r i).desc).1 ≠ k) → f.removeLoop r k is = ([], none)
  | [], _ => rfl
  | i :: is, h => by
    have h1 := h i (List.mem_cons_self)
    simp only [MFile.removeLoop]
    rw [if_neg (fun e => h1 e.symm)]
    exact removeLoop_absent (fun j hj => h j (List.mem_cons_of_mem _ hj))

theorem removeLoop_present {f : MFile} {r c : Nat} {k v : Bytes} (hc : f.readKV (f.slot r c).desc = (k, v)) :
    ∀ {is : List Nat}, c ∈ is → (∀ j ∈ is, (f.readKV (f.slot r j).desc).1 = k → j = c) →
      f.removeLoop r k is = (removePrims r c k v, some v)
  | [], h, _ => absurd h (by simp)
  | i :: is, h, hu => by
    simp only [MFile.removeLoop]
    by_cases e : k = (f.readKV (f.slot r i).desc).1
    · rw [if_pos e]
      have := hu i (List.mem_cons_self) e.symm
      subst this; rw [hc]
    · rw [if_neg e]
      have hne : c ≠ i := by rintro rfl; rw [hc] at e; exact e rfl
      have hm : c ∈ is := by rcases List.mem_cons.1 h with h | h; exact absurd h hne; exact h
      exact removeLoop_present hc hm (fun j hj => hu j (List.mem_cons_of_mem _ hj))

theorem tryReplace_absent {f : MFile} {r : Nat} {k v : Bytes} {mode : Mode} :
    ∀ {is : List Nat}, (∀ i ∈ is, (f.readKV (f.slot r i).desc).1 ≠ k) →
      f.tryReplace r k v mode is = ([], .keyDoesNotExist)
  | [], _ => rfl
  | i :: is, h => by
    have h1 := h i (List.mem_cons_self)
    simp only [MFile.tryReplace]
    rw [if_pos (fun e => h1 e.symm)]
    exact tryReplace_absent (fun j hj => h j (List.mem_cons_of_mem _ hj))

/-- What `try_replace` does when it has found the key. -/
def foundStep (f : MFile) (r c : Nat) (k v old : Bytes) (mode : Mode) : List Prim × TryStatus :=
  let upd : List Prim × TryStatus := (if v ≠ old then f.replacePrims r c k v old else [], .replaced old)
  match mode with
  | .getOrCreate => ([], .notReplaced old)
  | .set => upd
  | .replace none => upd
  | .replace (some e) => if e ≠ old then ([], .notReplaced old) else upd

theorem tryReplace_present {f : MFile} {r c : Nat} {k v old : Bytes} {mode : Mode}
    (hc : f.readKV (f.slot r c).desc = (k, old)) :
    ∀ {is : List Nat}, c ∈ is → (∀ j ∈ is, (f.readKV (f.slot r j).desc).1 = k → j = c) →
      f.tryReplace r k v mode is = foundStep f r c k v old mode
  | [], h, _ => absurd h (by simp)
  | i :: is, h, hu => by
    simp only [MFile.tryReplace]
    by_cases e : k = (f.readKV (f.slot r i).desc).1
    · rw [if_neg (fun h => h e)]
      have := hu i (List.mem_cons_self) e.symm
      subst this; rw [hc]
      cases mode with
      | set => rfl
      | getOrCreate => rfl
      | replace e => cases e <;> rfl
    · rw [if_pos e]
      have hne : c ≠ i := by rintro rfl; rw [hc] at e; exact e rfl
      have hm : c ∈ is := by rcases List.mem_cons.1 h with h | h; exact absurd h hne; exact h
      exact tryReplace_present hc hm (fun j hj => hu j (List.mem_cons_of_mem _ hj))

/-- Key `k` has value `cur` in row `r` of file `f`. -/
def RowVal (f : MFile) (r : Nat) (k : Bytes) (cur : Option Bytes) : Prop :=
  match cur with
  | none => ∀ c, c < ROW_WIDTH → ∀ v, f.live r c ≠ some (k, v)
  | some v => ∃ c, c < ROW_WIDTH ∧ f.live r c = some (k, v)

theorem RowVal.exists (f : MFile) (r : Nat) (k : Bytes) : ∃ cur, RowVal f r k cur := by
  by_cases h : ∃ v c, c < ROW_WIDTH ∧ f.live r c = some (k, v)
  · obtain ⟨v, c, h1, h2⟩ := h
    exact ⟨some v, c, h1, h2⟩
  · refine ⟨none, fun c hc v hl => h ⟨v, c, hc, hl⟩⟩

theorem RowVal.unique {cfg lo hi} {f : MFile} (hok : FileOK cfg lo hi f) {r : Nat} (hr : r < NUM_ROWS) {k : Bytes} {a b}
    (ha : RowVal f r k a) (hb : RowVal f r k b) : a = b := by
  cases a with
  | none =>
    cases b with
    | none => rfl
    | some v => obtain ⟨c, hc, hl⟩ := hb; exact absurd hl (ha c hc v)
  | some w =>
    obtain ⟨c, hc, hl⟩ := ha
    cases b with
    | none => exact absurd hl (hb c hc w)
    | some v =>
      obtain ⟨c', hc', hl'⟩ := hb
      have := hok.inj r c c' _ _ hr hc hc' hl hl' rfl
      subst this
      rw [hl] at hl'
      simp at hl'
      rw [hl']

theorem lookups_absent {f : MFile} {r : Nat} {k : Bytes} {sig : BitVec 32} (hs : sig ≠ INVALID_SIG)
    (h : RowVal f r k none) : ∀ i ∈ lookups (f.slot r) sig 0, (f.readKV (f.slot r i).desc).1 ≠ k := by
  intro i hi e
  rw [mem_lookups] at hi
  refine h i hi.1 (f.readKV (f.slot r i).desc).2 ?_
  rw [live_eq_some, hi.2]
  exact ⟨hs, by rw [← e]⟩

theorem lookups_present {cfg lo hi} {f : MFile} (hok : FileOK cfg lo hi f) {r c : Nat} {k v : Bytes} (hr : r < NUM_ROWS)
    (hc : c < ROW_WIDTH) (hl : f.live r c = some (k, v)) :
    f.readKV (f.slot r c).desc = (k, v) ∧ c ∈ lookups (f.slot r) (cfg.ph k).sig 0 ∧
    ∀ j ∈ lookups (f.slot r) (cfg.ph k).sig 0, (f.readKV (f.slot r j).desc).1 = k → j = c := by
  refine ⟨(live_eq_some.1 hl).2, ?_, ?_⟩
  · rw [mem_lookups]; exact ⟨hc, hok.sig r c (k, v) hr hc hl⟩
  · intro j hj e
    rw [mem_lookups] at hj
    have hlj : f.live r j = some (f.readKV (f.slot r j).desc) := by
      rw [live_eq_some, hj.2]; exact ⟨cfg.ph_sig_ne k, rfl⟩
    exact hok.inj r j c _ _ hr hj.1 hc hlj hl e

theorem getLoop_eq {cfg lo hi} {f : MFile} (hok : FileOK cfg lo hi f) {r : Nat} {k : Bytes} (hr : r < NUM_ROWS) {cur}
    (hv : RowVal f r k cur) : f.getLoop r k (lookups (f.slot r) (cfg.ph k).sig 0) = cur := by
  cases cur with
  | none => exact getLoop_absent (lookups_absent (cfg.ph_sig_ne k) hv)
  | some v =>
    obtain ⟨c, hc, hl⟩ := hv
    obtain ⟨h1, h2, h3⟩ := lookups_present hok hr hc hl
    exact getLoop_present h1 h2 h3

/-- The ways in which a client call changes the row of its key `k`, whose value goes from `cur` to `new`. -/
inductive Effect (cfg : Cfg) (f : MFile) (r : Nat) (k : Bytes) (cur : Option Bytes) : List Prim → Option Bytes → Prop
  | noop : Effect cfg f r k cur [] cur
  | put (c : Nat) (v : Bytes) (hc : c < ROW_WIDTH) (he : f.live r c = none) (hcur : cur = none)
      (hk : k.length < 65536) (hv : v.length < 65536) (ho : f.writeOff < 4294967296) :
      Effect cfg f r k cur (f.putPrims r c k v (cfg.ph k).sig) (some v)
  | replace (c : Nat) (old v : Bytes) (hc : c < ROW_WIDTH) (he : f.live r c = some (k, old)) (hcur : cur = some old)
      (hk : k.length < 65536) (hv : v.length < 65536) (ho : f.writeOff < 4294967296) : Effect cfg f r k cur (f.replacePrims r c k v old) (some v)
  | remove (c : Nat) (old : Bytes) (hc : c < ROW_WIDTH) (he : f.live r c = some (k, old)) (hcur : cur = some old) :
      Effect cfg f r k cur (removePrims r c k old) none

theorem lookup_invalid {row : Nat → Slot} {i : Nat} (h : lookup row INVALID_SIG 0 = some i) :
    i < ROW_WIDTH ∧ (row i).sig = INVALID_SIG := by
  refine ⟨(lookup_some h).2, ?_⟩
  unfold lookup at h
  have := List.find?_some h
  simpa using this

theorem lookup_none {row : Nat → Slot} (h : lookup row INVALID_SIG 0 = none) :
    ∀ i, i < ROW_WIDTH → (row i).sig ≠ INVALID_SIG := by
  intro i hi
  unfold lookup at h
  rw [List.find?_eq_none] at h
  have := h i (by rw [List.mem_range'_1]; omega)
  simpa using this

/-- Why `insert` asks for a split. -/
def NeedsSplit (cfg : Cfg) (s : Shard) (r : Nat) (k v : Bytes) : Prop :=
  (s.tgt = none ∧ (s.active r).wasted < cfg.minCompaction.toNat ∧
    cfg.maxShardSize.toNat < (s.active r).writeOff + (k.length + v.length)) ∨
  (RowVal (s.active r) r k none ∧ ∀ c, c < ROW_WIDTH → (s.active r).live r c ≠ none)

/-- The plan of `Shard::insert`: either a split is needed and nothing is stored, or the response and the new value are those of
the ideal map. -/
theorem insertPlan_spec {cfg : Cfg} {s : Shard} {k v : Bytes} {mode : Mode} {cur : Option Bytes}
    (hok : FileOK cfg s.lo s.hi (s.active (cfg.ph k).rowSel)) (hcur : RowVal (s.active (cfg.ph k).rowSel) (cfg.ph k).rowSel k cur)
    (hk : k.length < 65536) (hv : v.length < 65536) (ho : (s.active (cfg.ph k).rowSel).writeOff < 4294967296) :
    let p := s.insertPlan cfg (cfg.ph k) k v mode
    (p.2.1 = .splitNeeded ∧ p.1 = [] ∧ NeedsSplit cfg s (cfg.ph k).rowSel k v) ∨
    (p.2.1 = (Spec.insertAt cur v mode).2 ∧
      Effect cfg (s.active (cfg.ph k).rowSel) (cfg.ph k).rowSel k cur p.1 (Spec.insertAt cur v mode).1) := by
  intro p
  have hr := (cfg.ph k).rowSel_lt
  generalize hrow : (cfg.ph k).rowSel = r at *
  generalize hf : s.active r = f at *
  have hp : p = s.insertPlan cfg (cfg.ph k) k v mode := rfl
  unfold Shard.insertPlan at hp
  simp only [hrow, hf] at hp
  split at hp
  · rename_i hfull
    left
    rw [hp]
    refine ⟨rfl, rfl, Or.inl ?_⟩
    rw [hf]
    simp only [Bool.and_eq_true, Bool.not_eq_true', decide_eq_true_eq, decide_eq_false_iff_not] at hfull
    obtain ⟨⟨h1, h2⟩, h3⟩ := hfull
    exact ⟨by simpa using h1, by omega, h3⟩
  · cases cur with
    | some old =>
      right
      obtain ⟨c, hc, hl⟩ := hcur
      obtain ⟨h1, h2, h3⟩ := lookups_present hok hr hc hl
      rw [tryReplace_present h1 h2 h3] at hp
      have heff : Effect cfg f r k (some old) (if v ≠ old then f.replacePrims r c k v old else []) (some v) := by
        by_cases e : v = old
        · subst e; rw [if_neg (by simp)]; exact .noop
        · rw [if_pos e]; exact .replace c old v hc hl rfl hk hv ho
      cases mode with
      | set => simp only [foundStep] at hp; rw [hp]; exact ⟨rfl, heff⟩
      | getOrCreate => simp only [foundStep] at hp; rw [hp]; exact ⟨rfl, .noop⟩
      | replace e =>
        cases e with
        | none => simp only [foundStep] at hp; rw [hp]; exact ⟨rfl, heff⟩
        | some e =>
          simp only [foundStep] at hp
          by_cases he : e = old
          · rw [if_neg (by simpa using he)] at hp
            simp only [Spec.insertAt, if_pos he]
            rw [hp]; exact ⟨rfl, heff⟩
          · rw [if_pos he] at hp
            simp only [Spec.insertAt, if_neg he]
            rw [hp]; exact ⟨rfl, .noop⟩
    | none =>
      rw [tryReplace_absent (lookups_absent (cfg.ph_sig_ne k) hcur)] at hp
      simp only at hp
      have key : ∀ (sc : Option Nat), p = (match lookup (f.slot r) INVALID_SIG 0 with
          | some i => (f.putPrims r i k v (cfg.ph k).sig, InsStatus.added, sc)
          | none => ([], InsStatus.splitNeeded, sc)) →
          (p.2.1 = .splitNeeded ∧ p.1 = [] ∧ NeedsSplit cfg s r k v) ∨
          (p.2.1 = InsStatus.added ∧ Effect cfg f r k none p.1 (some v)) := by
        intro sc hp
        split at hp
        · rename_i i hi
          right
          rw [hp]
          obtain ⟨h1, h2⟩ := lookup_invalid hi
          exact ⟨rfl, .put i v h1 (live_eq_none.2 h2) rfl hk hv ho⟩
        · rename_i hn
          left
          rw [hp]
          refine ⟨rfl, rfl, Or.inr ?_⟩
          rw [hf]
          refine ⟨hcur, fun c hc h => ?_⟩
          exact lookup_none hn c hc (live_eq_none.1 h)
      cases mode with
      | set => exact key _ hp
      | getOrCreate => exact key _ hp
      | replace e => right; rw [hp]; exact ⟨rfl, .noop⟩

theorem removePlan_spec {cfg : Cfg} {s : Shard} {k : Bytes} {cur : Option Bytes}
    (hok : FileOK cfg s.lo s.hi (s.active (cfg.ph k).rowSel)) (hcur : RowVal (s.active (cfg.ph k).rowSel) (cfg.ph k).rowSel k cur) :
    (s.removePlan (cfg.ph k) k).2 = cur ∧
    Effect cfg (s.active (cfg.ph k).rowSel) (cfg.ph k).rowSel k cur (s.removePlan (cfg.ph k) k).1 none := by
  have hr := (cfg.ph k).rowSel_lt
  unfold Shard.removePlan
  simp only
  cases cur with
  | none => rw [removeLoop_absent (lookups_absent (cfg.ph_sig_ne k) hcur)]; exact ⟨rfl, .noop⟩
  | some v =>
    obtain ⟨c, hc, hl⟩ := hcur
    obtain ⟨h1, h2, h3⟩ := lookups_present hok hr hc hl
    rw [removeLoop_present h1 h2 h3]
    exact ⟨rfl, .remove c v hc hl rfl⟩

/-! ## Effects keep the invariant and update exactly one key -/

theorem Effect.cu {cfg f r k cur ps new} (h : Effect cfg f r k cur ps new) :
    (f.run ps).compactedUpTo = f.compactedUpTo := by
  cases h with
  | noop => rfl
  | put c v hc he hcur hk hv ho => exact put_cu ..
  | replace c old v hc he hcur hk hv ho => exact replace_cu ..
  | remove c old hc he hcur => exact (remove_fields ..).2.2.1

theorem Effect.slot_other {cfg f r k cur ps new} (h : Effect cfg f r k cur ps new) {r' c' : Nat} (hr : r' ≠ r) :
    (f.run ps).slot r' c' = f.slot r' c' := by
  cases h with
  | noop => rfl
  | put c v hc he hcur hk hv ho => rw [put_slot, if_neg (by simp [hr])]
  | replace c old v hc he hcur hk hv ho => rw [replace_slot, if_neg (by simp [hr])]
  | remove c old hc he hcur => rw [remove_slot, if_neg (by simp [hr])]

theorem Effect.writeOff_le {cfg f r k cur ps new} (h : Effect cfg f r k cur ps new) :
    f.writeOff ≤ (f.run ps).writeOff := by
  cases h with
  | noop => exact Nat.le_refl _
  | put c v hc he hcur hk hv ho => rw [put_writeOff]; omega
  | replace c old v hc he hcur hk hv ho => rw [replace_writeOff]; omega
  | remove c old hc he hcur => rw [(remove_fields ..).2.1]; omega

/-- Live entries of all rows after an effect, as a map per row. -/
theorem Effect.ok {cfg lo hi} {f : MFile} {k : Bytes} {cur ps new} (hok : FileOK cfg lo hi f)
    (h : Effect cfg f (cfg.ph k).rowSel k cur ps new) (hcur : RowVal f (cfg.ph k).rowSel k cur)
    (hlo : lo ≤ (cfg.ph k).shardSel) (hhi : (cfg.ph k).shardSel < hi) :
    FileOK cfg lo hi (f.run ps) ∧ RowVal (f.run ps) (cfg.ph k).rowSel k new ∧
    (∀ r c, r < NUM_ROWS → c < ROW_WIDTH → r ≠ (cfg.ph k).rowSel → (f.run ps).live r c = f.live r c) ∧
    (∀ k' x, k' ≠ k → RowVal f (cfg.ph k).rowSel k' x → RowVal (f.run ps) (cfg.ph k).rowSel k' x) := by
  have hr := (cfg.ph k).rowSel_lt
  generalize hrow : (cfg.ph k).rowSel = r at *
  cases h with
  | noop => exact ⟨hok, hcur, fun _ _ _ _ _ => rfl, fun _ _ _ h => h⟩
  | put c v hc he hcur' hk hv ho =>
    have hlive := fun {r' c'} => live_put (r := r) (c := c) (r' := r') (c' := c') hok.extOK hk hv ho (cfg.ph_sig_ne k)
    subst hcur'
    refine ⟨hok.put hk hv ho hrow hlo hhi (fun c' hc' _ v' => hcur c' hc' v'), ⟨c, hc, ?_⟩, ?_, ?_⟩
    · rw [hlive hr hc]; simp
    · intro r' c' hr' hc' hne; rw [hlive hr' hc', if_neg (by simp [hne])]
    · intro k' x hne hx
      cases x with
      | none =>
        intro c' hc' v'
        rw [hlive hr hc']
        split
        · simp [Ne.symm hne]
        · exact hx c' hc' v'
      | some v' =>
        obtain ⟨c', hc', hl⟩ := hx
        refine ⟨c', hc', ?_⟩
        rw [hlive hr hc', if_neg, hl]
        rintro ⟨_, rfl⟩; rw [he] at hl; exact absurd hl (by simp)
  | replace c old v hc he hcur' hk hv ho =>
    have hnes := (live_eq_some.1 he).1
    have hlive := fun {r' c'} => live_replace (r := r) (c := c) (r' := r') (c' := c') (old := old) hok.extOK hk hv ho hnes
    refine ⟨hok.replace hk hv ho hr hc he, ⟨c, hc, ?_⟩, ?_, ?_⟩
    · rw [hlive hr hc]; simp
    · intro r' c' hr' hc' hne; rw [hlive hr' hc', if_neg (by simp [hne])]
    · intro k' x hne hx
      cases x with
      | none =>
        intro c' hc' v'
        rw [hlive hr hc']
        split
        · simp [Ne.symm hne]
        · exact hx c' hc' v'
      | some v' =>
        obtain ⟨c', hc', hl⟩ := hx
        refine ⟨c', hc', ?_⟩
        rw [hlive hr hc', if_neg, hl]
        rintro ⟨_, rfl⟩; rw [he] at hl; injection hl with hl; injection hl with hl _; exact hne hl.symm
  | remove c old hc he hcur' =>
    refine ⟨hok.remove .., ?_, ?_, ?_⟩
    · intro c' hc' v' hl
      rw [live_remove] at hl
      split at hl
      · exact absurd hl (by simp)
      · rename_i hne
        exact hne ⟨rfl, hok.inj r c' c _ _ hr hc' hc hl he rfl⟩
    · intro r' c' hr' hc' hne; rw [live_remove, if_neg (by simp [hne])]
    · intro k' x hne hx
      cases x with
      | none =>
        intro c' hc' v'
        rw [live_remove]
        split
        · simp
        · exact hx c' hc' v'
      | some v' =>
        obtain ⟨c', hc', hl⟩ := hx
        refine ⟨c', hc', ?_⟩
        rw [live_remove, if_neg, hl]
        rintro ⟨_, rfl⟩; rw [he] at hl; injection hl with hl; injection hl with hl _; exact hne hl.symm

/-! ## The shard invariant -/

/-- Invariant of a shard in memory (no crash in progress): both files are well formed and the rows of the compaction target that
have not been compacted yet are empty. -/
structure Shard.Inv (cfg : Cfg) (s : Shard) : Prop where
  src : FileOK cfg s.lo s.hi s.src
  tgt : ∀ t, s.tgt = some t → FileOK cfg s.lo s.hi t
  cu : ∀ t, s.tgt = some t → t.compactedUpTo ≤ NUM_ROWS
  fresh : ∀ t, s.tgt = some t → ∀ r c, t.compactedUpTo ≤ r → r < NUM_ROWS → c < ROW_WIDTH →
    (t.slot r c).sig = INVALID_SIG

/-- The pair shown at a table position. -/
def Shard.view (s : Shard) (r c : Nat) : Option KV := (s.active r).live r c

theorem Shard.readAt_eq (s : Shard) (r c : Nat) : s.readAt r c = s.view r c := rfl

theorem Shard.Inv.active {cfg s} (h : Shard.Inv cfg s) (r : Nat) : FileOK cfg s.lo s.hi (s.active r) := by
  unfold Shard.active
  cases ht : s.tgt with
  | none => exact h.src
  | some t =>
    simp only
    split
    · exact h.tgt t ht
    · exact h.src

/-- The value of key `k` in the shard. -/
def Shard.val (cfg : Cfg) (s : Shard) (k : Bytes) : Option Bytes := s.get (cfg.ph k) k

theorem Shard.Inv.val {cfg s} (h : Shard.Inv cfg s) (k : Bytes) :
    RowVal (s.active (cfg.ph k).rowSel) (cfg.ph k).rowSel k (s.val cfg k) := by
  obtain ⟨cur, hcur⟩ := RowVal.exists (s.active (cfg.ph k).rowSel) (cfg.ph k).rowSel k
  have := getLoop_eq (h.active (cfg.ph k).rowSel) (cfg.ph k).rowSel_lt hcur
  unfold Shard.val Shard.get
  rw [this]; exact hcur

theorem Shard.Inv.val_of {cfg s} (h : Shard.Inv cfg s) {k : Bytes} {x}
    (hx : RowVal (s.active (cfg.ph k).rowSel) (cfg.ph k).rowSel k x) : s.val cfg k = x :=
  RowVal.unique (h.active _) (cfg.ph k).rowSel_lt (h.val k) hx

theorem Shard.Inv.val_eq_some {cfg s} (h : Shard.Inv cfg s) {k v : Bytes} :
    s.val cfg k = some v ↔ ∃ r c, r < NUM_ROWS ∧ c < ROW_WIDTH ∧ s.view r c = some (k, v) := by
  constructor
  · intro e
    have := h.val k
    rw [e] at this
    obtain ⟨c, hc, hl⟩ := this
    exact ⟨_, c, (cfg.ph k).rowSel_lt, hc, hl⟩
  · rintro ⟨r, c, hr, hc, hl⟩
    have hrow : (cfg.ph k).rowSel = r := (h.active r).row r c (k, v) hr hc hl
    apply h.val_of
    rw [hrow]; exact ⟨c, hc, hl⟩

/-- Applying an effect to the active file. -/
theorem Shard.Inv.effect {cfg : Cfg} {s : Shard} {k : Bytes} {ps new} (h : s.Inv cfg)
    (he : Effect cfg (s.active (cfg.ph k).rowSel) (cfg.ph k).rowSel k (s.val cfg k) ps new)
    (hlo : s.lo ≤ (cfg.ph k).shardSel) (hhi : (cfg.ph k).shardSel < s.hi) :
    (s.runActive (cfg.ph k).rowSel ps).Inv cfg ∧
    ∀ k', (s.runActive (cfg.ph k).rowSel ps).val cfg k' = (Spec.Map.upd (s.val cfg) k new) k' := by
  obtain ⟨e1, e2, e3, e4⟩ := he.ok (h.active _) (h.val k) hlo hhi
  have hcu := he.cu
  have hother : ∀ r' c', r' ≠ (cfg.ph k).rowSel →
    ((s.active (cfg.ph k).rowSel).run ps).slot r' c' = (s.active (cfg.ph k).rowSel).slot r' c' := fun r' c' => he.slot_other
  have hrlt := (cfg.ph k).rowSel_lt
  generalize hrow : (cfg.ph k).rowSel = r at *
  -- the new shard, its active files
  have hact : (s.runActive r ps).active r = (s.active r).run ps := by
    unfold Shard.active Shard.runActive at *
    cases ht : s.tgt with
    | none => simp
    | some t =>
      simp only [ht] at hcu ⊢
      by_cases hlt : r < t.compactedUpTo
      · simp only [if_pos hlt] at hcu ⊢
        simp [hcu, hlt]
      · simp [if_neg hlt]
  have hlive : ∀ r' c, r' < NUM_ROWS → c < ROW_WIDTH → r' ≠ r →
      ((s.runActive r ps).active r').live r' c = (s.active r').live r' c := by
    intro r' c hr' hc hne
    have e3' := e3 r' c hr' hc hne
    unfold Shard.active Shard.runActive at *
    cases ht : s.tgt with
    | none => simp only [ht] at e3' ⊢; exact e3'
    | some t =>
      simp only [ht] at hcu e3' ⊢
      by_cases hlt : r < t.compactedUpTo
      · simp only [if_pos hlt] at hcu e3' ⊢
        simp only [hcu]
        split
        · exact e3'
        · rfl
      · simp only [if_neg hlt] at e3' ⊢
        split
        · rfl
        · exact e3'
  have hspan : (s.runActive r ps).lo = s.lo ∧ (s.runActive r ps).hi = s.hi := by
    unfold Shard.runActive
    cases ht : s.tgt with
    | none => simp
    | some t => simp only; split <;> simp
  have hinv : (s.runActive r ps).Inv cfg := by
    constructor
    · rw [hspan.1, hspan.2]
      unfold Shard.active Shard.runActive at *
      cases ht : s.tgt with
      | none => simp only [ht] at e1 ⊢; exact e1
      | some t =>
        simp only [ht] at e1 ⊢
        by_cases hlt : r < t.compactedUpTo
        · simp only [if_pos hlt]; exact h.src
        · simp only [if_neg hlt] at e1 ⊢; exact e1
    · intro t' ht'
      rw [hspan.1, hspan.2]
      unfold Shard.active Shard.runActive at *
      cases ht : s.tgt with
      | none => simp [ht] at ht'
      | some t =>
        simp only [ht] at e1 ht'
        by_cases hlt : r < t.compactedUpTo
        · simp only [if_pos hlt, Option.some.injEq] at e1 ht'; subst ht'; exact e1
        · simp only [if_neg hlt, Option.some.injEq] at ht'; subst ht'; exact h.tgt t ht
    · intro t' ht'
      unfold Shard.active Shard.runActive at *
      cases ht : s.tgt with
      | none => simp [ht] at ht'
      | some t =>
        simp only [ht] at hcu ht'
        by_cases hlt : r < t.compactedUpTo
        · simp only [if_pos hlt, Option.some.injEq] at hcu ht'; subst ht'; rw [hcu]; exact h.cu t ht
        · simp only [if_neg hlt, Option.some.injEq] at ht'; subst ht'; exact h.cu t ht
    · intro t' ht' r' c hr' hr64 hc
      unfold Shard.active Shard.runActive at *
      cases ht : s.tgt with
      | none => simp [ht] at ht'
      | some t =>
        simp only [ht] at hcu ht' hother
        by_cases hlt : r < t.compactedUpTo
        · simp only [if_pos hlt, Option.some.injEq] at hcu ht' hother; subst ht'
          rw [hcu] at hr'
          rw [hother r' c (by omega)]
          exact h.fresh t ht r' c hr' hr64 hc
        · simp only [if_neg hlt, Option.some.injEq] at ht'; subst ht'
          exact h.fresh t ht r' c hr' hr64 hc
  refine ⟨hinv, fun k' => ?_⟩
  apply hinv.val_of
  have hv' := h.val k'
  have hr' := (cfg.ph k').rowSel_lt
  by_cases hkk : k' = k
  · subst hkk; rw [hrow, hact]; simpa using e2
  · rw [Spec.Map.upd_other _ _ hkk]
    by_cases hrr : (cfg.ph k').rowSel = r
    · rw [hrr] at hv' ⊢; rw [hact]; exact e4 k' _ hkk hv'
    · generalize hv : s.val cfg k' = x at hv'
      generalize (cfg.ph k').rowSel = r' at hv' hr' hrr
      cases x with
      | none => intro c hc v; rw [hlive r' c hr' hc hrr]; exact hv' c hc v
      | some v =>
        obtain ⟨c, hc, hl⟩ := hv'
        exact ⟨c, hc, by rw [hlive r' c hr' hc hrr]; exact hl⟩

theorem Shard.runActive_nil (s : Shard) (r : Nat) : s.runActive r [] = s := by
  unfold Shard.runActive
  cases s with
  | mk lo hi src tgt =>
    cases tgt with
    | none => rfl
    | some t => simp only [run_nil]; split <;> rfl

theorem Shard.beginCompaction_spec {cfg : Cfg} {s : Shard} (h : s.Inv cfg) (off : Nat) :
    (s.beginCompaction off).Inv cfg ∧ (∀ r, (s.beginCompaction off).active r = s.active r) ∧
    (s.beginCompaction off).lo = s.lo ∧ (s.beginCompaction off).hi = s.hi := by
  unfold Shard.beginCompaction
  split
  · exact ⟨h, fun _ => rfl, rfl, rfl⟩
  · cases ht : s.tgt with
    | some t => exact ⟨h, fun _ => rfl, rfl, rfl⟩
    | none =>
      refine ⟨⟨h.src, ?_, ?_, ?_⟩, ?_, rfl, rfl⟩
      · intro t e; simp at e; subst e; exact FileOK.empty ..
      · intro t e; simp at e; subst e; simp [MFile.empty]
      · intro t e; simp at e; subst e; intros; rfl
      · intro r; simp [Shard.active, ht, MFile.empty]

theorem Shard.val_congr {cfg : Cfg} {s s' : Shard} (h : ∀ r, s.active r = s'.active r) (k : Bytes) :
    s.val cfg k = s'.val cfg k := by
  unfold Shard.val Shard.get; rw [h]

/-- `Shard::insert` refines the ideal map unless it asks for a split; in that case nothing changes. -/
theorem Shard.insert_spec {cfg : Cfg} {s : Shard} {k v : Bytes} {mode : Mode} (h : s.Inv cfg)
    (hsmall : (s.active (cfg.ph k).rowSel).writeOff < 4294967296) (hk : k.length < 65536) (hv : v.length < 65536)
    (hlo : s.lo ≤ (cfg.ph k).shardSel) (hhi : (cfg.ph k).shardSel < s.hi) :
    let s' := (s.insert cfg (cfg.ph k) k v mode).1
    let st := (s.insert cfg (cfg.ph k) k v mode).2
    s'.Inv cfg ∧ s'.lo = s.lo ∧ s'.hi = s.hi ∧
    ((st = .splitNeeded ∧ (∀ k', s'.val cfg k' = s.val cfg k') ∧ NeedsSplit cfg s (cfg.ph k).rowSel k v) ∨
     (st = (Spec.insertAt (s.val cfg k) v mode).2 ∧
      ∀ k', s'.val cfg k' = Spec.Map.upd (s.val cfg) k (Spec.insertAt (s.val cfg k) v mode).1 k')) := by
  intro s' st
  have hspan : ∀ ps, (s.runActive (cfg.ph k).rowSel ps).lo = s.lo ∧ (s.runActive (cfg.ph k).rowSel ps).hi = s.hi := by
    intro ps
    unfold Shard.runActive
    cases ht : s.tgt with
    | none => simp
    | some t => simp only; split <;> simp
  have hplan := insertPlan_spec (mode := mode) (h.active (cfg.ph k).rowSel) (h.val k) hk hv hsmall
  have hs' : s' = (match (s.insertPlan cfg (cfg.ph k) k v mode).2.2 with
    | some off => (s.runActive (cfg.ph k).rowSel (s.insertPlan cfg (cfg.ph k) k v mode).1).beginCompaction off
    | none => s.runActive (cfg.ph k).rowSel (s.insertPlan cfg (cfg.ph k) k v mode).1) := rfl
  have hst : st = (s.insertPlan cfg (cfg.ph k) k v mode).2.1 := rfl
  generalize s.insertPlan cfg (cfg.ph k) k v mode = p at hplan hs' hst
  obtain ⟨ps, st0, sc⟩ := p
  simp only at hplan hs' hst
  -- reduce to the shard before `begin_compaction`
  suffices hmain : (s.runActive (cfg.ph k).rowSel ps).Inv cfg ∧
      ((st = .splitNeeded ∧ (∀ k', (s.runActive (cfg.ph k).rowSel ps).val cfg k' = s.val cfg k') ∧
          NeedsSplit cfg s (cfg.ph k).rowSel k v) ∨
       (st = (Spec.insertAt (s.val cfg k) v mode).2 ∧
        ∀ k', (s.runActive (cfg.ph k).rowSel ps).val cfg k'
          = Spec.Map.upd (s.val cfg) k (Spec.insertAt (s.val cfg k) v mode).1 k')) by
    obtain ⟨hi, hm⟩ := hmain
    cases sc with
    | none => simp only at hs'; rw [hs']; exact ⟨hi, (hspan ps).1, (hspan ps).2, hm⟩
    | some off =>
      simp only at hs'
      obtain ⟨b1, b2, b3, b4⟩ := Shard.beginCompaction_spec hi off
      rw [hs']
      refine ⟨b1, b3.trans (hspan ps).1, b4.trans (hspan ps).2, ?_⟩
      have hval := fun k' => Shard.val_congr (cfg := cfg) b2 k'
      simp only [hval]
      exact hm
  rcases hplan with ⟨h1, h2, h3⟩ | ⟨h1, h2⟩
  · subst h2
    rw [Shard.runActive_nil]
    exact ⟨h, Or.inl ⟨hst.trans h1, fun _ => rfl, h3⟩⟩
  · obtain ⟨e1, e2⟩ := h.effect h2 hlo hhi
    exact ⟨e1, Or.inr ⟨hst.trans h1, e2⟩⟩

/-- `Shard::remove` refines the ideal map. -/
theorem Shard.remove_spec {cfg : Cfg} {s : Shard} {k : Bytes} (h : s.Inv cfg)
    (hlo : s.lo ≤ (cfg.ph k).shardSel) (hhi : (cfg.ph k).shardSel < s.hi) :
    let s' := (s.remove (cfg.ph k) k).1
    s'.Inv cfg ∧ s'.lo = s.lo ∧ s'.hi = s.hi ∧ (s.remove (cfg.ph k) k).2 = s.val cfg k ∧
    ∀ k', s'.val cfg k' = Spec.Map.upd (s.val cfg) k none k' := by
  intro s'
  obtain ⟨h1, h2⟩ := removePlan_spec (h.active (cfg.ph k).rowSel) (h.val k)
  obtain ⟨e1, e2⟩ := h.effect h2 hlo hhi
  refine ⟨e1, ?_, ?_, h1, e2⟩
  · show (s.runActive _ _).lo = _
    unfold Shard.runActive
    cases ht : s.tgt with
    | none => simp
    | some t => simp only; split <;> simp
  · show (s.runActive _ _).hi = _
    unfold Shard.runActive
    cases ht : s.tgt with
    | none => simp
    | some t => simp only; split <;> simp

end Candy
