import Verif.Proofs.Pairs
/-!
# The iterator over the whole store
-/
namespace Candy
open Spec

theorem liveRow_view (s : Shard) (r : Nat) : (s.active r).liveRow r = (List.range' 0 ROW_WIDTH).filterMap (s.view r) := by
  rw [liveRow_eq, List.range_eq_range']; exact congrFun rfl _

/-- The pairs of the rows from `row` on. -/
def Shard.rowsFrom (s : Shard) (row : Nat) : List KV := (List.range' row (NUM_ROWS - row)).flatMap (fun r => (s.active r).liveRow r)

theorem Shard.rowsFrom_succ (s : Shard) {row : Nat} (h : row < NUM_ROWS) :
    s.rowsFrom row = (s.active row).liveRow row ++ s.rowsFrom (row + 1) := by
  unfold Shard.rowsFrom
  have e2 : NUM_ROWS - row = (NUM_ROWS - (row + 1)) + 1 := by omega
  rw [e2, List.range'_succ, List.flatMap_cons]

theorem Shard.rowsFrom_end (s : Shard) {row : Nat} (h : NUM_ROWS ≤ row) : s.rowsFrom row = [] := by
  unfold Shard.rowsFrom
  have e2 : NUM_ROWS - row = 0 := by omega
  rw [e2, List.range'_zero, List.flatMap_nil]

/-- The pairs at or after a table position. -/
def Shard.remFrom (s : Shard) (row ent : Nat) : List KV :=
  if row < NUM_ROWS then (List.range' ent (ROW_WIDTH - ent)).filterMap (s.view row) ++ s.rowsFrom (row + 1) else []

theorem Shard.remFrom_end (s : Shard) {row ent : Nat} (h : NUM_ROWS ≤ row) : s.remFrom row ent = [] := by
  unfold Shard.remFrom; rw [if_neg (by omega)]

theorem Shard.remFrom_row (s : Shard) (row : Nat) : s.remFrom row 0 = s.rowsFrom row := by
  unfold Shard.remFrom
  by_cases h : row < NUM_ROWS
  · rw [if_pos h, s.rowsFrom_succ h, liveRow_view, Nat.sub_zero]
  · rw [if_neg h, s.rowsFrom_end (by omega)]

theorem Shard.remFrom_zero (s : Shard) : s.remFrom 0 0 = s.pairs := by
  rw [Shard.remFrom_row]
  unfold Shard.rowsFrom Shard.pairs
  rw [List.range_eq_range', Nat.sub_zero]

/-- One position of the table. -/
theorem Shard.remFrom_step (s : Shard) {row ent : Nat} (hr : row < NUM_ROWS) (he : ent < ROW_WIDTH) :
    s.remFrom row ent = (match s.readAt row ent with | some kv => [kv] | none => []) ++
      s.remFrom (if ROW_WIDTH ≤ ent + 1 then row + 1 else row) (if ROW_WIDTH ≤ ent + 1 then 0 else ent + 1) := by
  have e : ROW_WIDTH - ent = (ROW_WIDTH - (ent + 1)) + 1 := by omega
  have hl : (List.range' ent (ROW_WIDTH - ent)).filterMap (s.view row) =
      (match s.readAt row ent with | some kv => [kv] | none => []) ++ (List.range' (ent + 1) (ROW_WIDTH - (ent + 1))).filterMap (s.view row) := by
    rw [e, List.range'_succ, Shard.readAt_eq]
    cases h : s.view row ent with
    | none => rw [List.filterMap_cons_none h]; rfl
    | some kv => rw [List.filterMap_cons_some h]; rfl
  conv => lhs; unfold Shard.remFrom
  rw [if_pos hr, hl, List.append_assoc]
  congr 1
  by_cases h : ROW_WIDTH ≤ ent + 1
  · rw [if_pos h, if_pos h]
    have e0 : ROW_WIDTH - (ent + 1) = 0 := by omega
    rw [e0, List.range'_zero, List.filterMap_nil, List.nil_append, Shard.remFrom_row]
  · rw [if_neg h, if_neg h]
    conv => rhs; unfold Shard.remFrom
    rw [if_pos hr]

/-- A position an iterator of the library can be at inside a shard. -/
def PosOK (row ent : Nat) : Prop := ent < ROW_WIDTH ∧ row ≤ NUM_ROWS ∧ (row = NUM_ROWS → ent = 0)

theorem posOK_zero : PosOK 0 0 := ⟨by decide, by decide, fun _ => rfl⟩

theorem It.scan_spec (s : Shard) (raw : Bool) : ∀ (n row ent : Nat), PosOK row ent → NUM_ROWS * ROW_WIDTH ≤ n + (row * ROW_WIDTH + ent) →
    match (s.remFrom row ent).filterMap (It.show raw) with
    | [] => (It.scan s raw n row ent).2.2 = none
    | kv :: l => ∃ row' ent', It.scan s raw n row ent = (row', ent', some kv) ∧ (s.remFrom row' ent').filterMap (It.show raw) = l ∧ PosOK row' ent'
  | 0, row, ent, hp, hn => by
    obtain ⟨h1, h2, h3⟩ := hp
    have : NUM_ROWS ≤ row := by
      refine Nat.le_of_not_lt (fun hlt => ?_)
      have : (row + 1) * ROW_WIDTH ≤ NUM_ROWS * ROW_WIDTH := Nat.mul_le_mul_right _ hlt
      rw [Nat.add_mul] at this
      omega
    rw [Shard.remFrom_end s this]; rfl
  | n + 1, row, ent, hp, hn => by
    obtain ⟨h1, h2, h3⟩ := hp
    by_cases hr : row < NUM_ROWS
    · have ih := It.scan_spec s raw n (if ROW_WIDTH ≤ ent + 1 then row + 1 else row) (if ROW_WIDTH ≤ ent + 1 then 0 else ent + 1)
        (by
          unfold PosOK
          by_cases h : ROW_WIDTH ≤ ent + 1
          · rw [if_pos h, if_pos h]; exact ⟨by decide, by omega, fun _ => rfl⟩
          · rw [if_neg h, if_neg h]; exact ⟨by omega, by omega, fun e => by omega⟩)
        (by
          by_cases h : ROW_WIDTH ≤ ent + 1
          · rw [if_pos h, if_pos h, Nat.add_mul]; omega
          · rw [if_neg h, if_neg h]; omega)
      rw [Shard.remFrom_step s hr h1]
      unfold It.scan
      rw [if_pos hr]
      dsimp only
      cases hkv : s.readAt row ent with
      | none =>
        simp only [List.nil_append]
        exact ih
      | some kv =>
        simp only [Option.bind]
        rw [List.filterMap_append]
        cases hs : It.show raw kv with
        | none =>
          rw [List.filterMap_cons_none hs]
          simp only [List.filterMap_nil, List.nil_append]
          exact ih
        | some kv' =>
          rw [List.filterMap_cons_some hs]
          simp only [List.filterMap_nil, List.cons_append, List.nil_append]
          refine ⟨_, _, rfl, rfl, ?_⟩
          unfold PosOK
          by_cases h : ROW_WIDTH ≤ ent + 1
          · rw [if_pos h, if_pos h]; exact ⟨by decide, by omega, fun _ => rfl⟩
          · rw [if_neg h, if_neg h]; exact ⟨by omega, by omega, fun e => by omega⟩
    · rw [Shard.remFrom_end s (by omega)]
      unfold It.scan
      rw [if_neg hr]; rfl

/-- The pairs of the shards from selector `sel` on. -/
def restFrom (l : List Shard) (sel : Nat) : List KV := (l.filter (fun s => decide (sel ≤ s.lo))).flatMap Shard.pairs

theorem restFrom_all {l : List Shard} {sel : Nat} (h : ∀ s ∈ l, sel ≤ s.lo) : restFrom l sel = l.flatMap Shard.pairs := by
  unfold restFrom
  rw [List.filter_eq_self.2 (fun s hs => decide_eq_true (h s hs))]

theorem restFrom_cons_skip {x : Shard} {l : List Shard} {sel : Nat} (h : x.lo < sel ∨ x.pairs = []) : restFrom (x :: l) sel = restFrom l sel := by
  unfold restFrom
  rw [List.filter_cons]
  by_cases h1 : sel ≤ x.lo
  · rw [if_pos (decide_eq_true h1), List.flatMap_cons]
    rcases h with h | h
    · omega
    · rw [h]; rfl
  · rw [if_neg (by simpa using h1)]

theorem restFrom_shard {lo hi : Nat} {l : List Shard} (h : Chain lo hi l) (hd : ∀ s ∈ l, s.lo = s.hi → s.pairs = []) {s : Shard} (hs : s ∈ l)
    (hlt : s.lo < s.hi) : restFrom l s.lo = s.pairs ++ restFrom l s.hi := by
  induction h with
  | nil => simp at hs
  | @cons lo hi x l hlo hle h ih =>
    rcases List.mem_cons.1 hs with rfl | hs
    · rw [restFrom_cons_skip (sel := s.hi) (Or.inl hlt)]
      rw [restFrom_all (l := s :: l)]
      · rw [restFrom_all, List.flatMap_cons]
        intro y hy; exact (h.ge y hy).1
      · intro y hy
        rcases List.mem_cons.1 hy with rfl | hy
        · exact Nat.le_refl _
        · have := (h.ge y hy).1; omega
    · have hg := h.ge s hs
      rw [restFrom_cons_skip, restFrom_cons_skip, ih (fun y hy => hd y (List.mem_cons_of_mem _ hy)) hs]
      · exact Or.inl (by omega)
      · by_cases h1 : x.lo < s.lo
        · exact Or.inl h1
        · exact Or.inr (hd x (List.mem_cons_self ..) (by omega))

theorem Shard.Inv.empty_span {cfg s} (h : Shard.Inv cfg s) (e : s.lo = s.hi) : s.pairs = [] := by
  cases hp : s.pairs with
  | nil => rfl
  | cons kv l =>
    have := h.val_span ((Shard.mem_pairs h).1 (by rw [hp]; exact List.mem_cons_self ..) : s.val cfg kv.1 = some kv.2)
    omega

/-- What an iterator will return. -/
def It.rest (t : Tree) (it : It) : List KV :=
  if it.sel < END_OF_SHARDS then
    ((t.find it.sel).remFrom it.row it.ent ++ restFrom t.leaves (t.find it.sel).hi).filterMap (It.show it.raw)
  else []

/-- An iterator the library can produce. -/
structure It.OK (t : Tree) (it : It) : Prop where
  pos : PosOK it.row it.ent
  sel : it.sel ≤ END_OF_SHARDS
  start : it.sel < END_OF_SHARDS → it.sel = (t.find it.sel).lo

theorem It.rest_start {cfg ex t} (h : Tree.OK cfg ex 0 END_OF_SHARDS t) {sel : Nat} (hs : sel < END_OF_SHARDS) (raw : Bool)
    (hl : sel = (t.find sel).lo) : It.rest t ⟨sel, 0, 0, raw⟩ = (restFrom t.leaves sel).filterMap (It.show raw) := by
  unfold It.rest
  dsimp only
  rw [if_pos hs, Shard.remFrom_zero]
  obtain ⟨h1, _, _, h4⟩ := h.find (sel := sel) ⟨Nat.zero_le _, hs⟩
  conv => rhs; rw [hl]
  rw [restFrom_shard h.chain (fun s hs e => (h.leaf_inv s hs).1.empty_span e) h4 (by have := h1.1; have := h1.2; omega)]

theorem restFrom_top {lo hi : Nat} {l : List Shard} (h : Chain lo hi l) (hd : ∀ s ∈ l, s.lo = s.hi → s.pairs = []) : restFrom l hi = [] := by
  induction h with
  | nil => rfl
  | cons hlo hle h ih =>
    rw [restFrom_cons_skip, ih (fun y hy => hd y (List.mem_cons_of_mem _ hy))]
    rename_i x l
    by_cases e : x.lo < x.hi
    · exact Or.inl (by have := h.le; omega)
    · exact Or.inr (hd x (List.mem_cons_self ..) (by omega))

/-- The shard after a shard. -/
theorem Tree.OK.find_next {cfg ex lo hi t} (h : Tree.OK cfg ex lo hi t) {sel : Nat} (hs : inSpan lo hi sel)
    (hlt : (t.find sel).hi < hi) : (t.find (t.find sel).hi).lo = (t.find sel).hi := by
  have hf := h.find hs
  have hs' : inSpan lo hi (t.find sel).hi := ⟨by have := hs.1; have := hf.1.2; omega, hlt⟩
  have hf' := h.find hs'
  have ho := h.chain.ordered
  -- the shard containing `hi` cannot begin before it
  have hne : t.find (t.find sel).hi ≠ t.find sel := by
    intro e; have := hf'.1.2; rw [e] at this; omega
  have key : ∀ l : List Shard, l.Pairwise (fun a b => a.hi ≤ b.lo) → ∀ a b, a ∈ l → b ∈ l → a ≠ b → a.hi ≤ b.lo ∨ b.hi ≤ a.lo := by
    intro l hl
    induction l with
    | nil => simp
    | cons x l ih =>
      intro a b ha hb hab
      rw [List.pairwise_cons] at hl
      rcases List.mem_cons.1 ha with ea | ha
      · rcases List.mem_cons.1 hb with eb | hb
        · exact absurd (ea.trans eb.symm) hab
        · rw [ea]; exact Or.inl (hl.1 b hb)
      · rcases List.mem_cons.1 hb with eb | hb
        · rw [eb]; exact Or.inr (hl.1 a ha)
        · exact ih hl.2 a b ha hb hab
  rcases key _ ho _ _ hf'.2.2.2 hf.2.2.2 hne with h1 | h1
  · have := hf'.1.2; have := hf.1; have := hf.1.2; have := hf.1.1; omega
  · have := hf'.1.1; omega

theorem It.next_spec {cfg ex t} (h : Tree.OK cfg ex 0 END_OF_SHARDS t) : ∀ (n : Nat) (it : It), It.OK t it → END_OF_SHARDS < n + it.sel →
    match It.rest t it with
    | [] => (It.next t n it).2 = none ∧ (It.next t n it).1 = ⟨END_OF_SHARDS, if it.sel < END_OF_SHARDS then 0 else it.row, if it.sel < END_OF_SHARDS then 0 else it.ent, it.raw⟩
    | kv :: l => ∃ it', It.next t n it = (it', some kv) ∧ It.rest t it' = l ∧ It.OK t it' ∧ it'.sel < END_OF_SHARDS ∧ it'.raw = it.raw
  | 0, it, hit, hn => by have := hit.sel; omega
  | n + 1, it, hit, hn => by
    by_cases hs : it.sel < END_OF_SHARDS
    · obtain ⟨h1, h2, _, h4⟩ := h.find (sel := it.sel) ⟨Nat.zero_le _, hs⟩
      have hsc := It.scan_spec (t.find it.sel) it.raw (NUM_ROWS * ROW_WIDTH) it.row it.ent hit.pos (Nat.le_add_right _ _)
      unfold It.rest
      rw [if_pos hs, List.filterMap_append]
      unfold It.next
      rw [if_pos hs]
      dsimp only
      cases hr : ((t.find it.sel).remFrom it.row it.ent).filterMap (It.show it.raw) with
      | nil =>
        rw [hr] at hsc
        obtain ⟨a, b, c, e⟩ : ∃ a b c, It.scan (t.find it.sel) it.raw (NUM_ROWS * ROW_WIDTH) it.row it.ent = (a, b, c) := ⟨_, _, _, rfl⟩
        rw [e] at hsc
        dsimp only at hsc
        subst hsc
        rw [e]
        dsimp only
        have hhi : (t.find it.sel).hi ≤ END_OF_SHARDS := (h.chain.ge _ h4).2.2
        have ih := It.next_spec h n ⟨(t.find it.sel).hi, 0, 0, it.raw⟩
          ⟨posOK_zero, hhi, fun hlt => (h.find_next ⟨Nat.zero_le _, hs⟩ hlt).symm⟩
          (by have := h1.2; show END_OF_SHARDS < n + (t.find it.sel).hi; omega)
        rw [List.nil_append]
        by_cases hlt : (t.find it.sel).hi < END_OF_SHARDS
        · rw [It.rest_start h hlt it.raw (h.find_next ⟨Nat.zero_le _, hs⟩ hlt).symm] at ih
          revert ih
          split
          · intro ih
            refine ⟨ih.1, ?_⟩
            rw [ih.2, if_pos hs, if_pos hs]
            simp only [ite_self]
          · exact fun ih => ih
        · have e65 : (t.find it.sel).hi = END_OF_SHARDS := by omega
          rw [e65] at ih ⊢
          rw [restFrom_top h.chain (fun s hs e => (h.leaf_inv s hs).1.empty_span e)]
          have er : It.rest t ⟨END_OF_SHARDS, 0, 0, it.raw⟩ = [] := by unfold It.rest; exact if_neg (Nat.lt_irrefl _)
          rw [er] at ih
          dsimp only [List.filterMap_nil]
          refine ⟨ih.1, ?_⟩
          rw [ih.2, if_pos hs, if_pos hs]
          simp only [ite_self]
      | cons kv l =>
        rw [hr] at hsc
        obtain ⟨row', ent', e, hrest, hp⟩ := hsc
        rw [e]
        dsimp only [List.cons_append]
        have hlo : (t.find it.sel).lo < END_OF_SHARDS := by have := h1.1; omega
        have hfix : t.find (t.find it.sel).lo = t.find it.sel := by rw [← hit.start hs]
        refine ⟨_, rfl, ?_, ⟨hp, Nat.le_of_lt hlo, fun _ => by dsimp only; rw [hfix]⟩, hlo, rfl⟩
        dsimp only
        rw [if_pos hlo, hfix, List.filterMap_append, hrest]
    · have e : it.sel = END_OF_SHARDS := by have := hit.sel; omega
      unfold It.rest It.next
      rw [if_neg hs, if_neg hs]
      refine ⟨rfl, ?_⟩
      rw [if_neg hs, if_neg hs, ← e]

theorem It.OK.new {cfg ex t} (h : Tree.OK cfg ex 0 END_OF_SHARDS t) (raw : Bool) : It.OK t (It.new raw) := by
  refine ⟨posOK_zero, Nat.zero_le _, fun _ => ?_⟩
  have := (h.find (sel := 0) ⟨Nat.le_refl _, by decide⟩).1.1
  show 0 = (t.find 0).lo
  omega

theorem It.rest_new {cfg ex t} (h : Tree.OK cfg ex 0 END_OF_SHARDS t) (raw : Bool) :
    It.rest t (It.new raw) = t.pairs.filterMap (It.show raw) := by
  have hz : 0 = (t.find 0).lo := (It.OK.new h raw).start (show 0 < END_OF_SHARDS by decide)
  unfold It.new
  rw [It.rest_start h (by decide) raw hz, restFrom_all (fun s _ => Nat.zero_le _)]
  rfl

/-- One call of `next`. -/
theorem It.step_spec {cfg ex t} (h : Tree.OK cfg ex 0 END_OF_SHARDS t) {it : It} (hit : It.OK t it) :
    match It.rest t it with
    | [] => (It.step t it).2 = none ∧ (It.step t it).1 = ⟨END_OF_SHARDS, if it.sel < END_OF_SHARDS then 0 else it.row, if it.sel < END_OF_SHARDS then 0 else it.ent, it.raw⟩
    | kv :: l => ∃ it', It.step t it = (it', some kv) ∧ It.rest t it' = l ∧ It.OK t it' ∧ it'.sel < END_OF_SHARDS ∧ it'.raw = it.raw :=
  It.next_spec h _ it hit (by omega)

theorem It.collect_spec {cfg ex t} (h : Tree.OK cfg ex 0 END_OF_SHARDS t) : ∀ (n : Nat) (it : It), It.OK t it → (It.rest t it).length < n →
    It.collect t n it = It.rest t it
  | 0, _, _, hn => by omega
  | n + 1, it, hit, hn => by
    have hs := It.step_spec h hit
    unfold It.collect
    cases hr : It.rest t it with
    | nil =>
      rw [hr] at hs
      obtain ⟨a, b, e⟩ : ∃ a b, It.step t it = (a, b) := ⟨_, _, rfl⟩
      rw [e] at hs ⊢
      have hb : b = none := hs.1
      rw [hb]
    | cons kv l =>
      rw [hr] at hs
      obtain ⟨it', e, h1, h2, _⟩ := hs
      rw [e]
      dsimp only
      rw [It.collect_spec h n it' h2 (by rw [hr] at hn; rw [h1]; simp at hn; omega), h1]

theorem It.after_spec {cfg ex t} (h : Tree.OK cfg ex 0 END_OF_SHARDS t) : ∀ (n : Nat) (it : It), It.OK t it → it.sel < END_OF_SHARDS →
    n ≤ (It.rest t it).length → It.OK t (It.after t n it) ∧ (It.after t n it).sel < END_OF_SHARDS ∧
      It.rest t (It.after t n it) = (It.rest t it).drop n ∧ (It.after t n it).raw = it.raw
  | 0, it, hit, hs, _ => ⟨hit, hs, by simp [It.after], rfl⟩
  | n + 1, it, hit, hs, hn => by
    have h1 := It.step_spec h hit
    cases hr : It.rest t it with
    | nil => rw [hr] at hn; simp at hn
    | cons kv l =>
      rw [hr] at h1 hn
      obtain ⟨it', e, h2, h3, h4, h5⟩ := h1
      have ih := It.after_spec h n it' h3 h4 (by rw [h2]; simpa using hn)
      unfold It.after
      rw [e]
      dsimp only
      refine ⟨ih.1, ih.2.1, ?_, ih.2.2.2.trans h5⟩
      rw [ih.2.2.1, h2]; rfl

theorem It.after_succ (t : Tree) : ∀ (n : Nat) (it : It), It.after t (n + 1) it = (It.step t (It.after t n it)).1
  | 0, _ => rfl
  | n + 1, it => by
    show It.after t (n + 1) (It.step t it).1 = _
    rw [It.after_succ t n]
    rfl

/-- A cookie represents the iterator, unless it is exhausted. -/
theorem It.fromCookie_cookie {t : Tree} {it : It} (h : It.OK t it) (hs : it.sel < END_OF_SHARDS) : It.fromCookie it.cookie it.raw = it := by
  obtain ⟨sel, row, ent, raw⟩ := it
  obtain ⟨h1, h2, _⟩ := h.pos
  dsimp only at *
  have e64 : NUM_ROWS = 64 := rfl
  have e512 : ROW_WIDTH = 512 := rfl
  have e65 : END_OF_SHARDS = 65536 := rfl
  have km : ∀ n : Nat, n < 65536 → (BitVec.ofNat 64 n &&& 0xffff#64).toNat = n := by
    intro n hn
    rw [BitVec.toNat_and, BitVec.toNat_ofNat]
    show n % 18446744073709551616 &&& (2 ^ 16 - 1) = n
    rw [Nat.and_two_pow_sub_one_eq_mod]; omega
  have ka : ∀ x : BitVec 64, (x &&& 0xffff#64).toNat = x.toNat % 65536 := by
    intro x
    rw [BitVec.toNat_and]
    show x.toNat &&& (2 ^ 16 - 1) = _
    rw [Nat.and_two_pow_sub_one_eq_mod]
  have hc : (It.cookie ⟨sel, row, ent, raw⟩).toNat = sel * 4294967296 + row * 65536 + ent := by
    unfold It.cookie
    dsimp only
    rw [BitVec.toNat_or, BitVec.toNat_or, BitVec.toNat_shiftLeft, BitVec.toNat_shiftLeft, km sel hs, km row (by omega), km ent (by omega)]
    have h1 : sel <<< 32 % 2 ^ 64 = sel <<< 32 := by
      rw [Nat.shiftLeft_eq]; exact Nat.mod_eq_of_lt (by omega)
    have h2 : row <<< 16 % 2 ^ 64 = row <<< 16 := by
      rw [Nat.shiftLeft_eq]; exact Nat.mod_eq_of_lt (by omega)
    rw [h1, h2, Nat.or_assoc]
    have h3 : row <<< 16 ||| ent = row <<< 16 + ent := (Nat.shiftLeft_add_eq_or_of_lt (by omega) _).symm
    rw [h3]
    have h4 : row <<< 16 + ent < 2 ^ 32 := by rw [Nat.shiftLeft_eq]; omega
    rw [← Nat.shiftLeft_add_eq_or_of_lt h4, Nat.shiftLeft_eq, Nat.shiftLeft_eq]
    omega
  unfold It.fromCookie
  rw [ka, ka, ka, BitVec.toNat_ushiftRight, BitVec.toNat_ushiftRight, Nat.shiftRight_eq_div_pow, Nat.shiftRight_eq_div_pow, hc]
  have g1 : (sel * 4294967296 + row * 65536 + ent) / 2 ^ 32 % 65536 = sel := by omega
  have g2 : (sel * 4294967296 + row * 65536 + ent) / 2 ^ 16 % 65536 = row := by omega
  have g3 : (sel * 4294967296 + row * 65536 + ent) % 65536 = ent := by omega
  rw [g1, g2, g3]

/-- The cookie of an exhausted iterator is the cookie of a new one. -/
theorem It.cookie_exhausted (raw : Bool) : It.fromCookie (It.cookie ⟨END_OF_SHARDS, 0, 0, raw⟩) raw = It.new raw := by
  cases raw <;> decide

/-! ## The recent-events buffer -/

theorem Ring.toList_push {T : Type} {N : Nat} (hN : 0 < N) (d : T) : ∀ (l : List T), 
    (l.foldl (Ring.push N) (Ring.clear d)).idx = l.length ∧
    ∀ i, i < l.length → l.length ≤ i + N → (l.foldl (Ring.push N) (Ring.clear d)).arr (i % N) = l.getD i d := by
  intro l
  suffices H : ∀ n (l : List T), l.length = n → (l.foldl (Ring.push N) (Ring.clear d)).idx = l.length ∧
      ∀ i, i < l.length → l.length ≤ i + N → (l.foldl (Ring.push N) (Ring.clear d)).arr (i % N) = l.getD i d from H _ l rfl
  intro n
  induction n with
  | zero =>
    intro l hl
    rw [List.length_eq_zero_iff] at hl
    subst hl
    exact ⟨rfl, fun i hi => by simp at hi⟩
  | succ n ih =>
    intro l' hl'
    obtain ⟨l, x, rfl⟩ : ∃ l x, l' = l ++ [x] := by
      refine ⟨l'.dropLast, l'.getLast (by intro e; rw [e] at hl'; simp at hl'), (List.dropLast_concat_getLast _).symm⟩
    obtain ⟨h1, h2⟩ := ih l (by simp at hl'; exact hl')
    rw [List.foldl_append]
    refine ⟨by simp [Ring.push, h1], fun i hi hN' => ?_⟩
    simp only [List.foldl_cons, List.foldl_nil, Ring.push, h1]
    rw [List.length_append] at hi hN'
    simp only [List.length_cons, List.length_nil] at hi hN'
    by_cases e : i = l.length
    · subst e; rw [if_pos rfl]; simp
    · rw [if_neg, h2 i (by omega) (by omega)]
      · simp only [List.getD_eq_getElem?_getD]; rw [List.getElem?_append_left (by omega)]
      · intro e'
        have : i < l.length := by omega
        have a := Nat.div_add_mod i N
        have b := Nat.div_add_mod l.length N
        have hm : i % N = l.length % N := e'
        by_cases hd : i / N = l.length / N
        · rw [hd] at a; omega
        · have hlt : i / N < l.length / N := by
            have := Nat.div_le_div_right (c := N) (Nat.le_of_lt this); omega
          have : N * (i / N + 1) ≤ N * (l.length / N) := Nat.mul_le_mul_left N hlt
          rw [Nat.mul_add] at this
          omega

/-- The buffer returns the last `N` events reported since it was cleared, oldest first. -/
theorem Ring.toList_spec {T : Type} {N : Nat} (hN : 0 < N) (d : T) (l : List T) :
    (l.foldl (Ring.push N) (Ring.clear d)).toList N = l.drop (l.length - N) := by
  obtain ⟨h1, h2⟩ := Ring.toList_push hN d l
  unfold Ring.toList
  rw [h1]
  apply List.ext_getElem?
  intro i
  rw [List.getElem?_map, List.getElem?_drop]
  by_cases hi : i < l.length - (l.length - N)
  · rw [List.getElem?_range' hi]
    simp only [Option.map_some, Nat.one_mul]
    rw [h2 _ (by omega) (by omega), List.getD_eq_getElem?_getD, List.getElem?_eq_getElem (by omega)]
    rfl
  · rw [List.getElem?_eq_none (by rw [List.length_range']; omega), List.getElem?_eq_none (by omega)]
    rfl

end Candy
