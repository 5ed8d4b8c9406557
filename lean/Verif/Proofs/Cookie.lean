import Verif.Model.Cookie
import Verif.Proofs.Iter
/-!
# The iterator from any position
-/
namespace Candy
open Spec

theorem It.scanP_eq (s : Shard) (raw : Bool) : ∀ (n row ent : Nat), (row < NUM_ROWS → ent < ROW_WIDTH) →
    It.scanP s raw n row ent = some (It.scan s raw n row ent)
  | 0, _, _, _ => rfl
  | n + 1, row, ent, h => by
    unfold It.scanP It.scan
    by_cases hr : row < NUM_ROWS
    · have he := h hr
      rw [if_pos hr, if_pos hr, if_neg (by omega)]
      dsimp only
      cases (s.readAt row ent).bind (It.show raw) with
      | some kv => rfl
      | none =>
        dsimp only
        apply It.scanP_eq s raw n
        by_cases hw : ROW_WIDTH ≤ ent + 1
        · rw [if_pos hw, if_pos hw]; intro _; decide
        · rw [if_neg hw, if_neg hw]; intro _; omega
    · rw [if_neg hr, if_neg hr]

theorem It.nextP_eq (t : Tree) : ∀ (n : Nat) (it : It), (it.row < NUM_ROWS → it.ent < ROW_WIDTH) →
    It.nextP t n it = some (It.next t n it)
  | 0, _, _ => rfl
  | n + 1, it, h => by
    unfold It.nextP It.next
    by_cases hs : it.sel < END_OF_SHARDS
    · rw [if_pos hs, if_pos hs]
      dsimp only
      rw [It.scanP_eq _ _ _ _ _ h]
      obtain ⟨a, b, c, e⟩ : ∃ a b c, It.scan (t.find it.sel) it.raw (NUM_ROWS * ROW_WIDTH) it.row it.ent = (a, b, c) := ⟨_, _, _, rfl⟩
      rw [e]
      cases c with
      | some kv => rfl
      | none => exact It.nextP_eq t n _ (fun _ => (by decide : 0 < ROW_WIDTH))
    · rw [if_neg hs, if_neg hs]

theorem It.stepP_eq (t : Tree) (it : It) (h : it.row < NUM_ROWS → it.ent < ROW_WIDTH) : It.stepP t it = some (It.step t it) :=
  It.nextP_eq t _ it h

/-- An entry index out of range is a panic. -/
theorem It.stepP_panic (t : Tree) (it : It) (hs : it.sel < END_OF_SHARDS) (hr : it.row < NUM_ROWS) (he : ROW_WIDTH ≤ it.ent) :
    It.stepP t it = none := by
  have e : It.scanP (t.find it.sel) it.raw (NUM_ROWS * ROW_WIDTH) it.row it.ent = none := by
    obtain ⟨m, hm⟩ : ∃ m, NUM_ROWS * ROW_WIDTH = m + 1 := ⟨NUM_ROWS * ROW_WIDTH - 1, by decide⟩
    rw [hm]
    unfold It.scanP
    rw [if_pos hr, if_pos he]
  unfold It.stepP It.nextP
  rw [if_pos hs]
  dsimp only
  rw [e]

theorem It.collectP_eq {cfg ex t} (h : Tree.OK cfg ex 0 END_OF_SHARDS t) : ∀ (n : Nat) (it : It), It.OK t it →
    It.collectP t n it = some (It.collect t n it)
  | 0, _, _ => rfl
  | n + 1, it, hit => by
    unfold It.collectP It.collect
    rw [It.stepP_eq t it (fun _ => hit.pos.1)]
    have hs := It.step_spec h hit
    cases hr : It.rest t it with
    | nil =>
      rw [hr] at hs
      obtain ⟨a, b, e⟩ : ∃ a b, It.step t it = (a, b) := ⟨_, _, rfl⟩
      rw [e] at hs ⊢
      have hb : b = none := hs.1
      rw [hb]
    | cons kv l =>
      rw [hr] at hs
      obtain ⟨it', e, _, h2, _⟩ := hs
      rw [e]
      dsimp only
      rw [It.collectP_eq h n it' h2]
      rfl

/-- The position of an iterator, normalised: the shard's own start, the end of the shard if the row is out of range. -/
def It.norm (t : Tree) (it : It) : It :=
  ⟨(t.find it.sel).lo, if it.row < NUM_ROWS then it.row else NUM_ROWS, if it.row < NUM_ROWS then it.ent else 0, it.raw⟩

theorem Tree.OK.find_start {cfg ex lo hi t} (h : Tree.OK cfg ex lo hi t) {sel : Nat} (hs : inSpan lo hi sel) :
    t.find (t.find sel).lo = t.find sel := by
  have hf := h.find hs
  have hc := h.chain.ge _ hf.2.2.2
  have hs' : inSpan lo hi (t.find sel).lo := ⟨hc.1, by have := hf.1.1; have := hs.2; omega⟩
  have hf' := h.find hs'
  have ho := h.chain.ordered
  refine Classical.byContradiction (fun hne => ?_)
  have key : ∀ l : List Shard, l.Pairwise (fun a b => a.hi ≤ b.lo) → ∀ a b, a ∈ l → b ∈ l → a ≠ b → a.hi ≤ b.lo ∨ b.hi ≤ a.lo := by
    intro l hl
    induction l with
    | nil => simp
    | cons x l ih =>
      intro a b ha hb hab
      rw [List.pairwise_cons] at hl
      rcases List.mem_cons.1 ha with ea | ha
      · rcases List.mem_cons.1 hb with eb | hb
        · exact absurd (ea.trans eb.symm) hab
        · rw [ea]; exact Or.inl (hl.1 b hb)
      · rcases List.mem_cons.1 hb with eb | hb
        · rw [eb]; exact Or.inr (hl.1 a ha)
        · exact ih hl.2 a b ha hb hab
  rcases key _ ho _ _ hf'.2.2.2 hf.2.2.2 hne with h1 | h1
  · have := hf'.1.2; omega
  · have := hf'.1.1; have := hf.1.1; have := hf.1.2; omega

theorem It.norm_ok {cfg ex t} (h : Tree.OK cfg ex 0 END_OF_SHARDS t) {it : It} (hs : it.sel < END_OF_SHARDS)
    (hp : it.row < NUM_ROWS → it.ent < ROW_WIDTH) : It.OK t (It.norm t it) ∧ (It.norm t it).sel < END_OF_SHARDS := by
  have hf := h.find (sel := it.sel) ⟨Nat.zero_le _, hs⟩
  have hlt : (t.find it.sel).lo < END_OF_SHARDS := by have := hf.1.1; omega
  refine ⟨⟨?_, Nat.le_of_lt hlt, fun _ => ?_⟩, hlt⟩
  · unfold It.norm PosOK
    dsimp only
    by_cases hr : it.row < NUM_ROWS
    · rw [if_pos hr, if_pos hr]; exact ⟨hp hr, Nat.le_of_lt hr, fun e => by omega⟩
    · rw [if_neg hr, if_neg hr]; exact ⟨by decide, Nat.le_refl _, fun _ => rfl⟩
  · unfold It.norm
    dsimp only
    rw [h.find_start ⟨Nat.zero_le _, hs⟩]

theorem It.scan_past (s : Shard) (raw : Bool) : ∀ (n row ent : Nat), NUM_ROWS ≤ row → It.scan s raw n row ent = (row, ent, none)
  | 0, _, _, _ => rfl
  | n + 1, row, ent, h => by unfold It.scan; rw [if_neg (by omega)]

theorem It.step_norm {cfg ex t} (h : Tree.OK cfg ex 0 END_OF_SHARDS t) {it : It} (hs : it.sel < END_OF_SHARDS) :
    It.step t it = It.step t (It.norm t it) := by
  have hf := h.find (sel := it.sel) ⟨Nat.zero_le _, hs⟩
  have hlt : (It.norm t it).sel < END_OF_SHARDS := by
    show (t.find it.sel).lo < END_OF_SHARDS
    have := hf.1.1; omega
  have hfix : t.find (It.norm t it).sel = t.find it.sel := h.find_start ⟨Nat.zero_le _, hs⟩
  unfold It.step It.next
  rw [if_pos hs, if_pos hlt, hfix]
  dsimp only
  show _ = (match It.scan (t.find it.sel) it.raw (NUM_ROWS * ROW_WIDTH) (if it.row < NUM_ROWS then it.row else NUM_ROWS)
    (if it.row < NUM_ROWS then it.ent else 0) with
      | (row, ent, some kv) => ((⟨(t.find it.sel).lo, row, ent, it.raw⟩ : It), some kv)
      | (_, _, none) => It.next t END_OF_SHARDS ⟨(t.find it.sel).hi, 0, 0, it.raw⟩)
  by_cases hr : it.row < NUM_ROWS
  · rw [if_pos hr, if_pos hr]; rfl
  · rw [if_neg hr, if_neg hr, It.scan_past _ _ _ _ _ (by omega), It.scan_past _ _ _ _ _ (Nat.le_refl _)]

theorem It.collectP_norm {cfg ex t} (h : Tree.OK cfg ex 0 END_OF_SHARDS t) {it : It} (hs : it.sel < END_OF_SHARDS)
    (hp : it.row < NUM_ROWS → it.ent < ROW_WIDTH) (n : Nat) : It.collectP t n it = It.collectP t n (It.norm t it) := by
  cases n with
  | zero => rfl
  | succ n =>
    have hn := (It.norm_ok h hs hp).1
    unfold It.collectP
    rw [It.stepP_eq t it hp, It.stepP_eq t _ (fun _ => hn.pos.1), It.step_norm h hs]

/-- The pairs from a position on are a final part of the shard's pairs. -/
theorem Shard.remFrom_suffix (s : Shard) {row ent : Nat} (hp : PosOK row ent) : ∃ p, s.pairs = p ++ s.remFrom row ent := by
  obtain ⟨h1, h2, _⟩ := hp
  have hrows : s.pairs = (List.range' 0 row).flatMap (fun r => (s.active r).liveRow r) ++ s.rowsFrom row := by
    have e : List.range' 0 NUM_ROWS = List.range' 0 row ++ List.range' row (NUM_ROWS - row) := by
      have := List.range'_append_1 (s := 0) (m := row) (n := NUM_ROWS - row)
      rw [Nat.zero_add, Nat.add_sub_cancel' h2] at this
      exact this.symm
    unfold Shard.pairs Shard.rowsFrom
    rw [List.range_eq_range', e, List.flatMap_append]
  by_cases hr : row < NUM_ROWS
  · have e : List.range' 0 ROW_WIDTH = List.range' 0 ent ++ List.range' ent (ROW_WIDTH - ent) := by
      have := List.range'_append_1 (s := 0) (m := ent) (n := ROW_WIDTH - ent)
      rw [Nat.zero_add, Nat.add_sub_cancel' (Nat.le_of_lt h1)] at this
      exact this.symm
    refine ⟨(List.range' 0 row).flatMap (fun r => (s.active r).liveRow r) ++ (List.range' 0 ent).filterMap (s.view row), ?_⟩
    rw [hrows, s.rowsFrom_succ hr, liveRow_view, e, List.filterMap_append]
    unfold Shard.remFrom
    rw [if_pos hr]
    simp only [List.append_assoc]
  · exact ⟨s.pairs, by rw [Shard.remFrom_end s (by omega), List.append_nil]⟩

theorem restFrom_suffix {lo hi : Nat} {l : List Shard} (h : Chain lo hi l) (sel : Nat) :
    ∃ p, l.flatMap Shard.pairs = p ++ restFrom l sel := by
  induction h with
  | nil => exact ⟨[], rfl⟩
  | @cons lo hi x l hlo hle h ih =>
    by_cases hx : sel ≤ x.lo
    · refine ⟨[], ?_⟩
      rw [List.nil_append, restFrom_all]
      intro y hy
      rcases List.mem_cons.1 hy with rfl | hy
      · exact hx
      · have := (h.ge y hy).1; omega
    · obtain ⟨p, e⟩ := ih
      refine ⟨x.pairs ++ p, ?_⟩
      rw [restFrom_cons_skip (Or.inl (by omega)), List.flatMap_cons, e, List.append_assoc]

theorem It.rest_suffix {cfg ex t} (h : Tree.OK cfg ex 0 END_OF_SHARDS t) {it : It} (hit : It.OK t it) (hs : it.sel < END_OF_SHARDS) :
    ∃ p, It.rest t (It.new it.raw) = p ++ It.rest t it := by
  obtain ⟨h1, _, _, h4⟩ := h.find (sel := it.sel) ⟨Nat.zero_le _, hs⟩
  obtain ⟨p1, e1⟩ := restFrom_suffix h.chain (t.find it.sel).lo
  obtain ⟨p2, e2⟩ := (t.find it.sel).remFrom_suffix hit.pos
  have e3 := restFrom_shard h.chain (fun s hs e => (h.leaf_inv s hs).1.empty_span e) h4 (by have := h1.1; have := h1.2; omega)
  refine ⟨(p1 ++ p2).filterMap (It.show it.raw), ?_⟩
  rw [It.rest_new h]
  have e4 : t.pairs = (p1 ++ p2) ++ ((t.find it.sel).remFrom it.row it.ent ++ restFrom t.leaves (t.find it.sel).hi) := by
    show t.leaves.flatMap Shard.pairs = _
    rw [e1, e3, e2]
    simp only [List.append_assoc]
  rw [e4, List.filterMap_append]
  conv => rhs; unfold It.rest
  rw [if_pos hs]

/-- From any position with a legal entry index: no panic, and a final part of the full iteration. -/
theorem It.collectP_any {cfg ex t} (h : Tree.OK cfg ex 0 END_OF_SHARDS t) {it : It} (hs : it.sel < END_OF_SHARDS)
    (hp : it.row < NUM_ROWS → it.ent < ROW_WIDTH) :
    ∃ p L', It.rest t (It.new it.raw) = p ++ L' ∧ ∀ n, L'.length < n → It.collectP t n it = some L' := by
  obtain ⟨h1, h2⟩ := It.norm_ok h hs hp
  obtain ⟨p, e⟩ := It.rest_suffix h h1 h2
  refine ⟨p, It.rest t (It.norm t it), e, fun n hn => ?_⟩
  rw [It.collectP_norm h hs hp, It.collectP_eq h n _ h1, It.collect_spec h n _ h1 hn]

theorem It.fromCookie_sel (c : BitVec 64) (raw : Bool) : (It.fromCookie c raw).sel < END_OF_SHARDS := by
  show ((c >>> 32) &&& 0xffff#64).toNat < 65536
  rw [BitVec.toNat_and]
  show (c >>> 32).toNat &&& (2 ^ 16 - 1) < _
  rw [Nat.and_two_pow_sub_one_eq_mod]
  exact Nat.mod_lt _ (by decide)

/-! ## While other threads modify the store -/

theorem It.scanA_ok (read : Nat → Nat → Nat → Option KV) (raw : Bool) : ∀ (n row ent : Nat), (row < NUM_ROWS → ent < ROW_WIDTH) →
    ∃ a b c, It.scanA read raw n row ent = some (a, b, c) ∧ (a < NUM_ROWS → b < ROW_WIDTH)
  | 0, row, ent, h => ⟨row, ent, none, rfl, h⟩
  | n + 1, row, ent, h => by
    unfold It.scanA
    by_cases hr : row < NUM_ROWS
    · have he := h hr
      rw [if_pos hr, if_neg (by omega)]
      have hn : (if ROW_WIDTH ≤ ent + 1 then row + 1 else row) < NUM_ROWS → (if ROW_WIDTH ≤ ent + 1 then 0 else ent + 1) < ROW_WIDTH := by
        by_cases hw : ROW_WIDTH ≤ ent + 1
        · rw [if_pos hw, if_pos hw]; intro _; decide
        · rw [if_neg hw, if_neg hw]; intro _; omega
      dsimp only
      cases (read n row ent).bind (It.show raw) with
      | some kv => exact ⟨_, _, _, rfl, hn⟩
      | none => exact It.scanA_ok read raw n _ _ hn
    · rw [if_neg hr]; exact ⟨row, ent, none, rfl, h⟩

theorem It.nextA_ok (lo hi : Nat → Nat) (read : Nat → Nat → Nat → Nat → Option KV) : ∀ (n : Nat) (it : It), (it.row < NUM_ROWS → it.ent < ROW_WIDTH) →
    ∃ it' r, It.nextA lo hi read n it = some (it', r) ∧ (it'.row < NUM_ROWS → it'.ent < ROW_WIDTH)
  | 0, it, h => ⟨it, none, rfl, h⟩
  | n + 1, it, h => by
    unfold It.nextA
    by_cases hs : it.sel < END_OF_SHARDS
    · rw [if_pos hs]
      obtain ⟨a, b, c, e, h1⟩ := It.scanA_ok (read n) it.raw (NUM_ROWS * ROW_WIDTH) it.row it.ent h
      rw [e]
      cases c with
      | some kv => exact ⟨_, _, rfl, h1⟩
      | none => exact It.nextA_ok lo hi read n _ (fun _ => (by decide : 0 < ROW_WIDTH))
    · rw [if_neg hs]; exact ⟨it, none, rfl, h⟩

theorem It.callsA_ok (lo hi : Nat → Nat → Nat) (read : Nat → Nat → Nat → Nat → Nat → Option KV) (fuel : Nat → Nat) : ∀ (m : Nat) (it : It),
    (it.row < NUM_ROWS → it.ent < ROW_WIDTH) → (It.callsA lo hi read fuel m it).isSome
  | 0, _, _ => rfl
  | m + 1, it, h => by
    obtain ⟨it', r, e, h1⟩ := It.nextA_ok (lo m) (hi m) (read m) (fuel m) it h
    unfold It.callsA
    rw [e]
    exact It.callsA_ok lo hi read fuel m it' h1

/-- On a store that does not change, these are the calls of `It.nextP`. -/
theorem It.scanA_quiet (s : Shard) (raw : Bool) : ∀ (n row ent : Nat), It.scanA (fun _ => s.readAt) raw n row ent = It.scanP s raw n row ent
  | 0, _, _ => rfl
  | n + 1, row, ent => by
    unfold It.scanA It.scanP
    by_cases hr : row < NUM_ROWS
    · rw [if_pos hr, if_pos hr]
      by_cases he : ROW_WIDTH ≤ ent
      · rw [if_pos he, if_pos he]
      · rw [if_neg he, if_neg he]
        dsimp only
        cases (s.readAt row ent).bind (It.show raw) with
        | some kv => rfl
        | none => exact It.scanA_quiet s raw n _ _
    · rw [if_neg hr, if_neg hr]

end Candy
