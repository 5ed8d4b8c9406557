import Verif.Proofs.Cookie
import Verif.Props.Iter
/-!
# C87: `iter_from_cookie` with any number
-/
namespace Candy.Props
open Candy.Spec

/-- Two of the three 16-bit fields of a cookie: bits 16-31 are the row and bits 0-15 the entry (bits 32-47 are the shard selector). -/
def cookieRow (c : BitVec 64) : Nat := c.toNat / 2 ^ 16 % 65536
def cookieEntry (c : BitVec 64) : Nat := c.toNat % 65536

theorem fromCookie_row (c : BitVec 64) (raw : Bool) : (It.fromCookie c raw).row = cookieRow c := by
  show ((c >>> 16) &&& 0xffff#64).toNat = _
  rw [BitVec.toNat_and, BitVec.toNat_ushiftRight, Nat.shiftRight_eq_div_pow]
  show c.toNat / 2 ^ 16 &&& (2 ^ 16 - 1) = _
  rw [Nat.and_two_pow_sub_one_eq_mod]; rfl

theorem fromCookie_ent (c : BitVec 64) (raw : Bool) : (It.fromCookie c raw).ent = cookieEntry c := by
  show (c &&& 0xffff#64).toNat = _
  rw [BitVec.toNat_and]
  show c.toNat &&& (2 ^ 16 - 1) = _
  rw [Nat.and_two_pow_sub_one_eq_mod]; rfl

/-- **C87**, for every number whose low 16 bits are below 512 (or whose bits 16-31 are at least 64), in every reachable store, whatever
store the number comes from: iterating from it does not panic, ends, and returns a final part of what a full iteration returns - so
nothing twice and nothing that is not in the store. Missing: the other numbers, for which it is false (`C87_refuted`). -/
theorem C87_any_cookie_partial {cfg : Cfg} {es : List Event} {t : Tree} (h : Reachable cfg es t) (c : BitVec 64)
    (hc : cookieEntry c < 512 ∨ 64 ≤ cookieRow c) :
    ∃ pre L' : List KV, (∃ N, ∀ n, N ≤ n → It.collectP t n (It.new false) = some (pre ++ L')) ∧
      ∃ N, ∀ n, N ≤ n → It.collectP t n (It.fromCookie c false) = some L' := by
  obtain ⟨w, _, hs, _⟩ := h.world
  have hp : (It.fromCookie c false).row < NUM_ROWS → (It.fromCookie c false).ent < ROW_WIDTH := by
    rw [fromCookie_row, fromCookie_ent]
    intro hr
    have e64 : NUM_ROWS = 64 := rfl
    have e512 : ROW_WIDTH = 512 := rfl
    omega
  obtain ⟨p, L', e, h1⟩ := It.collectP_any hs.ok (It.fromCookie_sel c false) hp
  have hnew := It.OK.new hs.ok false
  refine ⟨p, L', ⟨(p ++ L').length + 1, fun n hn => ?_⟩, ⟨L'.length + 1, fun n hn => h1 n (by omega)⟩⟩
  have e' : It.rest t (It.new false) = p ++ L' := e
  rw [It.collectP_eq hs.ok n _ hnew, It.collect_spec hs.ok n _ hnew (by rw [e']; omega), e']

/-- **C87 is false for the other numbers**: in *every* store (reachable or not), the first `next` of an iterator made from a number with
low 16 bits of at least 512 and bits 16-31 below 64 indexes the signatures of a row out of bounds and panics; `iter_from_cookie` does
not check its argument. -/
theorem C87_refuted (t : Tree) (c : BitVec 64) (h1 : 512 ≤ cookieEntry c) (h2 : cookieRow c < 64) :
    It.stepP t (It.fromCookie c false) = none := by
  apply It.stepP_panic t _ (It.fromCookie_sel c false)
  · rw [fromCookie_row]; exact h2
  · rw [fromCookie_ent]; exact h1

/-- **C87**, the numbers the library itself gives out: a cookie taken in one reachable store (after any number of calls of `next`, also
after the end) and used in any other reachable store - the same one after splits, compactions, merges and modifications, or a different
database - makes an iterator that does not panic, ends, and returns a final part of a full iteration of that store. -/
theorem C87_library_cookies {cfg cfg2 : Cfg} {es es2 : List Event} {t t2 : Tree} (h : Reachable cfg es t) (h2 : Reachable cfg2 es2 t2)
    (k : Nat) :
    ∃ pre L' : List KV, (∃ N, ∀ n, N ≤ n → It.collectP t2 n (It.new false) = some (pre ++ L')) ∧
      ∃ N, ∀ n, N ≤ n → It.collectP t2 n (It.fromCookie (It.after t k (It.new false)).cookie false) = some L' := by
  refine C87_any_cookie_partial h2 _ (Or.inl ?_)
  obtain ⟨w, _, hs, _⟩ := h.world
  have key : ∀ (n : Nat) (it : It), It.OK t it → It.OK t (It.after t n it) := by
    intro n
    induction n with
    | zero => exact fun it hit => hit
    | succ n ih =>
      intro it hit
      refine ih _ ?_
      have hst := It.step_spec hs.ok hit
      cases hr : It.rest t it with
      | nil =>
        rw [hr] at hst
        rw [hst.2]
        by_cases hlt : it.sel < END_OF_SHARDS
        · rw [if_pos hlt, if_pos hlt]
          exact ⟨posOK_zero, Nat.le_refl _, fun hx => absurd hx (Nat.lt_irrefl _)⟩
        · rw [if_neg hlt, if_neg hlt]
          exact ⟨hit.pos, Nat.le_refl _, fun hx => absurd hx (Nat.lt_irrefl _)⟩
      | cons kv l =>
        rw [hr] at hst
        obtain ⟨it', e, _, h3, _⟩ := hst
        rw [e]
        exact h3
  have hok := key k _ (It.OK.new hs.ok false)
  generalize It.after t k (It.new false) = it at hok
  have he : it.ent < 512 := hok.pos.1
  have hand : ∀ n : Nat, (BitVec.ofNat 64 n &&& 0xffff#64).toNat = n % 65536 := by
    intro n
    rw [BitVec.toNat_and, BitVec.toNat_ofNat]
    show n % 18446744073709551616 &&& (2 ^ 16 - 1) = _
    rw [Nat.and_two_pow_sub_one_eq_mod]; omega
  have hsh : ∀ (x k : Nat), x * 2 ^ (16 + k) % 2 ^ 64 % 2 ^ 16 = 0 := by
    intro x k
    rw [Nat.mod_mod_of_dvd _ (by decide), Nat.pow_add, Nat.mul_comm (2 ^ 16), ← Nat.mul_assoc]
    exact Nat.mul_mod_left _ _
  show it.cookie.toNat % 2 ^ 16 < 512
  unfold It.cookie
  rw [BitVec.toNat_or, BitVec.toNat_or, Nat.or_mod_two_pow, Nat.or_mod_two_pow, BitVec.toNat_shiftLeft, BitVec.toNat_shiftLeft,
    Nat.shiftLeft_eq, Nat.shiftLeft_eq, hsh _ 16, hsh _ 0, Nat.or_self, Nat.zero_or, hand]
  omega

/-- **C87**, while other threads read, write, split, merge and clear: with a number as in `C87_any_cookie_partial`, no call of `next` ever
indexes a row out of bounds, whatever shards and pairs the calls find (`lo`, `hi`, `read` are arbitrary, and different for each call `m`
and each shard visited; `fuel m` bounds the number of shards visited by a call). -/
theorem C87_no_panic_while_changing (c : BitVec 64) (hc : cookieEntry c < 512 ∨ 64 ≤ cookieRow c) (lo hi : Nat → Nat → Nat)
    (read : Nat → Nat → Nat → Nat → Nat → Option KV) (fuel : Nat → Nat) (m : Nat) :
    ∃ it, It.callsA lo hi read fuel m (It.fromCookie c false) = some it := by
  have := It.callsA_ok lo hi read fuel m (It.fromCookie c false) (by
    rw [fromCookie_row, fromCookie_ent]
    intro hr
    have e64 : NUM_ROWS = 64 := rfl
    have e512 : ROW_WIDTH = 512 := rfl
    omega)
  exact Option.isSome_iff_exists.1 this

/-- Not vacuous: with a number of the other kind the first call that visits a shard panics. -/
example (lo hi : Nat → Nat → Nat) (read : Nat → Nat → Nat → Nat → Nat → Option KV) :
    It.callsA lo hi read (fun _ => 1) 1 (It.fromCookie 0xffff#64 false) = none := by
  have hs : (It.fromCookie 0xffff#64 false).sel < END_OF_SHARDS := by decide
  have hr : (It.fromCookie 0xffff#64 false).row < NUM_ROWS := by decide
  have he : ROW_WIDTH ≤ (It.fromCookie 0xffff#64 false).ent := by decide
  have e : It.scanA (read 0 0) (It.fromCookie 0xffff#64 false).raw (NUM_ROWS * ROW_WIDTH) (It.fromCookie 0xffff#64 false).row
      (It.fromCookie 0xffff#64 false).ent = none := by
    obtain ⟨k, hk⟩ : ∃ k, NUM_ROWS * ROW_WIDTH = k + 1 := ⟨NUM_ROWS * ROW_WIDTH - 1, by decide⟩
    rw [hk]
    unfold It.scanA
    rw [if_pos hr, if_pos he]
  unfold It.callsA It.nextA
  rw [if_pos hs, e]

/-- Not vacuous: numbers of both kinds, and a store. -/
example : (cookieEntry 0x0000_0007_0009_00ff#64 < 512 ∨ 64 ≤ cookieRow 0x0000_0007_0009_00ff#64) ∧
    (512 ≤ cookieEntry 0x0000_0007_0009_0200#64 ∧ cookieRow 0x0000_0007_0009_0200#64 < 64) := by decide

example : ∃ es t, Reachable demoCfg es t ∧ t.userGet demoCfg [97] = some [98] ∧ It.stepP t (It.fromCookie 0xffff#64 false) = none := by
  obtain ⟨es, t, h, hg, _⟩ := demo_ab
  exact ⟨es, t, h, hg, C87_refuted t _ (by decide) (by decide)⟩

end Candy.Props
