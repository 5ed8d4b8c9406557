import Verif.Proofs.Cell
import Verif.Props.Parts
/-!
# C80: keys as synchronization primitives
-/
deriving instance DecidableEq for Candy.KvOp

instance (k : Candy.Bytes) (op : Candy.KvOp) : (c : Candy.Call) → Decidable (c = .kv k op)
  | .kv k' op' => if h : k' = k ∧ op' = op then .isTrue (by rw [h.1, h.2]) else .isFalse (fun e => h (by injection e with a b; exact ⟨a, b⟩))
  | .typed .. => .isFalse (fun e => by cases e)
  | .list .. => .isFalse (fun e => by cases e)
  | .queue .. => .isFalse (fun e => by cases e)

instance (k : Candy.Bytes) (op : Candy.KvOp) : (c : Candy.Call) → Decidable (c = .typed k op)
  | .typed k' op' => if h : k' = k ∧ op' = op then .isTrue (by rw [h.1, h.2]) else .isFalse (fun e => h (by injection e with a b; exact ⟨a, b⟩))
  | .kv .. => .isFalse (fun e => by cases e)
  | .list .. => .isFalse (fun e => by cases e)
  | .queue .. => .isFalse (fun e => by cases e)

instance (c : Candy.Call) (op : Candy.KvOp) : (x : Candy.Spec.Cell) → Decidable (c = x.call op)
  | .user k => inferInstanceAs (Decidable (c = .kv k op))
  | .typed k => inferInstanceAs (Decidable (c = .typed k op))

namespace Candy.Props
open Candy.Spec

/-- The value of a key. -/
def _root_.Candy.Tree.value (cfg : Cfg) (t : Tree) : Cell → Option Bytes
  | .user k => t.get cfg (userKey k)
  | .typed k => t.get cfg (typedKey k)

/-- **C80**. After any life of the store, any number of threads make calls of any kind (on lists, queues and other keys too), in any interleaving of their memory accesses with those of the
background compactions and splits. Whatever else happens, each key is an atomic register: the calls on this key (of its own API) can be given moments between their beginning and return, in whose
order they answer as the register does that begins with the key's value at the start of the period; the key's value at any later moment is that of the register after these calls. No other call has any
effect on it. When no call is in progress all of them have taken effect. -/
theorem C80_register {cfg : Cfg} {bs : List Block} {t : Tree} (h : ReachableC cfg bs t) {tr : List CEvent} {S : FState} (hr : FineRun cfg (FState.idle t) tr S) (x : Cell) :
    ∃ ops ph, LinTo (fun _ => .out) (tr.filter x.about) (ops.map (fun o => (x.call o.1, o.2))) ph ∧ Register (x.error cfg) (t.value cfg x) ops (S.tree.value cfg x) ∧
      ∀ i, S.thr i = none → ph i = .out := by
  obtain ⟨A, pen, led, ha, hs⟩ := hr.sim (Sim.idle h.sane.ok)
  obtain ⟨ops, ph, g1, g2, g3⟩ := ha.cell x (fun _ => .out) (fun i => rfl)
  refine ⟨ops, ph, g1, ?_, fun i hi => ?_⟩
  · rw [hs.map] at g2
    cases x <;> exact g2
  · have k := hs.thr i
    rw [hi] at k
    have k : A.thr i = none := k
    have := g3 i
    rw [k] at this
    exact this

/-! ### Counting -/

theorem linTo_count {ph ph' : Nat → Phase} {tr : List CEvent} {ops : List (Call × Res Resp)} (h : LinTo ph tr ops ph') (P : Call × Res Resp → Bool) :
    ∀ N, (∀ i c, CEvent.inv i c ∈ tr → i < N) → (∀ i, ph i ≠ .out → i < N) →
      tr.countP (retOf P) + sumTo N (fun i => Phase.rem P (ph' i)) = ops.countP P + sumTo N (fun i => Phase.rem P (ph i)) := by
  have keep : ∀ {ph : Nat → Phase} {i N : Nat} {x : Phase}, i < N → (∀ j, ph j ≠ .out → j < N) → ∀ j, setN ph i x j ≠ .out → j < N := by
    intro ph i N x hi h j hj
    by_cases e : j = i
    · rw [e]; exact hi
    · rw [setN_other _ _ e] at hj; exact h j hj
  induction h with
  | nil ph => intro N _ _; simp
  | @inv ph ph' tr ops i c h rest ih =>
    intro N h1 h2
    have hi := h1 i c List.mem_cons_self
    have g := ih N (fun j d hm => h1 j d (List.mem_cons_of_mem _ hm)) (keep hi h2)
    have u := sumTo_upd (Phase.rem P) ph i (.called c) hi
    rw [h] at u
    simp only [rem_out, rem_called, rem_effect, Nat.add_zero] at u
    rw [List.countP_cons_of_neg (by simp [retOf])]
    omega
  | @effect ph ph' tr ops i c r h hne rest ih =>
    intro N h1 h2
    have hi := h2 i (by rw [h]; simp)
    have g := ih N h1 (keep hi h2)
    have u := sumTo_upd (Phase.rem P) ph i (.effect c r) hi
    rw [h] at u
    simp only [rem_out, rem_called, rem_effect, Nat.add_zero] at u
    rw [List.countP_cons]
    omega
  | @ret ph ph' tr ops i c r h rest ih =>
    intro N h1 h2
    have hi := h2 i (by rw [h]; simp)
    have g := ih N (fun j d hm => h1 j d (List.mem_cons_of_mem _ hm)) (keep hi h2)
    have u := sumTo_upd (Phase.rem P) ph i .out hi
    rw [h] at u
    simp only [rem_out, rem_called, rem_effect, Nat.add_zero] at u
    rw [List.countP_cons, show retOf P (.ret i c r) = P (c, r) from rfl]
    omega

/-- The returned calls are among those that have taken effect; when no call is in progress, they are as many. -/
theorem linTo_rets {tr : List CEvent} {ops : List (Call × Res Resp)} {ph : Nat → Phase} (h : LinTo (fun _ => .out) tr ops ph) (P : Call × Res Resp → Bool) :
    tr.countP (retOf P) ≤ ops.countP P ∧ ((∀ i, ph i = .out) → tr.countP (retOf P) = ops.countP P) := by
  obtain ⟨N, hN⟩ := threads_bounded tr
  have g := linTo_count h P N hN (fun i hi => absurd rfl hi)
  rw [sumTo_zero (f := fun i => Phase.rem P .out) (by intro i; rfl)] at g
  refine ⟨by omega, fun hq => ?_⟩
  rw [sumTo_zero (by intro i; rw [hq i]; rfl)] at g
  exact g

theorem countP_about {x : Cell} {P : Call × Res Resp → Bool} (hP : ∀ c r, P (c, r) = true → c.cell = some x) (tr : List CEvent) :
    (tr.filter x.about).countP (retOf P) = tr.countP (retOf P) := by
  rw [List.countP_filter]
  congr 1
  funext e
  cases e with
  | inv i c => rfl
  | ret i c r =>
    show (P (c, r) && decide (c.cell = some x)) = P (c, r)
    cases hp : P (c, r) with
    | false => rfl
    | true => rw [Bool.true_and]; exact decide_eq_true (hP c r hp)

theorem cell_called {x : Cell} {tr : List CEvent} {ops : List (KvOp × Res Resp)} {ph : Nat → Phase}
    (h : LinTo (fun _ => .out) (tr.filter x.about) (ops.map (fun o => (x.call o.1, o.2))) ph) {op : KvOp} {r : Res Resp} (hm : (op, r) ∈ ops) : ∃ i, CEvent.inv i (x.call op) ∈ tr := by
  obtain ⟨_, i, hi⟩ := linearizes_begun h.lin (List.mem_map.2 ⟨(op, r), hm, rfl⟩)
  exact ⟨i, (List.mem_filter.1 hi).1⟩

theorem call_inj {x : Cell} {a b : KvOp} (h : x.call a = x.call b) : a = b := by
  cases x <;> (injection h)

theorem cell_ret {x : Cell} {tr : List CEvent} {ops : List (KvOp × Res Resp)} {ph : Nat → Phase}
    (h : LinTo (fun _ => .out) (tr.filter x.about) (ops.map (fun o => (x.call o.1, o.2))) ph) {i : Nat} {op : KvOp} {r : Res Resp} (hm : CEvent.ret i (x.call op) r ∈ tr) : (op, r) ∈ ops := by
  have hm : CEvent.ret i (x.call op) r ∈ tr.filter x.about := List.mem_filter.2 ⟨hm, by rw [about_ret]; exact decide_eq_true (x.call_cell op)⟩
  rcases lin_ret h.lin i _ r hm with g | g
  · cases g
  · obtain ⟨⟨op', r'⟩, g1, g2⟩ := List.mem_map.1 g
    injection g2 with g2 g3
    rw [← call_inj g2, ← g3]
    exact g1

/-! ### One creator -/

/-- A `get_or_create` on the key that has created it. -/
def createdBy (x : Cell) : CEvent → Bool
  | .ret _ c (.ok (.gocStatus (.createdNew _))) => decide (c.cell = some x)
  | _ => false

def isCreate (x : Cell) : Call × Res Resp → Bool
  | (c, .ok (.gocStatus (.createdNew _))) => decide (c.cell = some x)
  | _ => false

theorem createdBy_eq (x : Cell) : createdBy x = retOf (isCreate x) := by
  funext e
  cases e with
  | inv i c => rfl
  | ret i c r =>
    cases r with
    | ok a =>
      cases a with
      | gocStatus st => cases st <;> rfl
      | _ => rfl
    | _ => rfl

/-- What `get_or_create` may answer when the value is `w` in the end. -/
def Shows (cfg : Cfg) (x : Cell) (w v : Bytes) (r : Res Resp) : Prop :=
  r = .ok (.gocStatus (.createdNew w)) ∨ r = .ok (.gocStatus (.existingValue w)) ∨ ∃ e, x.error cfg (.getOrCreate v) = some e ∧ r = .err e

theorem register_create {cfg : Cfg} {x : Cell} : ∀ (ops : List (KvOp × Res Resp)) (a b : Option Bytes), Register (x.error cfg) a ops b →
    (∀ op r, (op, r) ∈ ops → op = .get ∨ op = .contains ∨ ∃ v, op = .getOrCreate v) →
    ∃ w, (∀ v r, (KvOp.getOrCreate v, r) ∈ ops → Shows cfg x w v r) ∧ (ops.map (fun o => (x.call o.1, o.2))).countP (isCreate x) ≤ (if a = none then 1 else 0) ∧ ∀ u, a = some u → w = u
  | [], a, b, _, _ => ⟨a.getD [], (fun v r hm => by cases hm), by simp, (fun u hu => by rw [hu]; rfl)⟩
  | (op, r) :: ops, a, b, h, hops => by
    have hops' : ∀ op r, (op, r) ∈ ops → op = .get ∨ op = .contains ∨ ∃ v, op = .getOrCreate v := fun o q hm => hops o q (List.mem_cons_of_mem _ hm)
    have keep : ∀ {r : Res Resp}, isCreate x (x.call op, r) = false → Register (x.error cfg) a ops b → (∀ v w, op = .getOrCreate v → (∀ u, a = some u → w = u) → Shows cfg x w v r) →
        ∃ w, (∀ v r', (KvOp.getOrCreate v, r') ∈ (op, r) :: ops → Shows cfg x w v r') ∧ (((op, r) :: ops).map (fun o => (x.call o.1, o.2))).countP (isCreate x) ≤ (if a = none then 1 else 0) ∧
          ∀ u, a = some u → w = u := by
      intro r hc hreg hs
      obtain ⟨w, g1, g2, g3⟩ := register_create ops a b hreg hops'
      refine ⟨w, fun v r' hm => ?_, ?_, g3⟩
      · rcases List.mem_cons.1 hm with e | hm
        · injection e with e1 e2; rw [e2]; exact hs v w e1.symm g3
        · exact g1 v r' hm
      · rw [List.map_cons, List.countP_cons_of_neg (by rw [hc]; simp)]; exact g2
    unfold Register at h
    cases he : x.error cfg op with
    | some e =>
      rw [he] at h
      obtain ⟨rfl, h⟩ := h
      exact keep rfl h (fun v w e1 _ => .inr (.inr ⟨e, by rw [← e1]; exact he, rfl⟩))
    | none =>
      rw [he] at h
      obtain ⟨rfl, h⟩ := h
      rcases hops op _ List.mem_cons_self with rfl | rfl | ⟨v, rfl⟩
      · exact keep rfl h (fun v w e1 _ => by cases e1)
      · exact keep rfl h (fun v w e1 _ => by cases e1)
      · cases a with
        | some u =>
          refine keep rfl h (fun v' w e1 hw => .inr (.inl ?_))
          rw [hw u rfl]; rfl
        | none =>
          obtain ⟨w, g1, g2, g3⟩ := register_create ops (some v) b h hops'
          have hw : w = v := g3 v rfl
          subst hw
          refine ⟨w, fun v' r' hm => ?_, ?_, (fun u hu => by cases hu)⟩
          · rcases List.mem_cons.1 hm with e | hm
            · injection e with e1 e2; rw [e2]; exact .inl rfl
            · exact g1 v' r' hm
          · rw [if_neg (by simp)] at g2
            rw [List.map_cons, List.countP_cons, if_pos rfl]
            split <;> omega

/-- **C80**: `get_or_create` elects one creator. If meanwhile the key is only read and `get_or_create`d, at most one of all these calls reports to have created it (none, if the key existed), and
all of them (except those refused because the pair does not fit) show the same value: the one that existed, if the key did. -/
theorem C80_one_creator {cfg : Cfg} {bs : List Block} {t : Tree} (h : ReachableC cfg bs t) {tr : List CEvent} {S : FState} (hr : FineRun cfg (FState.idle t) tr S) (x : Cell)
    (hops : ∀ i op, CEvent.inv i (x.call op) ∈ tr → op = .get ∨ op = .contains ∨ ∃ v, op = .getOrCreate v) :
    (tr.filter (createdBy x)).length ≤ (if t.value cfg x = none then 1 else 0) ∧
      ∃ w, (∀ i v r, CEvent.ret i (x.call (.getOrCreate v)) r ∈ tr → Shows cfg x w v r) ∧ ∀ u, t.value cfg x = some u → w = u := by
  obtain ⟨ops, ph, g1, g2, _⟩ := C80_register h hr x
  obtain ⟨w, k1, k2, k3⟩ := register_create ops _ _ g2 (fun op r hm => by
    obtain ⟨i, hi⟩ := cell_called g1 hm
    exact hops i op hi)
  refine ⟨?_, w, fun i v r hm => k1 v r (cell_ret g1 hm), k3⟩
  rw [← List.countP_eq_length_filter, createdBy_eq]
  have hc := countP_about (x := x) (P := isCreate x) (fun c r hp => by
    unfold isCreate at hp
    split at hp
    · rename_i e; injection e with e _; subst e; exact of_decide_eq_true hp
    · cases hp) tr
  rw [← hc]
  exact Nat.le_trans (linTo_rets g1 _).1 k2

/-! ### No lost update -/

/-- A successful `replace` on the key. -/
def swapped (x : Cell) : CEvent → Bool
  | .ret _ c (.ok (.replaceStatus (.prevValue _))) => decide (c.cell = some x)
  | _ => false

def isSwap (x : Cell) : Call × Res Resp → Bool
  | (c, .ok (.replaceStatus (.prevValue _))) => decide (c.cell = some x)
  | _ => false

theorem swapped_eq (x : Cell) : swapped x = retOf (isSwap x) := by
  funext e
  cases e with
  | inv i c => rfl
  | ret i c r =>
    cases r with
    | ok a =>
      cases a with
      | replaceStatus st => cases st <;> rfl
      | _ => rfl
    | _ => rfl

/-- `f` applied `n` times. -/
def times (f : Bytes → Bytes) : Nat → Bytes → Bytes
  | 0, a => a
  | n + 1, a => times f n (f a)

theorem register_swap {cfg : Cfg} {x : Cell} {f : Bytes → Bytes} : ∀ (ops : List (KvOp × Res Resp)) (a : Bytes) (b : Option Bytes), Register (x.error cfg) (some a) ops b →
    (∀ op r, (op, r) ∈ ops → op = .get ∨ op = .contains ∨ ∃ e, op = .replace (f e) (some e)) →
    b = some (times f ((ops.map (fun o => (x.call o.1, o.2))).countP (isSwap x)) a)
  | [], a, b, h, _ => by cases h; rfl
  | (op, r) :: ops, a, b, h, hops => by
    have hops' : ∀ op r, (op, r) ∈ ops → op = .get ∨ op = .contains ∨ ∃ e, op = .replace (f e) (some e) := fun o q hm => hops o q (List.mem_cons_of_mem _ hm)
    have keep : ∀ {r : Res Resp}, isSwap x (x.call op, r) = false → Register (x.error cfg) (some a) ops b →
        b = some (times f ((((op, r) :: ops).map (fun o => (x.call o.1, o.2))).countP (isSwap x)) a) := by
      intro r hc hreg
      rw [List.map_cons, List.countP_cons_of_neg (by rw [hc]; simp)]
      exact register_swap ops a b hreg hops'
    unfold Register at h
    cases he : x.error cfg op with
    | some e => rw [he] at h; obtain ⟨rfl, h⟩ := h; exact keep rfl h
    | none =>
      rw [he] at h
      obtain ⟨rfl, h⟩ := h
      rcases hops op _ List.mem_cons_self with rfl | rfl | ⟨e, rfl⟩
      · exact keep rfl h
      · exact keep rfl h
      · by_cases hea : some e = some a
        · have hea' : e = a := by simpa using hea
          subst hea'
          have hk : kvAnswer (some e) (.replace (f e) (some e)) = (.replaceStatus (.prevValue e), some (f e)) := by
            dsimp only [kvAnswer]; rw [if_pos (.inr rfl)]
          rw [hk] at h ⊢
          have hs : isSwap x (x.call (.replace (f e) (some e)), .ok (.replaceStatus (.prevValue e))) = true := decide_eq_true (x.call_cell _)
          rw [List.map_cons, List.countP_cons, if_pos hs]
          exact register_swap ops (f e) b h hops'
        · have hk : kvAnswer (some a) (.replace (f e) (some e)) = (.replaceStatus (.wrongValue a), some a) := by
            dsimp only [kvAnswer]; rw [if_neg (fun hh => hh.elim (fun hh => by cases hh) hea)]
          rw [hk] at h ⊢
          exact keep rfl h

/-- **C80**: no lost update. Threads apply a function `f` to the value of a key, each with `replace(key, f(e), Some(e))` for the value `e` it has read (or for any other `e`), retrying if it likes, while
nobody changes the key otherwise. Once all calls have returned, `f` has been applied exactly as often as `replace` has reported success. -/
theorem C80_no_lost_update {cfg : Cfg} {bs : List Block} {t : Tree} (h : ReachableC cfg bs t) {tr : List CEvent} {S : FState} (hr : FineRun cfg (FState.idle t) tr S) (hq : ∀ i, S.thr i = none)
    (x : Cell) (f : Bytes → Bytes) (hops : ∀ i op, CEvent.inv i (x.call op) ∈ tr → op = .get ∨ op = .contains ∨ ∃ e, op = .replace (f e) (some e)) {a : Bytes} (ha : t.value cfg x = some a) :
    S.tree.value cfg x = some (times f (tr.filter (swapped x)).length a) := by
  obtain ⟨ops, ph, g1, g2, g3⟩ := C80_register h hr x
  rw [ha] at g2
  rw [register_swap (f := f) ops a _ g2 (fun op r hm => by
    obtain ⟨i, hi⟩ := cell_called g1 hm
    exact hops i op hi)]
  rw [← List.countP_eq_length_filter, swapped_eq]
  have hc := countP_about (x := x) (P := isSwap x) (fun c r hp => by
    unfold isSwap at hp
    split at hp
    · rename_i e; injection e with e _; subst e; exact of_decide_eq_true hp
    · cases hp) tr
  rw [← hc, (linTo_rets g1 _).2 (fun i => g3 i (hq i))]

/-! ### Mutual exclusion -/

/-- Who holds the lock `x`: the threads whose `get_or_create` has reported to have created it, until they begin to remove it. -/
def holding (x : Cell) (H : Nat → Bool) : CEvent → Nat → Bool
  | .ret i c (.ok (.gocStatus (.createdNew _))) => if c.cell = some x then setN H i true else H
  | .inv i c => if c = x.call .remove then setN H i false else H
  | _ => H

/-- The lock is used as a lock: it is only read, `get_or_create`d, and removed by threads that hold it. -/
def UsedAsLock (x : Cell) : (Nat → Bool) → List CEvent → Prop
  | _, [] => True
  | H, e :: tr => (match e with
    | .inv i c => c.cell = some x → c = x.call .get ∨ c = x.call .contains ∨ (∃ v, c = x.call (.getOrCreate v)) ∨ (c = x.call .remove ∧ H i = true)
    | _ => True) ∧ UsedAsLock x (holding x H e) tr

/-- Who holds the lock after these events. -/
def holders (x : Cell) (H : Nat → Bool) (tr : List CEvent) : Nat → Bool := tr.foldl (holding x) H

theorem holding_ret {x : Cell} {H : Nat → Bool} {i : Nat} {c : Call} {r : Res Resp} :
    ((∃ v, r = .ok (.gocStatus (.createdNew v))) ∧ c.cell = some x ∧ holding x H (.ret i c r) = setN H i true) ∨ holding x H (.ret i c r) = H := by
  cases r with
  | ok a =>
    cases a with
    | gocStatus st =>
      cases st with
      | createdNew v =>
        by_cases hc : c.cell = some x
        · exact .inl ⟨⟨v, rfl⟩, hc, if_pos hc⟩
        · exact .inr (if_neg hc)
      | existingValue v => exact .inr rfl
    | _ => exact .inr rfl
  | _ => exact .inr rfl

theorem holding_other {x : Cell} {H : Nat → Bool} {e : CEvent} (h : x.about e = false) : holding x H e = H := by
  cases e with
  | inv i c =>
    have h := of_decide_eq_false h
    show (if c = x.call .remove then setN H i false else H) = H
    rw [if_neg (fun e => h (by rw [e]; exact x.call_cell _))]
  | ret i c r =>
    have h := of_decide_eq_false h
    rcases holding_ret (x := x) (H := H) (i := i) (c := c) (r := r) with ⟨_, g, _⟩ | g
    · exact absurd g h
    · exact g

theorem usedAsLock_filter {x : Cell} : ∀ (tr : List CEvent) (H : Nat → Bool), UsedAsLock x H tr → UsedAsLock x H (tr.filter x.about) ∧ holders x H (tr.filter x.about) = holders x H tr
  | [], _, _ => ⟨trivial, rfl⟩
  | e :: tr, H, h => by
    obtain ⟨h1, h2⟩ := h
    obtain ⟨g1, g2⟩ := usedAsLock_filter tr _ h2
    by_cases he : x.about e = true
    · rw [List.filter_cons_of_pos he]
      exact ⟨⟨h1, g1⟩, g2⟩
    · rw [List.filter_cons_of_neg he]
      have he : x.about e = false := by simpa using he
      rw [holding_other he] at g1 g2
      exact ⟨g1, by rw [g2]; show _ = holders x (holding x H e) tr; rw [holding_other he]⟩

/-- The thread holds the lock, or is about to learn that it has got it, or is about to release it. -/
def Owns (x : Cell) (H : Nat → Bool) (ph : Nat → Phase) (i : Nat) : Prop :=
  H i = true ∨ (∃ c v, ph i = .effect c (.ok (.gocStatus (.createdNew v)))) ∨ ph i = .called (x.call .remove)

structure KeyLockInv (x : Cell) (H : Nat → Bool) (ph : Nat → Phase) (a : Option Bytes) : Prop where
  one : ∀ i j, Owns x H ph i → Owns x H ph j → i = j
  free : a = none → ∀ i, ¬ Owns x H ph i
  leaves : ∀ i, ph i = .called (x.call .remove) → H i = false
  known : ∀ i c, ph i = .called c → c = x.call .get ∨ c = x.call .contains ∨ (∃ v, c = x.call (.getOrCreate v)) ∨ c = x.call .remove
  cell : ∀ i c r, ph i = .effect c r → c.cell = some x

theorem lock_exclusive {cfg : Cfg} {x : Cell} {ph ph' : Nat → Phase} {tr : List CEvent} {ops0 : List (Call × Res Resp)} (h : LinTo ph tr ops0 ph') :
    ∀ {ops : List (KvOp × Res Resp)}, ops0 = ops.map (fun o => (x.call o.1, o.2)) → ∀ {H : Nat → Bool} {a b : Option Bytes}, Register (x.error cfg) a ops b → (∀ e ∈ tr, x.about e = true) →
    UsedAsLock x H tr → KeyLockInv x H ph a → KeyLockInv x (holders x H tr) ph' b := by
  induction h with
  | nil ph =>
    intro ops ho H a b hr _ _ hi
    cases ops with
    | nil => cases hr; exact hi
    | cons _ _ => cases ho
  | @inv ph ph' tr ops0 i c h rest ih =>
    intro ops ho H a b hr hab hu hi
    have hc : c.cell = some x := of_decide_eq_true (hab _ List.mem_cons_self)
    obtain ⟨hu1, hu2⟩ := hu
    refine ih ho hr (fun e he => hab e (List.mem_cons_of_mem _ he)) hu2 ?_
    have hk := hu1 hc
    by_cases hrem : c = x.call .remove
    · have hH : H i = true := by
        rcases hk with k | k | ⟨v, k⟩ | ⟨_, k⟩
        · have := call_inj (hrem.symm.trans k); cases this
        · have := call_inj (hrem.symm.trans k); cases this
        · have := call_inj (hrem.symm.trans k); cases this
        · exact k
      have hold : holding x H (.inv i c) = setN H i false := if_pos hrem
      rw [hold]
      have own : ∀ j, Owns x (setN H i false) (setN ph i (.called c)) j → Owns x H ph j := by
        intro j hj
        by_cases e : j = i
        · subst e; exact .inl hH
        · unfold Owns at hj ⊢
          rw [setN_other _ _ e, setN_other _ _ e] at hj; exact hj
      refine ⟨fun j k hj hk => hi.one j k (own j hj) (own k hk), fun ha j hj => hi.free ha j (own j hj), fun j hj => ?_, fun j d hj => ?_, fun j d r hj => ?_⟩
      · by_cases e : j = i
        · subst e; exact setN_same _ _ _
        · rw [setN_other _ _ e] at hj ⊢; exact hi.leaves j hj
      · by_cases e : j = i
        · subst e; rw [setN_same] at hj; injection hj with hj; exact .inr (.inr (.inr (hj ▸ hrem)))
        · rw [setN_other _ _ e] at hj; exact hi.known j d hj
      · by_cases e : j = i
        · subst e; rw [setN_same] at hj; cases hj
        · rw [setN_other _ _ e] at hj; exact hi.cell j d r hj
    · have hold : holding x H (.inv i c) = H := if_neg hrem
      rw [hold]
      have own : ∀ j, Owns x H (setN ph i (.called c)) j → Owns x H ph j := by
        intro j hj
        by_cases e : j = i
        · subst e
          rcases hj with hj | ⟨d, v, hj⟩ | hj
          · exact .inl hj
          · rw [setN_same] at hj; cases hj
          · rw [setN_same] at hj; injection hj with hj; exact absurd hj hrem
        · unfold Owns at hj ⊢
          rw [setN_other _ _ e] at hj; exact hj
      refine ⟨fun j k hj hk => hi.one j k (own j hj) (own k hk), fun ha j hj => hi.free ha j (own j hj), fun j hj => ?_, fun j d hj => ?_, fun j d r hj => ?_⟩
      · by_cases e : j = i
        · subst e; rw [setN_same] at hj; injection hj with hj; exact absurd hj hrem
        · rw [setN_other _ _ e] at hj; exact hi.leaves j hj
      · by_cases e : j = i
        · subst e; rw [setN_same] at hj; injection hj with hj; subst hj
          rcases hk with k | k | k | ⟨k, _⟩
          · exact .inl k
          · exact .inr (.inl k)
          · exact .inr (.inr (.inl k))
          · exact absurd k hrem
        · rw [setN_other _ _ e] at hj; exact hi.known j d hj
      · by_cases e : j = i
        · subst e; rw [setN_same] at hj; cases hj
        · rw [setN_other _ _ e] at hj; exact hi.cell j d r hj
  | @effect ph ph' tr ops0 i c r h hne rest ih =>
    intro ops ho H a b hr hab hu hi
    cases ops with
    | nil => cases ho
    | cons o ops =>
      obtain ⟨op, r'⟩ := o
      injection ho with ho1 ho2
      injection ho1 with ho1 ho3
      subst ho3
      -- what the thread's call does to the ownership
      suffices hs : ∃ a', Register (x.error cfg) a' ops b ∧ KeyLockInv x H (setN ph i (.effect c r)) a' by
        obtain ⟨a', k1, k2⟩ := hs
        exact ih ho2 k1 hab hu k2
      have hcell : c.cell = some x := by rw [ho1]; exact x.call_cell _
      have others : ∀ {j}, j ≠ i → Owns x H (setN ph i (.effect c r)) j → Owns x H ph j := by
        intro j e hj
        unfold Owns at hj ⊢
        rw [setN_other _ _ e] at hj; exact hj
      have hleaves : ∀ j, setN ph i (.effect c r) j = .called (x.call .remove) → H j = false := by
        intro j hj
        by_cases e : j = i
        · subst e; rw [setN_same] at hj; cases hj
        · rw [setN_other _ _ e] at hj; exact hi.leaves j hj
      have hknown : ∀ j d, setN ph i (.effect c r) j = .called d → d = x.call .get ∨ d = x.call .contains ∨ (∃ v, d = x.call (.getOrCreate v)) ∨ d = x.call .remove := by
        intro j d hj
        by_cases e : j = i
        · subst e; rw [setN_same] at hj; cases hj
        · rw [setN_other _ _ e] at hj; exact hi.known j d hj
      have hcells : ∀ j d q, setN ph i (.effect c r) j = .effect d q → d.cell = some x := by
        intro j d q hj
        by_cases e : j = i
        · subst e; rw [setN_same] at hj; injection hj with hj; rw [← hj]; exact hcell
        · rw [setN_other _ _ e] at hj; exact hi.cell j d q hj
      -- a call that does not report a creation
      have same : (∀ v, r ≠ .ok (.gocStatus (.createdNew v))) → KeyLockInv x H (setN ph i (.effect c r)) a := by
        intro hn
        have own : ∀ j, Owns x H (setN ph i (.effect c r)) j → Owns x H ph j := by
          intro j hj
          by_cases e : j = i
          · subst e
            rcases hj with hj | ⟨d, v, hj⟩ | hj
            · exact .inl hj
            · rw [setN_same] at hj; injection hj with _ hj; exact absurd hj (hn v)
            · rw [setN_same] at hj; cases hj
          · exact others e hj
        exact ⟨fun j k hj hk => hi.one j k (own j hj) (own k hk), fun ha j hj => hi.free ha j (own j hj), hleaves, hknown, hcells⟩
      unfold Register at hr
      cases he : x.error cfg op with
      | some e =>
        rw [he] at hr
        obtain ⟨rfl, hr⟩ := hr
        exact ⟨a, hr, same (fun v hv => by cases hv)⟩
      | none =>
        rw [he] at hr
        obtain ⟨rfl, hr⟩ := hr
        rcases hi.known i c h with k | k | ⟨v, k⟩ | k
        · have := call_inj (ho1.symm.trans k); subst this
          exact ⟨a, hr, same (fun v hv => by cases hv)⟩
        · have := call_inj (ho1.symm.trans k); subst this
          exact ⟨a, hr, same (fun v hv => by cases hv)⟩
        · have := call_inj (ho1.symm.trans k); subst this
          cases a with
          | some u => exact ⟨some u, hr, same (fun v hv => by cases hv)⟩
          | none =>
            refine ⟨some v, hr, ?_, (fun hh => by cases hh), hleaves, hknown, hcells⟩
            intro j k hj hk
            have : ∀ j, Owns x H (setN ph i (.effect c (.ok (kvAnswer none (.getOrCreate v)).1))) j → j = i := by
              intro j hj
              by_cases e : j = i
              · exact e
              · exact absurd (others e hj) (hi.free rfl j)
            rw [this j hj, this k hk]
        · have := call_inj (ho1.symm.trans k); subst this
          have hown : Owns x H ph i := .inr (.inr (by rw [h, k]))
          have hH : H i = false := hi.leaves i (by rw [h, k])
          have none' : ∀ j, ¬ Owns x H (setN ph i (.effect c (.ok (kvAnswer a .remove).1))) j := by
            intro j hj
            by_cases e : j = i
            · subst e
              rcases hj with hj | ⟨d, v, hj⟩ | hj
              · rw [hH] at hj; cases hj
              · rw [setN_same] at hj; injection hj with _ hj; cases hj
              · rw [setN_same] at hj; cases hj
            · exact e (hi.one j i (others e hj) hown)
          exact ⟨none, hr, (fun j k hj => absurd hj (none' j)), (fun _ j => none' j), hleaves, hknown, hcells⟩
  | @ret ph ph' tr ops0 i c r h rest ih =>
    intro ops ho H a b hr hab hu hi
    obtain ⟨_, hu2⟩ := hu
    refine ih ho hr (fun e he => hab e (List.mem_cons_of_mem _ he)) hu2 ?_
    have own : ∀ j, Owns x (holding x H (.ret i c r)) (setN ph i .out) j → Owns x H ph j := by
      intro j hj
      by_cases e : j = i
      · subst e
        rcases hj with hj | ⟨d, v, hj⟩ | hj
        · rcases holding_ret (x := x) (H := H) (i := j) (c := c) (r := r) with ⟨⟨v, hv⟩, _, _⟩ | g
          · exact .inr (.inl ⟨c, v, by rw [h, hv]⟩)
          · rw [g] at hj; exact .inl hj
        · rw [setN_same] at hj; cases hj
        · rw [setN_same] at hj; cases hj
      · have hh : holding x H (.ret i c r) j = H j := by
          rcases holding_ret (x := x) (H := H) (i := i) (c := c) (r := r) with ⟨_, _, g⟩ | g
          · rw [g]; exact setN_other _ _ e
          · rw [g]
        unfold Owns at hj ⊢
        rw [setN_other _ _ e, hh] at hj; exact hj
    refine ⟨fun j k hj hk => hi.one j k (own j hj) (own k hk), fun ha j hj => hi.free ha j (own j hj), fun j hj => ?_, fun j d hj => ?_, fun j d q hj => ?_⟩
    · by_cases e : j = i
      · subst e; rw [setN_same] at hj; cases hj
      · rw [setN_other _ _ e] at hj
        have hh : holding x H (.ret i c r) j = H j := by
          rcases holding_ret (x := x) (H := H) (i := i) (c := c) (r := r) with ⟨_, _, g⟩ | g
          · rw [g]; exact setN_other _ _ e
          · rw [g]
        rw [hh]; exact hi.leaves j hj
    · by_cases e : j = i
      · subst e; rw [setN_same] at hj; cases hj
      · rw [setN_other _ _ e] at hj; exact hi.known j d hj
    · by_cases e : j = i
      · subst e; rw [setN_same] at hj; cases hj
      · rw [setN_other _ _ e] at hj; exact hi.cell j d q hj

/-- **C80**: a key is a mutex. Threads acquire the lock with `get_or_create` (whoever creates the key has it) and release it with `remove`; only a thread that has the lock releases it, and apart from
reading, nobody does anything else with the key, which does not exist at the start. Then at every moment at most one thread holds the lock. -/
theorem C80_mutual_exclusion {cfg : Cfg} {bs : List Block} {t : Tree} (h : ReachableC cfg bs t) {tr : List CEvent} {S : FState} (hr : FineRun cfg (FState.idle t) tr S) (x : Cell)
    (h0 : t.value cfg x = none) (hu : UsedAsLock x (fun _ => false) tr) {i j : Nat} (hi : holders x (fun _ => false) tr i = true) (hj : holders x (fun _ => false) tr j = true) : i = j := by
  obtain ⟨ops, ph, g1, g2, _⟩ := C80_register h hr x
  obtain ⟨k1, k2⟩ := usedAsLock_filter tr _ hu
  rw [h0] at g2
  have hinv : KeyLockInv x (fun _ => false) (fun _ => .out) none :=
    ⟨(fun i j hi => by rcases hi with h | ⟨_, _, h⟩ | h <;> cases h), (fun _ i hi => by rcases hi with h | ⟨_, _, h⟩ | h <;> cases h), (fun i h => by cases h), (fun i c h => by cases h),
      (fun i c r h => by cases h)⟩
  have := lock_exclusive g1 rfl g2 (fun e he => (List.mem_filter.1 he).2) k1 hinv
  rw [k2] at this
  exact this.one i j (.inl hi) (.inl hj)

/-! ### Examples -/

/-- Threads 0 and 1 acquire the lock `[9]` at the same time: thread 0 gets it. It releases it, and thread 2 gets it. -/
def mutexSched : List FCmd := [.go 0 (.kv [9] (.getOrCreate [1])), .step 0 20, .go 1 (.kv [9] (.getOrCreate [2])), .step 1 1, .step 0 509, .fin 0 (.ok (.gocStatus (.createdNew [1]))),
  .step 1 10, .fin 1 (.ok (.gocStatus (.existingValue [1]))), .go 0 (.kv [9] .remove), .step 0 14, .fin 0 (.ok (.val (some [1]))), .go 2 (.kv [9] (.getOrCreate [3])), .step 2 526,
  .fin 2 (.ok (.gocStatus (.createdNew [3])))]

def mutexTrace : List CEvent := [.inv 0 (.kv [9] (.getOrCreate [1])), .inv 1 (.kv [9] (.getOrCreate [2])), .ret 0 (.kv [9] (.getOrCreate [1])) (.ok (.gocStatus (.createdNew [1]))),
  .ret 1 (.kv [9] (.getOrCreate [2])) (.ok (.gocStatus (.existingValue [1]))), .inv 0 (.kv [9] .remove), .ret 0 (.kv [9] .remove) (.ok (.val (some [1]))), .inv 2 (.kv [9] (.getOrCreate [3])),
  .ret 2 (.kv [9] (.getOrCreate [3])) (.ok (.gocStatus (.createdNew [3])))]

set_option maxRecDepth 100000 in
theorem mutex_demo : checkF fineCfg fineBefore 3 mutexSched = true := by decide +kernel

set_option maxRecDepth 100000 in
theorem creator_demo : checkF fineCfg fineBefore 3 (mutexSched.take 8) = true := by decide +kernel

theorem before_values {t : Tree} (h : Reachable fineCfg (hist fineBefore) t) : t.value fineCfg (.user [9]) = none ∧ t.value fineCfg (.user [0]) = some [2] := by
  obtain ⟨w, h1, _, h2⟩ := h.world
  have h1 : SpecRun fineCfg World.new [.call (.kv [0] (.set [1])) (.ok (.setStatus .createdNew)), .call (.kv [0] (.set [2])) (.ok (.setStatus (.prevValue [1])))] w := h1
  cases h1 with
  | call h3 h1 =>
    cases h1 with
    | call h4 h1 =>
      cases h1 with
      | nil =>
        obtain ⟨m1, ⟨_, rfl⟩, rfl⟩ := h3
        obtain ⟨m2, ⟨_, rfl⟩, rfl⟩ := h4
        refine ⟨(h2.kv [9]).trans ?_, (h2.kv [0]).trans ?_⟩
        · rfl
        · rfl

/-- The hypotheses of `C80_one_creator` are met by the first part of this execution; one call has created the key. -/
example : ∃ t S, ReachableC fineCfg [.seq (hist fineBefore)] t ∧ FineRun fineCfg (FState.idle t) (mutexTrace.take 4) S ∧
    (∀ i op, CEvent.inv i ((Cell.user [9]).call op) ∈ mutexTrace.take 4 → op = .get ∨ op = .contains ∨ ∃ v, op = .getOrCreate v) ∧
    ((mutexTrace.take 4).filter (createdBy (.user [9]))).length = 1 := by
  obtain ⟨t, S, ⟨t0, h0, h1⟩, h2⟩ := checkF_sound creator_demo
  refine ⟨t, S, ⟨t0, h0, .seq h1 (.nil _)⟩, h2, fun i op hm => .inr (.inr ?_), rfl⟩
  simp only [mutexTrace, List.take, List.mem_cons, CEvent.inv.injEq, reduceCtorEq, List.not_mem_nil, or_false, false_or, Cell.call, Call.kv.injEq, true_and] at hm
  rcases hm with ⟨_, rfl⟩ | ⟨_, rfl⟩
  · exact ⟨_, rfl⟩
  · exact ⟨_, rfl⟩

/-- The hypotheses of `C80_mutual_exclusion` are met by the whole execution; thread 2 holds the lock at the end. -/
example : ∃ t S, ReachableC fineCfg [.seq (hist fineBefore)] t ∧ FineRun fineCfg (FState.idle t) mutexTrace S ∧ t.value fineCfg (.user [9]) = none ∧
    UsedAsLock (.user [9]) (fun _ => false) mutexTrace ∧ holders (.user [9]) (fun _ => false) mutexTrace 2 = true := by
  obtain ⟨t, S, h, h2⟩ := checkF_sound mutex_demo
  have hv := (before_values h).1
  obtain ⟨t0, h0, h1⟩ := h
  refine ⟨t, S, ⟨t0, h0, .seq h1 (.nil _)⟩, h2, hv, ?_, by decide⟩
  refine ⟨fun _ => .inr (.inr (.inl ⟨_, rfl⟩)), fun _ => .inr (.inr (.inl ⟨_, rfl⟩)), trivial, trivial, fun _ => .inr (.inr (.inr ⟨rfl, by decide⟩)), trivial,
    fun _ => .inr (.inr (.inl ⟨_, rfl⟩)), trivial, trivial⟩

def increment (b : Bytes) : Bytes := b.map (· + 1)

/-- Threads 0 and 1 both read the counter `[0]`, which is 2, and increment it; thread 1 is refused and tries again. Thread 2 begins to add an item to a list meanwhile. -/
def casSched : List FCmd := [.go 0 (.kv [0] .get), .step 0 11, .fin 0 (.ok (.val (some [2]))), .go 1 (.kv [0] .get), .step 1 11, .fin 1 (.ok (.val (some [2]))),
  .go 0 (.kv [0] (.replace [3] (some [2]))), .step 0 6, .go 1 (.kv [0] (.replace [3] (some [2]))), .step 1 1, .go 2 (.list [76] (.set [97] [1])), .step 2 1, .step 0 14,
  .fin 0 (.ok (.replaceStatus (.prevValue [2]))), .step 1 10, .fin 1 (.ok (.replaceStatus (.wrongValue [3]))), .go 1 (.kv [0] (.replace [4] (some [3]))), .step 1 17,
  .fin 1 (.ok (.replaceStatus (.prevValue [3]))), .step 2 2163, .fin 2 (.ok (.setStatus .createdNew))]

def casTrace : List CEvent := [.inv 0 (.kv [0] .get), .ret 0 (.kv [0] .get) (.ok (.val (some [2]))), .inv 1 (.kv [0] .get), .ret 1 (.kv [0] .get) (.ok (.val (some [2]))),
  .inv 0 (.kv [0] (.replace [3] (some [2]))), .inv 1 (.kv [0] (.replace [3] (some [2]))), .inv 2 (.list [76] (.set [97] [1])),
  .ret 0 (.kv [0] (.replace [3] (some [2]))) (.ok (.replaceStatus (.prevValue [2]))), .ret 1 (.kv [0] (.replace [3] (some [2]))) (.ok (.replaceStatus (.wrongValue [3]))),
  .inv 1 (.kv [0] (.replace [4] (some [3]))), .ret 1 (.kv [0] (.replace [4] (some [3]))) (.ok (.replaceStatus (.prevValue [3]))),
  .ret 2 (.list [76] (.set [97] [1])) (.ok (.setStatus .createdNew))]

set_option maxRecDepth 100000 in
theorem cas_demo : checkFP fineCfg fineBefore 3 casSched (quietF 3) = true := by decide +kernel

/-- The hypotheses of `C80_no_lost_update` are met by this execution: the counter is incremented twice. -/
example : ∃ t S, ReachableC fineCfg [.seq (hist fineBefore)] t ∧ FineRun fineCfg (FState.idle t) casTrace S ∧ (∀ i, S.thr i = none) ∧
    (∀ i op, CEvent.inv i ((Cell.user [0]).call op) ∈ casTrace → op = .get ∨ op = .contains ∨ ∃ e, op = .replace (increment e) (some e)) ∧
    t.value fineCfg (.user [0]) = some [2] ∧ (casTrace.filter (swapped (.user [0]))).length = 2 := by
  obtain ⟨t, S, h, h2, h3, h4⟩ := checkFP_sound cas_demo
  have hv := (before_values h).2
  obtain ⟨_, _, hs, _⟩ := h.world
  obtain ⟨t0, h0, h1⟩ := h
  obtain ⟨h5, _⟩ := quietF_sound h2 hs.ok h3 h4
  refine ⟨t, S, ⟨t0, h0, .seq h1 (.nil _)⟩, h2, h5, fun i op hm => ?_, hv, rfl⟩
  simp only [casTrace, List.mem_cons, CEvent.inv.injEq, reduceCtorEq, List.not_mem_nil, or_false, false_or, Cell.call, Call.kv.injEq, true_and, and_false] at hm
  rcases hm with ⟨_, rfl⟩ | ⟨_, rfl⟩ | ⟨_, rfl⟩ | ⟨_, rfl⟩ | ⟨_, rfl⟩
  · exact .inl rfl
  · exact .inl rfl
  · exact .inr (.inr ⟨[2], rfl⟩)
  · exact .inr (.inr ⟨[2], rfl⟩)
  · exact .inr (.inr ⟨[3], rfl⟩)

end Candy.Props
