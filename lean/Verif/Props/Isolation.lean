import Verif.Props.Kv
import Verif.Props.Lists
import Verif.Props.Queues
/-!
# C18, C27, C31: isolation; failed calls
-/
namespace Candy.Props
open Candy.Spec

/-- The key-value, typed, list and queue APIs. -/
inductive Api where
  | kv | typed | list | queue
deriving DecidableEq

/-- The API a call belongs to (big values are queues). -/
def apiOf : Call → Api
  | .kv .. => .kv
  | .typed .. => .typed
  | .list .. => .list
  | .queue .. => .queue

theorem foot_of_call {cfg ex t c r t'} (hs : Sane cfg ex t) (hc : Calls cfg t c r t') :
    Sane cfg ex t' ∧ SameOutside (c.Foot cfg) (t.get cfg) (t'.get cfg) := by
  obtain ⟨p, h1, h2⟩ := hc
  obtain ⟨h3, h4⟩ := h1.sim hs.ok
  exact ⟨⟨hs.bound, h3⟩, ((within_call cfg c).exec h4).1⟩

/-! ## C18 -/

/-- **C18**, key-value side: no call of another API (successful or not) changes what `get` returns for any key. -/
theorem C18_kv {cfg es t t' c r} (h : Reachable cfg es t) (hc : Calls cfg t c r t') (ha : apiOf c ≠ .kv) (k : Bytes) :
    t'.userGet cfg k = t.userGet cfg k := by
  obtain ⟨w, _, hs, _⟩ := h.world
  have hf := (foot_of_call hs hc).2
  cases c with
  | kv => exact absurd rfl ha
  | typed tk op => exact hf _ (fun e => ne_of_ns (a := k) (b := tk) (x := 1) (y := 2) (by decide) e)
  | list lk op => exact hf _ user_notL
  | queue qk op => exact hf _ user_notQ

/-- What a typed `get` of a serialized key (with its type id) returns in state `t`. -/
def typedGet (cfg : Cfg) (t : Tree) (tk : Bytes) : Option Bytes := t.get cfg (typedKey tk)

/-- **C18**, typed side. -/
theorem C18_typed {cfg es t t' c r} (h : Reachable cfg es t) (hc : Calls cfg t c r t') (ha : apiOf c ≠ .typed) (k : Bytes) :
    typedGet cfg t' k = typedGet cfg t k := by
  obtain ⟨w, _, hs, _⟩ := h.world
  have hf := (foot_of_call hs hc).2
  cases c with
  | typed => exact absurd rfl ha
  | kv tk op => exact hf _ (fun e => ne_of_ns (a := k) (b := tk) (x := 2) (y := 1) (by decide) e)
  | list lk op => exact hf _ typed_notL
  | queue qk op => exact hf _ typed_notQ

theorem typedGet_answer {cfg es t t' k r} (h : Reachable cfg es t) (hc : Calls cfg t (.typed k .get) r t') :
    r = .ok (.val (typedGet cfg t k)) := by
  obtain ⟨w, _, hs, _⟩ := h.world
  obtain ⟨p, h1, h2⟩ := hc
  have := (wp_typedOp cfg k .get _).sound (h1.sim hs.ok).2 h2
  exact this.1

theorem LI.congr {cfg lk t s t'} (h : LI cfg lk t s) (hs : ∃ ex, Sane cfg ex t') (hc : ∀ k, LFoot cfg lk k → t'.get cfg k = t.get cfg k) :
    LI cfg lk t' s := ⟨hs, h.2.congr hc⟩

theorem QI.congr {cfg qk t s t'} (h : QI cfg qk t s) (hs : ∃ ex, Sane cfg ex t') (hc : ∀ k, QFoot qk k → t'.get cfg k = t.get cfg k) :
    QI cfg qk t' s := ⟨hs, h.2.congr hc⟩

/-- A call that does not touch list `lk`: of another API, or on a list with another hash. -/
def LeavesList (cfg : Cfg) (lk : Bytes) : Call → Prop
  | .list lk' _ => cfg.listPh lk' ≠ cfg.listPh lk
  | _ => True

theorem LI.other {cfg lk t s c r t'} (h : LI cfg lk t s) (hc : Calls cfg t c r t') (ha : LeavesList cfg lk c) : LI cfg lk t' s := by
  obtain ⟨⟨ex, hs⟩, h2⟩ := h
  obtain ⟨f1, f2⟩ := foot_of_call hs hc
  refine ⟨⟨ex, f1⟩, h2.congr (fun k hk => f2 k (fun hk' => ?_))⟩
  cases c with
  | kv k' op => exact user_notL (cfg := cfg) (lk := lk) (k := k') (by rw [← show k = userKey k' from hk']; exact hk)
  | typed k' op => exact typed_notL (cfg := cfg) (lk := lk) (k := k') (by rw [← show k = typedKey k' from hk']; exact hk)
  | list lk' op => exact foot_LL hk' hk (fun e => ha (by rw [e])) ha
  | queue qk op => exact foot_LQ hk hk'

/-- **C18 / C27**, list side: a call of another API, or on a list whose key has another hash, changes nothing about a list: its items, their order
and its length are as before. -/
theorem C27_lists_isolated {cfg es t t0 t1 t2 t3 t4 lk c r l n r' r''} (h : Reachable cfg es t) (hn : Orderly cfg lk es) (hf : NoFailedList lk es)
    (h0 : Calls cfg t (.list lk .len) (.ok (.num n)) t0) (h1 : Calls cfg t0 (.list lk (.iter true)) (.ok (.items l)) t1)
    (hc : Calls cfg t1 c r t2) (ha : LeavesList cfg lk c)
    (h3 : Calls cfg t2 (.list lk (.iter true)) r' t3) (hne : r' ≠ .exhausted)
    (h4 : Calls cfg t3 (.list lk .len) r'' t4) (hne' : r'' ≠ .exhausted) : r' = .ok (.items l) ∧ r'' = .ok (.num n) := by
  obtain ⟨s, a1, a2⟩ := list_state lk h hn
  obtain ⟨s0, z1, z2⟩ := a1.step h0 (by simp)
  obtain ⟨x, ex, ⟨y1, m, y2, y3⟩, y4⟩ := ok_of_lStep z1 rfl (by simp)
  obtain ⟨e1, s1, b1, b2, b3⟩ := z2.iter h1 (by simp)
  obtain ⟨e2, s3, c1, c2, c3⟩ := (b1.other hc ha).iter h3 hne
  obtain ⟨s4, d1, d2⟩ := c1.step h4 hne'
  obtain ⟨x', rfl, ⟨_, m', w2, w3⟩, _⟩ := ok_of_lStep d1 rfl hne'
  simp only [OList.dir, if_true, Res.ok.injEq, Resp.items.injEq] at e1
  have hcl := a2 hf
  simp only [Res.ok.injEq] at ex
  rw [y2, y3 hcl] at ex
  simp only [Resp.num.injEq] at ex
  refine ⟨by rw [e2, b2, e1]; rfl, ?_⟩
  rw [w2, w3 (c3.trans (b3.trans (y4.trans hcl))), c2, b2, y1, ex]

/-- Two lists, with a failing call on the other one as well. -/
example : ∃ t, Reachable runCfg (hist [(.list [76] (.set [97] [1]), .ok (.setStatus .createdNew)),
    (.list [76] .len, .ok (.num 1)), (.list [76] (.iter true), .ok (.items [([97], [1])])), (.list [77] (.set [97] [7]), .ok (.setStatus .createdNew)),
    (.list [76] (.iter true), .ok (.items [([97], [1])])), (.list [76] .len, .ok (.num 1))]) t ∧ LeavesList runCfg [76] (.list [77] (.set [97] [7])) := by
  obtain ⟨t, h⟩ := checkHist_reachable (cfg := runCfg) (cs := [(.list [76] (.set [97] [1]), .ok (.setStatus .createdNew)),
    (.list [76] .len, .ok (.num 1)), (.list [76] (.iter true), .ok (.items [([97], [1])])), (.list [77] (.set [97] [7]), .ok (.setStatus .createdNew)),
    (.list [76] (.iter true), .ok (.items [([97], [1])])), (.list [76] .len, .ok (.num 1))]) (by decide +kernel)
  exact ⟨t, h, by show runCfg.listPh [77] ≠ runCfg.listPh [76]; decide +kernel⟩

/-- A hash function under which the lists `L` and `M` have the same hash (and everything else is as in `runCfg`). -/
def clashCfg : Cfg := { runCfg with hash := fun b => if b = [77, 3] then runCfg.hash [76, 3] else runCfg.hash b }

/-- **C27 does not hold** for all hash functions: if the keys of two lists have the same 64-bit hash, an item set in one appears as an item of the other. -/
theorem C27_refuted_on_collision : ∃ t t', Reachable clashCfg [] t ∧ Run clashCfg t
    [.call (.list [76] (.set [97] [1])) (.ok (.setStatus .createdNew)),
     .call (.list [77] (.get [97])) (.ok (.val (some [1])))] t' := by
  obtain ⟨t, t', h1, h2⟩ := checkHist_append (cfg := clashCfg) (cs := [])
    (ds := [(.list [76] (.set [97] [1]), .ok (.setStatus .createdNew)), (.list [77] (.get [97]), .ok (.val (some [1])))]) (by decide +kernel)
  exact ⟨t, t', h1, h2⟩

/-- A call that does not touch queue `qk`: of another API, or on another queue. -/
def LeavesQueue (qk : Bytes) : Call → Prop
  | .queue qk' _ => qk' ≠ qk
  | _ => True

theorem QI.other {cfg qk t s c r t'} (h : QI cfg qk t s) (hc : Calls cfg t c r t') (ha : LeavesQueue qk c) : QI cfg qk t' s := by
  obtain ⟨⟨ex, hs⟩, h2⟩ := h
  obtain ⟨f1, f2⟩ := foot_of_call hs hc
  refine ⟨⟨ex, f1⟩, h2.congr (fun k hk => f2 k (fun hk' => ?_))⟩
  cases c with
  | kv k' op => exact user_notQ (qk := qk) (k := k') (by rw [← show k = userKey k' from hk']; exact hk)
  | typed k' op => exact typed_notQ (qk := qk) (k := k') (by rw [← show k = typedKey k' from hk']; exact hk)
  | list lk' op => exact foot_LQ hk' hk
  | queue qk' op => exact foot_QQ hk' hk ha

/-- **C18**, queue side: a call of another API or on another queue changes nothing about a queue (whatever the hashes). -/
theorem C18_queue {cfg es t t1 t2 t3 qk c r l r'} (h : Reachable cfg es t) (hn : NoQRemove qk es)
    (h1 : Calls cfg t (.queue qk (.iter true)) (.ok (.elems l)) t1)
    (hc : Calls cfg t1 c r t2) (ha : LeavesQueue qk c)
    (h3 : Calls cfg t2 (.queue qk (.iter true)) r' t3) (hne : r' ≠ .exhausted) : r' = .ok (.elems l) := by
  obtain ⟨s, a1, a2⟩ := queue_state qk h hn
  obtain ⟨e1, s1, b1, b2, b3⟩ := a1.iter h1 (by simp)
  obtain ⟨e2, _⟩ := (b1.other hc ha).iter h3 hne
  simp only [Deque.dir, if_true, Res.ok.injEq, Resp.elems.injEq] at e1
  rw [e2, b2, e1]; rfl

theorem C18_list {cfg es t t1 t2 t3 lk c r l r'} (h : Reachable cfg es t) (hn : Orderly cfg lk es)
    (h1 : Calls cfg t (.list lk (.iter true)) (.ok (.items l)) t1)
    (hc : Calls cfg t1 c r t2) (ha : apiOf c ≠ .list)
    (h3 : Calls cfg t2 (.list lk (.iter true)) r' t3) (hne : r' ≠ .exhausted) : r' = .ok (.items l) := by
  have ha : LeavesList cfg lk c := by
    cases c with
    | list => exact absurd rfl ha
    | _ => trivial
  obtain ⟨s, a1, a2⟩ := list_state lk h hn
  obtain ⟨e1, s1, b1, b2, b3⟩ := a1.iter h1 (by simp)
  obtain ⟨e2, _⟩ := (b1.other hc ha).iter h3 hne
  simp only [OList.dir, if_true, Res.ok.injEq, Resp.items.injEq] at e1
  rw [e2, b2, e1]; rfl

/-- The same key bytes used in all four APIs at once. -/
example := checkHist_reachable (cfg := runCfg) (cs := [(.kv [97] (.set [1]), .ok (.setStatus .createdNew)), (.typed [97] (.set [2]), .ok (.setStatus .createdNew)),
  (.list [97] (.set [97] [3]), .ok (.setStatus .createdNew)), (.queue [97] (.push .tail [4]), .ok (.num 9223372036854775808)),
  (.kv [97] .get, .ok (.val (some [1]))), (.typed [97] .get, .ok (.val (some [2]))), (.list [97] (.iter true), .ok (.items [([97], [3])])),
  (.kv [97] .remove, .ok (.val (some [1]))), (.queue [97] (.iter true), .ok (.elems [(9223372036854775808, [4])])),
  (.list [97] (.get [97]), .ok (.val (some [3])))]) (by decide +kernel)

/-! ## C31 -/

/-- Small shards, so that items of more than a few hundred bytes do not fit. -/
def smallCfg : Cfg := { runCfg with maxShardSize := 256 }

/-- **C31 does not hold**: a failed `set_in_list` leaves the length increased. -/
theorem C31_refuted_list : ∃ t t', Reachable smallCfg [] t ∧ Run smallCfg t
    [.call (.list [76] (.set [97] (List.replicate 256 0))) (.err .cannotFit), .call (.list [76] (.iter true)) (.ok (.items [])),
     .call (.list [76] .len) (.ok (.num 1))] t' := by
  obtain ⟨t, t', h1, h2⟩ := checkHist_append (cfg := smallCfg) (cs := [])
    (ds := [(.list [76] (.set [97] (List.replicate 256 0)), .err .cannotFit), (.list [76] (.iter true), .ok (.items [])),
      (.list [76] .len, .ok (.num 1))]) (by decide +kernel)
  exact ⟨t, t', h1, h2⟩

/-- ... and a failed promoting set loses the item. -/
theorem C31_refuted_promoting : ∃ es t t', Reachable smallCfg es t ∧ Run smallCfg t
    [.call (.list [76] (.get [97])) (.ok (.val (some [1]))), .call (.list [76] (.setPromoting [97] (List.replicate 256 0))) (.err .cannotFit),
     .call (.list [76] (.get [97])) (.ok (.val none))] t' := by
  obtain ⟨t, t', h1, h2⟩ := checkHist_append (cfg := smallCfg) (cs := [(.list [76] (.set [97] [1]), .ok (.setStatus .createdNew))])
    (ds := [(.list [76] (.get [97]), .ok (.val (some [1]))), (.list [76] (.setPromoting [97] (List.replicate 256 0)), .err .cannotFit),
     (.list [76] (.get [97]), .ok (.val none))]) (by decide +kernel)
  exact ⟨_, t, t', h1, h2⟩

/-- ... and a failed `push_to_queue_tail` leaves length and range of the queue increased. -/
theorem C31_refuted_queue : ∃ t t', Reachable smallCfg [] t ∧ Run smallCfg t
    [.call (.queue [81] (.push .tail (List.replicate 256 0))) (.err .cannotFit), .call (.queue [81] (.iter true)) (.ok (.elems [])),
     .call (.queue [81] .len) (.ok (.num 1)), .call (.queue [81] .range) (.ok (.range (9223372036854775808, 9223372036854775809)))] t' := by
  obtain ⟨t, t', h1, h2⟩ := checkHist_append (cfg := smallCfg) (cs := [])
    (ds := [(.queue [81] (.push .tail (List.replicate 256 0)), .err .cannotFit), (.queue [81] (.iter true), .ok (.elems [])),
     (.queue [81] .len, .ok (.num 1)), (.queue [81] .range, .ok (.range (9223372036854775808, 9223372036854775809)))]) (by decide +kernel)
  exact ⟨t, t', h1, h2⟩

/-- **C34** without its condition on failed calls is false: after a failed `push_to_queue_tail`, `queue_len` is not the number of elements. -/
theorem C34_refuted : ∃ (cfg : Cfg) (es : List Event) (t t1 t2 : Tree) (qk : Bytes) (l : List (Nat × Bytes)) (n : Nat), Reachable cfg es t ∧
    Calls cfg t (.queue qk (.iter true)) (.ok (.elems l)) t1 ∧ Calls cfg t1 (.queue qk .len) (.ok (.num n)) t2 ∧ n ≠ l.length := by
  obtain ⟨t, t', h1, h2⟩ := checkHist_append (cfg := smallCfg) (cs := [(.queue [81] (.push .tail (List.replicate 256 0)), .err .cannotFit)])
    (ds := [(.queue [81] (.iter true), .ok (.elems [])), (.queue [81] .len, .ok (.num 1))]) (by decide +kernel)
  obtain ⟨t1, g1, _, h3⟩ := Run.cons_call h2
  obtain ⟨t2, g2, _, _⟩ := Run.cons_call h3
  exact ⟨smallCfg, _, t, t1, t2, [81], [], 1, h1, g1, g2, by decide⟩

/-- **C31** (partial: the items, not the length; not for `set_in_list_promoting`). A failed call on a list leaves its items and their order as
they were; a call fails only if something does not fit. -/
theorem C31_failed_list_partial {cfg es t t1 t2 t3 lk op e l l'} (h : Reachable cfg es t) (hn : Orderly cfg lk es)
    (h1 : Calls cfg t (.list lk (.iter true)) (.ok (.items l)) t1) (h2 : Calls cfg t1 (.list lk op) (.err e) t2)
    (hop : ∀ ik v, op ≠ .setPromoting ik v)
    (h3 : Calls cfg t2 (.list lk (.iter true)) (.ok (.items l')) t3) :
    l' = l ∧ ∃ ik v, (op = .set ik v ∨ (∃ x, op = .replace ik v x) ∨ op = .getOrCreate ik v) ∧ ¬ listFits cfg lk ik v := by
  obtain ⟨s, s', rfl, rfl, _, hd, ik, v, l1, e1, e2, e3, _⟩ := C21_before_after h hn h1 h2 (by simp) h3
  cases op with
  | setPromoting ik v => exact absurd rfl (hop ik v)
  | set ik' v' =>
    simp only [LOp.stores?, Option.some.injEq, Prod.mk.injEq] at e1
    obtain ⟨rfl, rfl, rfl⟩ := e1
    exact ⟨e3, _, _, Or.inl rfl, e2⟩
  | replace ik' v' x =>
    simp only [LOp.stores?, Option.some.injEq, Prod.mk.injEq] at e1
    obtain ⟨rfl, rfl, rfl⟩ := e1
    exact ⟨e3, _, _, Or.inr (Or.inl ⟨_, rfl⟩), e2⟩
  | getOrCreate ik' v' =>
    simp only [LOp.stores?, Option.some.injEq, Prod.mk.injEq] at e1
    obtain ⟨rfl, rfl, rfl⟩ := e1
    exact ⟨e3, _, _, Or.inr (Or.inr rfl), e2⟩
  | _ => simp [LOp.stores?] at e1

/-- A failed call on a list with items. -/
example := checkHist_reachable (cfg := smallCfg) (cs := [(.list [76] (.set [97] [1]), .ok (.setStatus .createdNew)),
  (.list [76] (.iter true), .ok (.items [([97], [1])])), (.list [76] (.set [98] (List.replicate 256 0)), .err .cannotFit),
  (.list [76] (.iter true), .ok (.items [([97], [1])]))]) (by decide +kernel)

end Candy.Props
