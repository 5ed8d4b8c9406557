import Verif.Proofs.Clear
import Verif.Proofs.ClearFiles
import Verif.Proofs.ConcRunner
import Verif.Props.Conc
import Verif.Props.CrashMore
/-!
# C73, C74: `clear` called while other threads and background compactions work
-/
namespace Candy.Props
open Candy.Spec

/-- **C73** (partial). A life of the store, then a period in which threads make calls and others call `clear` at the same time, then the rest of the life: every call, and every `clear`, happens at one moment
between its beginning and its return, and in this order all calls answer as the ideal map, lists and queues do, which a `clear` empties; so a value set by a call that returned before the `clear` began is
gone, and one set by a call begun after the `clear` returned is there. Missing: a `clear` that happens while a list or queue call is between its first and its last access (`CState.NoSection`; false:
`C73_refuted_list`), and, as in C38, the calls that are not atomic. -/
theorem C73_clear_partial {cfg : Cfg} {bs bs2 : List Block} {t t2 : Tree} {tr : List XEvent} {x : XState} (h : ReachableC cfg bs t) (hr : ClearRun cfg CState.NoSection (XState.idle t) tr x)
    (hq : ∀ i, x.st.thr i = none) (h2 : Lives cfg x.st.tree bs2 t2) (hat : SerialCalls cfg bs) (hatr : Serial cfg (callsOf tr)) (hat2 : SerialCalls cfg bs2) :
    ∃ es ops es2, Explains bs es ∧ LinearizesC tr ops ∧ Explains bs2 es2 ∧ LikeIdealMap cfg Map.empty (es ++ (ops ++ es2)) ∧
      (∀ lk, NoClash cfg lk (es ++ (ops ++ es2)) → LikeIdealList cfg lk (some LState.new) (es ++ (ops ++ es2))) ∧
      (∀ qk, LikeIdealQueue cfg qk (some QState.new) (es ++ (ops ++ es2))) := by
  obtain ⟨t0, h0, h1⟩ := h
  obtain ⟨hs, hg⟩ := create_sane h0
  obtain ⟨es, w, g1, g2, g3, g4⟩ := h1.refines true World.new hs (by rw [hg]; exact MAbs.new cfg) hat
  obtain ⟨ops, w1, q1, q2, q3, q4⟩ := hr.idle (fun _ h => h) hq g3 g4 hatr
  obtain ⟨es2, w2, r1, r2, _⟩ := h2.refines false w1 q3 q4 hat2
  have hrun := SpecRun.append g2 (SpecRun.append q2 r2)
  exact ⟨es, ops, es2, g1, q1, r1, specRun_likeIdealMap hrun, fun lk hn => specRun_likeList hrun hn, fun qk => (specRun_queue hrun).1⟩

/-- **C73** for key-value calls (`get`, `set`, `remove`, `replace`, `get_or_create`, `contains`, typed or not): no restriction on the moments of the clears. -/
theorem C73_clear_kv {cfg : Cfg} {bs : List Block} {t : Tree} {tr : List XEvent} {x : XState} (h : ReachableC cfg bs t) (hr : ClearRun cfg (fun _ => True) (XState.idle t) tr x)
    (hq : ∀ i, x.st.thr i = none) (hat : SerialCalls cfg bs) (hkv : ∀ i c, XEvent.ev (.inv i c) ∈ tr → c.isKv = true) :
    ∃ es ops, Explains bs es ∧ LinearizesC tr ops ∧ LikeIdealMap cfg Map.empty (es ++ ops) := by
  have hr' : ClearRun cfg CState.NoSection (XState.idle t) tr x := hr.onlyKv (fun i c p e => by cases e) hkv
  have hser : Serial cfg (callsOf tr) := Serial.of_atomic (fun i c hm => by
    have := hkv i c (mem_callsOf.1 hm)
    cases c with
    | kv => rfl
    | typed => rfl
    | list => cases this
    | queue => cases this)
  obtain ⟨es, ops, es2, h1, h2, h3, h4, _⟩ := C73_clear_partial h hr' hq (.nil _) hat hser (fun tr hm => by
    rcases hm with hm | hm <;> cases hm)
  cases h3
  rw [List.append_nil] at h4
  exact ⟨es, ops, h1, h2, h4⟩

/-! ## Concrete runs -/

/-- Calls one at a time, a schedule, one `clear`, a schedule, calls one at a time. -/
def checkX (cfg : Cfg) (cs : List (Call × Res Resp)) (N : Nat) (sch sch2 : List SCmd) (ds : List (Call × Res Resp)) : Bool :=
  match Tree.create cfg with
  | none => false
  | some t0 => match runSeq cfg cs 0 t0 with
    | none => false
    | some (n, t) => match runC cfg sch n (CState.idle t) with
      | none => false
      | some (n1, s) => match runC cfg sch2 n1 { s with tree := t0 } with
        | none => false
        | some (n2, s2) => match runSeq cfg ds n2 s2.tree with
          | none => false
          | some (n3, _) => decide (n3 < 4294967296) && (sch ++ sch2).all (fun c => decide (c.thread < N)) && (List.range N).all (fun j => (s2.thr j).isNone)

/-- The calls in progress after the first schedule. -/
def pendAfter : List SCmd → (Nat → Option Call) → Nat → Option Call
  | [], p => p
  | .go i c :: cs, p => pendAfter cs (setN p i (some c))
  | .step _ :: cs, p => pendAfter cs p
  | .fin i _ :: cs, p => pendAfter cs (setN p i none)

theorem pendAfter_sound {cfg : Cfg} {ex : Bool} : ∀ (cs : List SCmd) (n : Nat) (s : CState) {n' s'}, runC cfg cs n s = some (n', s') → Tree.OK cfg ex 0 END_OF_SHARDS s.tree → s.tree.pot ≤ n →
    n' < 4294967296 → s'.pend = pendAfter cs s.pend
  | [], n, s, n', s', h, _, _, _ => by cases h; rfl
  | .go i c :: cs, n, s, n', s', h, h1, h2, h3 => by
    unfold runC at h
    cases ht : s.thr i with
    | some x => rw [ht] at h; cases h
    | none =>
      rw [ht] at h
      dsimp only at h
      have := pendAfter_sound cs _ _ h h1 h2 h3
      rw [pend_go] at this
      exact this
  | .step i :: cs, n, s, n', s', h, h1, h2, h3 => by
    unfold runC at h
    cases ht : stepC cfg i n s with
    | none => rw [ht] at h; cases h
    | some x =>
      obtain ⟨n1, s1, e⟩ := x
      rw [ht] at h
      cases e with
      | cons a b => cases h
      | nil =>
        dsimp only at h
        have hm1 := stepC_mono ht
        have hm2 := (runC_sound (ex := ex) cs _ _ h).1
        obtain ⟨q1, q2, ⟨c, p, g1, g2⟩, q3⟩ := stepC_sound (ex := ex) ht h1 h2 (by omega)
        have hpend : s1.pend = s.pend := by
          rcases g2 with ⟨_, p', e⟩ | ⟨r, e, _⟩
          · unfold CState.pend; rw [e]; exact pend_same g1
          · cases e
        rw [pendAfter_sound cs _ _ h q1 (q2 (by omega)) h3, hpend]
        rfl
  | .fin i r :: cs, n, s, n', s', h, h1, h2, h3 => by
    unfold runC at h
    cases ht : stepC cfg i n s with
    | none => rw [ht] at h; cases h
    | some x =>
      obtain ⟨n1, s1, e⟩ := x
      rw [ht] at h
      have key : ∀ r', e = [.ret i r' r] → runC cfg cs n1 s1 = some (n', s') → s'.pend = pendAfter (.fin i r :: cs) s.pend := by
        intro c' he h
        have hm1 := stepC_mono ht
        have hm2 := (runC_sound (ex := ex) cs _ _ h).1
        obtain ⟨q1, q2, ⟨c, p, g1, g2⟩, q3⟩ := stepC_sound (ex := ex) ht h1 h2 (by omega)
        rw [pendAfter_sound cs _ _ h q1 (q2 (by omega)) h3]
        rcases g2 with ⟨e', _⟩ | ⟨r0, e', g3⟩
        · rw [he] at e'; cases e'
        · have hpend : s1.pend = setN s.pend i none := by unfold CState.pend; rw [g3]; exact pend_fin
          rw [hpend]; rfl
      obtain ⟨_, _, ⟨c, p, g1, g2⟩, _⟩ := stepC_sound (ex := ex) ht h1 h2 (by
        have hm1 := stepC_mono ht
        cases e with
        | nil => cases h
        | cons a b =>
          cases a with
          | inv => cases b <;> cases h
          | ret j c' r' =>
            cases b with
            | cons => cases h
            | nil =>
              dsimp only at h
              split at h
              · have := (runC_sound (ex := ex) cs _ _ h).1; omega
              · cases h)
      rcases g2 with ⟨e', _⟩ | ⟨r0, e', _⟩
      · subst e'; cases h
      · subst e'
        dsimp only at h
        split at h
        · rename_i er
          subst er
          exact key c rfl h
        · cases h

theorem checkX_sound {cfg : Cfg} {cs : List (Call × Res Resp)} {N : Nat} {sch sch2 : List SCmd} {ds : List (Call × Res Resp)} (h : checkX cfg cs N sch sch2 ds = true) :
    ∃ t x t', ReachableC cfg [.seq (hist cs)] t ∧
      ClearRun cfg (fun _ => True) (XState.idle t)
        ((traceOf sch (fun _ => none)).map .ev ++ (.clearInv 0 :: .clearRet 0 :: ((traceOf sch2 (pendAfter sch (fun _ => none))).map .ev ++ []))) x ∧
      (∀ i, x.st.thr i = none) ∧ Lives cfg x.st.tree [.seq (hist ds)] t' := by
  unfold checkX at h
  cases hc : Tree.create cfg with
  | none => rw [hc] at h; cases h
  | some t0 =>
    rw [hc] at h
    dsimp only at h
    cases hr : runSeq cfg cs 0 t0 with
    | none => rw [hr] at h; cases h
    | some y =>
      obtain ⟨n, t⟩ := y
      rw [hr] at h
      dsimp only at h
      cases hr1 : runC cfg sch n (CState.idle t) with
      | none => rw [hr1] at h; cases h
      | some y =>
        obtain ⟨n1, s⟩ := y
        rw [hr1] at h
        dsimp only at h
        cases hr2 : runC cfg sch2 n1 { s with tree := t0 } with
        | none => rw [hr2] at h; cases h
        | some y =>
          obtain ⟨n2, s2⟩ := y
          rw [hr2] at h
          dsimp only at h
          cases hr3 : runSeq cfg ds n2 s2.tree with
          | none => rw [hr3] at h; cases h
          | some y =>
            obtain ⟨n3, t'⟩ := y
            rw [hr3] at h
            simp only [Bool.and_eq_true, decide_eq_true_eq, List.all_eq_true, List.mem_range] at h
            obtain ⟨⟨h1, h2⟩, h3⟩ := h
            have hb := runSeq_sound cs _ _ hr
            have hb3 := runSeq_sound ds _ _ hr3
            have hm3 := hb3.mono
            have hm2 := (runC_sound (ex := false) sch2 _ _ hr2).1
            have hm1 := (runC_sound (ex := false) sch _ _ hr1).1
            have hlt : n < 4294967296 := by omega
            have hreach := Reachable.of_budget hc hb hlt
            obtain ⟨w, _, hs, _⟩ := hreach.world
            obtain ⟨u0, hu0, hu1⟩ := hreach
            have hpot : t.pot ≤ n := RunB.pot_le hc hb hlt
            obtain ⟨g1, g2, g3⟩ := (runC_sound (ex := false) sch _ _ hr1).2 hs.ok hpot (by omega)
            have hpend := pendAfter_sound (ex := false) sch _ _ hr1 hs.ok hpot (by omega)
            have hfresh : t0.pot ≤ n1 := by
              have := RunB.pot_le hc (.nil 0 t0) (by omega)
              omega
            obtain ⟨k1, k2, k3⟩ := (runC_sound (ex := false) sch2 _ _ hr2).2 (create_sane hc).1.ok.weaken hfresh (by omega)
            have ep : CState.pend { s with tree := t0 } = pendAfter sch (fun _ => none) := hpend
            rw [ep] at k1
            refine ⟨t, ⟨s2, _⟩, t', ⟨u0, hu0, .seq hu1 (.nil _)⟩,
              .run g1 (.inv 0 rfl (.clear (t' := t0) 0 rfl trivial hc (.ret 0 rfl (.run k1 (.nil _))))), fun i => ?_,
              .seq (hb3.toRun ⟨hs.bound, k2⟩ k3 h1) (.nil _)⟩
            by_cases hi : i < N
            · have := h3 i hi
              show s2.thr i = none
              revert this; cases s2.thr i <;> simp
            · show s2.thr i = none
              rw [runC_thr sch2 _ _ hr2 (fun c hc' => by have := h2 c (List.mem_append_right _ hc'); omega)]
              show s.thr i = none
              rw [runC_thr sch _ _ hr1 (fun c hc' => by have := h2 c (List.mem_append_left _ hc'); omega)]; rfl

def clearKvBefore : List (Call × Res Resp) := [(.kv [1] (.set [10]), .ok (.setStatus .createdNew)), (.kv [2] (.set [20]), .ok (.setStatus .createdNew))]

/-- Two threads set keys 1 and 3 around the clear, a third reads key 2 after it. -/
def clearKvSched : List SCmd := [.go 0 (.kv [1] (.set [11])), .step 0, .go 1 (.kv [3] (.set [30])), .go 2 (.kv [2] .get)]

def clearKvSched2 : List SCmd := [.fin 0 (.ok (.setStatus (.prevValue [10]))), .step 1, .step 2, .fin 2 (.ok (.val none)), .fin 1 (.ok (.setStatus .createdNew))]

def clearKvAfter : List (Call × Res Resp) := [(.kv [1] .get, .ok (.val none)), (.kv [3] .get, .ok (.val (some [30])))]

set_option maxRecDepth 100000 in
theorem clear_kv_run : checkX runCfg clearKvBefore 3 clearKvSched clearKvSched2 clearKvAfter = true := by decide +kernel

/-- The hypotheses of C73 are met: the threads' calls overlap the clear; the set of key 1 happens before it, the set of key 3 and the read of key 2 after it. -/
example : ∃ t x, ReachableC runCfg [.seq (hist clearKvBefore)] t ∧ ClearRun runCfg (fun _ => True) (XState.idle t)
    [.ev (.inv 0 (.kv [1] (.set [11]))), .ev (.inv 1 (.kv [3] (.set [30]))), .ev (.inv 2 (.kv [2] .get)), .clearInv 0, .clearRet 0,
     .ev (.ret 0 (.kv [1] (.set [11])) (.ok (.setStatus (.prevValue [10])))), .ev (.ret 2 (.kv [2] .get) (.ok (.val none))),
     .ev (.ret 1 (.kv [3] (.set [30])) (.ok (.setStatus .createdNew)))] x ∧ (∀ i, x.st.thr i = none) := by
  obtain ⟨t, x, t', h1, h2, h3, _⟩ := checkX_sound clear_kv_run
  exact ⟨t, x, h1, h2, h3⟩

/-! ## A list call and `clear` -/

def clearListSched : List SCmd := [.go 0 (.list [76] (.set [97] [1])), .step 0, .step 0, .step 0]

def clearListSched2 : List SCmd := [.step 0, .step 0, .step 0, .fin 0 (.ok (.setStatus .createdNew))]

def clearListAfter : List (Call × Res Resp) :=
  [(.list [76] (.get [97]), .ok (.val (some [1]))), (.list [76] (.iter true), .ok (.items [])), (.list [76] .len, .ok (.num 0))]

set_option maxRecDepth 100000 in
theorem clear_list_run : checkX runCfg [] 1 clearListSched clearListSched2 clearListAfter = true := by decide +kernel

/-- One thread and one clear. -/
def oneP (a : Phase) : Nat → Phase := fun j => if j = 0 then a else .out
def oneC (b : Option Bool) : Nat → Option Bool := fun j => if j = 0 then b else none

theorem setN_oneP {a x} : setN (oneP a) 0 x = oneP x := by funext j; unfold setN oneP; by_cases h : j = 0 <;> simp [h]
theorem setN_oneC {a x} : setN (oneC a) 0 x = oneC x := by funext j; unfold setN oneC; by_cases h : j = 0 <;> simp [h]

inductive NextC (a : Phase) (b : Option Bool) : List XEvent → List Event → Prop
  | nil : NextC a b [] []
  | eff {tr es c r} (h : a = .called c) (hr : LinC (oneP (.effect c r)) (oneC b) tr es) : NextC a b tr (.call c r :: es)
  | clr {tr es} (h : b = some false) (hr : LinC (oneP a) (oneC (some true)) tr es) : NextC a b tr (.clear :: es)
  | inv {tr es c} (h : a = .out) (hr : LinC (oneP (.called c)) (oneC b) tr es) : NextC a b (.ev (.inv 0 c) :: tr) es
  | ret {tr es c r} (h : a = .effect c r) (hr : LinC (oneP .out) (oneC b) tr es) : NextC a b (.ev (.ret 0 c r) :: tr) es
  | cinv {tr es} (h : b = none) (hr : LinC (oneP a) (oneC (some false)) tr es) : NextC a b (.clearInv 0 :: tr) es
  | cret {tr es} (h : b = some true) (hr : LinC (oneP a) (oneC none) tr es) : NextC a b (.clearRet 0 :: tr) es
  | other {tr es i c} (h : i ≠ 0) : NextC a b (.ev (.inv i c) :: tr) es
  | otherC {tr es j} (h : j ≠ 0) : NextC a b (.clearInv j :: tr) es

theorem _root_.Candy.Spec.LinC.next {a b tr es} (h : LinC (oneP a) (oneC b) tr es) : NextC a b tr es := by
  generalize hp : oneP a = ph at h
  generalize hq : oneC b = cl at h
  cases h with
  | nil => exact .nil
  | inv i c h rest =>
    subst hp hq
    by_cases h0 : i = 0
    · subst h0; rw [setN_oneP] at rest; exact .inv h rest
    · exact .other h0
  | effect i c r h _ rest =>
    subst hp hq
    by_cases h0 : i = 0
    · subst h0; rw [setN_oneP] at rest; exact .eff h rest
    · simp [oneP, h0] at h
  | ret i c r h rest =>
    subst hp hq
    by_cases h0 : i = 0
    · subst h0; rw [setN_oneP] at rest; exact .ret h rest
    · simp [oneP, h0] at h
  | clearInv j h rest =>
    subst hp hq
    by_cases h0 : j = 0
    · subst h0; rw [setN_oneC] at rest; exact .cinv h rest
    · exact .otherC h0
  | clear j h rest =>
    subst hp hq
    by_cases h0 : j = 0
    · subst h0; rw [setN_oneC] at rest; exact .clr h rest
    · simp [oneC, h0] at h
  | clearRet j h rest =>
    subst hp hq
    by_cases h0 : j = 0
    · subst h0; rw [setN_oneC] at rest; exact .cret h rest
    · simp [oneC, h0] at h

theorem _root_.Candy.Spec.LinearizesC.one {tr es} (h : LinearizesC tr es) : LinC (oneP .out) (oneC none) tr es := by
  have h1 : (fun _ => Phase.out) = oneP .out := by funext j; unfold oneP; split <;> rfl
  have h2 : (fun _ => (none : Option Bool)) = oneC none := by funext j; unfold oneC; split <;> rfl
  rw [← h1, ← h2]; exact h

/-- A call that overlaps a clear. -/
theorem linC_overlap {c q es} (h : LinearizesC [.ev (.inv 0 c), .clearInv 0, .clearRet 0, .ev (.ret 0 c q)] es) :
    es = [.call c q, .clear] ∨ es = [.clear, .call c q] := by
  have fin : ∀ {es}, LinC (oneP .out) (oneC none) [] es → es = [] := by
    intro es h; cases h.next with
    | nil => rfl
    | eff g => cases g
    | clr g => cases g
  have e4 : ∀ {es x}, LinC (oneP (.effect c x)) (oneC none) [.ev (.ret 0 c q)] es → es = [] ∧ x = q := by
    intro es x h; cases h.next with
    | eff g => cases g
    | clr g => cases g
    | ret g hr => cases g; exact ⟨fin hr, rfl⟩
  have c4 : ∀ {es}, LinC (oneP (.called c)) (oneC none) [.ev (.ret 0 c q)] es → es = [.call c q] := by
    intro es h; cases h.next with
    | eff g hr => cases g; obtain ⟨rfl, rfl⟩ := e4 hr; rfl
    | clr g => cases g
    | ret g => cases g
  have e3 : ∀ {es x}, LinC (oneP (.effect c x)) (oneC (some true)) [.clearRet 0, .ev (.ret 0 c q)] es → es = [] ∧ x = q := by
    intro es x h; cases h.next with
    | eff g => cases g
    | clr g => cases g
    | cret g hr => exact e4 hr
  have c3 : ∀ {es}, LinC (oneP (.called c)) (oneC (some true)) [.clearRet 0, .ev (.ret 0 c q)] es → es = [.call c q] := by
    intro es h; cases h.next with
    | eff g hr => cases g; obtain ⟨rfl, rfl⟩ := e3 hr; rfl
    | clr g => cases g
    | cret g hr => exact c4 hr
  have e2 : ∀ {es x}, LinC (oneP (.effect c x)) (oneC (some false)) [.clearRet 0, .ev (.ret 0 c q)] es → es = [.clear] ∧ x = q := by
    intro es x h; cases h.next with
    | eff g => cases g
    | clr g hr => obtain ⟨rfl, rfl⟩ := e3 hr; exact ⟨rfl, rfl⟩
    | cret g => cases g
  have c2 : ∀ {es}, LinC (oneP (.called c)) (oneC (some false)) [.clearRet 0, .ev (.ret 0 c q)] es → es = [.call c q, .clear] ∨ es = [.clear, .call c q] := by
    intro es h; cases h.next with
    | eff g hr => cases g; obtain ⟨rfl, rfl⟩ := e2 hr; exact .inl rfl
    | clr g hr => rw [c3 hr]; exact .inr rfl
    | cret g => cases g
  have e1 : ∀ {es x}, LinC (oneP (.effect c x)) (oneC none) [.clearInv 0, .clearRet 0, .ev (.ret 0 c q)] es → es = [.clear] ∧ x = q := by
    intro es x h; cases h.next with
    | eff g => cases g
    | clr g => cases g
    | cinv g hr => exact e2 hr
    | otherC g => exact absurd rfl g
  cases h.one.next with
  | eff g => cases g
  | clr g => cases g
  | other g => exact absurd rfl g
  | inv g hr =>
    cases hr.next with
    | eff g hs => cases g; obtain ⟨rfl, rfl⟩ := e1 hs; exact .inl rfl
    | clr g => cases g
    | cinv g hs => exact c2 hs
    | otherC g => exact absurd rfl g

/-- **C73 is false for list calls** (and likewise for queue calls): `clear` does not take the lock of the list. Thread 0 sets an item of a new list; after it has written the list's record the store is cleared; the
thread goes on to write the item. Both calls succeed. Afterwards `get_from_list` finds the item, but iterating over the list yields nothing and `list_len` is 0. No order of the two calls
explains this. -/
theorem C73_refuted_list : ∃ t x t',
    ReachableC runCfg [.seq []] t ∧
    ClearRun runCfg (fun _ => True) (XState.idle t) [.ev (.inv 0 (.list [76] (.set [97] [1]))), .clearInv 0, .clearRet 0,
      .ev (.ret 0 (.list [76] (.set [97] [1])) (.ok (.setStatus .createdNew)))] x ∧ (∀ i, x.st.thr i = none) ∧
    Lives runCfg x.st.tree [.seq [.call (.list [76] (.get [97])) (.ok (.val (some [1]))), .call (.list [76] (.iter true)) (.ok (.items [])),
      .call (.list [76] .len) (.ok (.num 0))]] t' ∧
    ∀ ops, LinearizesC [.ev (.inv 0 (.list [76] (.set [97] [1]))), .clearInv 0, .clearRet 0,
      .ev (.ret 0 (.list [76] (.set [97] [1])) (.ok (.setStatus .createdNew)))] ops →
      ¬ LikeIdealList runCfg [76] (some LState.new) (ops ++ [.call (.list [76] (.get [97])) (.ok (.val (some [1]))), .call (.list [76] (.iter true)) (.ok (.items [])),
        .call (.list [76] .len) (.ok (.num 0))]) := by
  obtain ⟨t, x, t', h1, h2, h3, h4⟩ := checkX_sound clear_list_run
  refine ⟨t, x, t', h1, h2, h3, h4, fun ops ho hl => ?_⟩
  rcases linC_overlap ho with rfl | rfl
  · obtain ⟨_, ⟨s1, ⟨⟨a1, _⟩, _⟩, rfl⟩, hl⟩ := hl
    have hl : LikeIdealList runCfg [76] (some LState.new) _ := hl
    obtain ⟨_, ⟨s2, ⟨⟨_, a2⟩, _⟩, rfl⟩, hl⟩ := hl
    simp [LState.new, OList.get] at a2
  · have hl : LikeIdealList runCfg [76] (some LState.new) (.call (.list [76] (.set [97] [1])) (.ok (.setStatus .createdNew)) :: _) := hl
    obtain ⟨_, ⟨s1, ⟨⟨a1, _⟩, _⟩, rfl⟩, hl⟩ := hl
    obtain ⟨_, ⟨s2, ⟨⟨a2, _⟩, _⟩, rfl⟩, hl⟩ := hl
    obtain ⟨_, ⟨s3, ⟨⟨_, a3⟩, _⟩, rfl⟩, hl⟩ := hl
    simp [a1, a2, LState.new, OList.set, OList.get, OList.dir] at a3

/-! ## C74 -/

/-- **C74** (partial). `clear` while background compactions of the old shards run: it succeeds exactly if none of them finishes meanwhile (`ClearFiles`, for every interleaving of its file operations with the stores and
renames of the compactions); if it succeeds the directory holds exactly the files of a new store, whose contents are empty, and what is left of the compactions never changes it. Missing: if it fails the old
store is not always usable, see `C74_refuted`. -/
theorem C74_clear_files_partial {cfg : Cfg} {t t' : Tree} {d d' : Dir} {ok : Bool} {rn : List Span} (hd : DirOf d t.leaves) (ht : t.clear cfg = some t')
    (h : ClearFiles d (clearOps cfg d) ok rn d') :
    (ok = true ↔ rn = []) ∧ (ok = true → DirOf d' t'.leaves ∧ (∀ k, t'.get cfg k = none) ∧ ∀ r d2, ¬ BgFile d' r d2) := by
  obtain ⟨h1, h2⟩ := clear_files_bg hd ht h
  refine ⟨h1, fun e => ⟨(h2 e).1, fun k => ?_, (h2 e).2⟩⟩
  rw [(create_sane ht).2]; rfl

/-- Two shards; compaction after one wasted byte. -/
def clearCfg : Cfg :=
  { hash := fun b => ⟨if b.headD 0 < 128 then 0#64 else 0x8000000000000000#64, 0#64⟩, maxShardSize := 1000, minCompaction := 1, expectedKeys := 58982, maxListOps := 16 }

def clearScript1 : List Cmd := [.call (.kv [1] (.set [7])), .call (.kv [200] (.set [1])), .call (.kv [201] (.set [2]))]
def clearScript2 : List Cmd := [.call (.kv [200] .remove), .call (.kv [201] .remove), .call (.kv [202] (.set [4]))] ++ List.replicate 64 (.bg 32768)

def clearCheck (t : Tree) : Bool :=
  decide (t.userGet clearCfg [1] = some [7]) && match t.leaves with
    | [a, b] => a.tgt.isNone && decide (a.lo = 0 ∧ a.hi = 32768 ∧ b.lo = 32768 ∧ b.hi = 65536) && match b.tgt with
      | some f => decide (f.compactedUpTo = 64)
      | none => false
    | _ => false

set_option maxRecDepth 100000 in
theorem clear_comp_run : checkT2 clearCfg clearScript1 clearScript2 (fun _ t' => clearCheck t') = true := by decide +kernel

/-- A single shard that does not cover everything is refused. -/
theorem treeify_half {lo hi : Nat} {f : MFile} (h : hi - lo < END_OF_SHARDS) : treeify [⟨lo, hi, f, none⟩] = none := by
  unfold treeify
  simp only [List.map_cons, List.map_nil, List.foldl_cons, List.foldl_nil, Tree.len, Tree.lo, Tree.hi, if_pos h]
  have : (decide (([Tree.leaf ⟨lo, hi, f, none⟩] : List Tree).length ≤ 1) && (hi - lo) != END_OF_SHARDS) = true := by
    simp only [List.length_singleton, Nat.le_refl, decide_true, Bool.true_and, bne_iff_ne, ne_eq]
    exact Nat.ne_of_lt h
  rw [this, Bool.or_true, if_pos rfl]

/-- Opening a directory that holds the file of one of several shards only. -/
theorem open_half {cfg : Cfg} {lo hi : Nat} (cb : Bool) (f : MFile) (h : lo < hi ∧ hi ≤ END_OF_SHARDS) (hw : hi - lo < END_OF_SHARDS) :
    ∃ ops, openStore cfg cb [(⟨.shard, lo, hi⟩, .good f)] = (ops, .panic) := by
  have hl : load cfg cb [(⟨.shard, lo, hi⟩, .good f)] = ([.magic ⟨.shard, lo, hi⟩], .ok [⟨lo, hi, f, none⟩]) := by
    simp [load, scanDir, consolidate, consolidateLoop, openAll, openShard, openSrc, Dir.find, h]
  have hp : (openStore cfg cb [(⟨.shard, lo, hi⟩, .good f)]).2 = .panic := by
    unfold openStore
    rw [hl]
    dsimp only
    rw [treeify_half hw]
  exact ⟨(openStore cfg cb [(⟨.shard, lo, hi⟩, .good f)]).1, Prod.ext rfl hp⟩

/-- **C74 is false if a compaction finishes during `clear`**: the store has two shards, key 1 has value 7, and the compaction of the second shard has copied everything. `clear` deletes the files of the shards; now the compaction
renames its file; `clear` fails when it comes to the name that is gone. The store goes on answering that key 1 has value 7, but once it is closed it cannot be opened any more: `open` panics. -/
theorem C74_refuted : ∃ es t d d', Reachable clearCfg es t ∧ t.userGet clearCfg [1] = some [7] ∧ DirOf d t.leaves ∧
    ClearFiles d (clearOps clearCfg d) false [(32768, 65536)] d' ∧ ∀ cb, ∃ ops, openStore clearCfg cb d' = (ops, .panic) := by
  obtain ⟨es, t1, es', t, ⟨t0, h0, h1⟩, h2, h3, _⟩ := checkT2_sound clear_comp_run
  have h3 : clearCheck t = true := h3
  unfold clearCheck at h3
  rw [Bool.and_eq_true] at h3
  obtain ⟨h3, h4⟩ := h3
  cases hl : t.leaves with
  | nil => rw [hl] at h4; cases h4
  | cons a l =>
    cases l with
    | nil => rw [hl] at h4; cases h4
    | cons b l =>
      cases l with
      | cons => rw [hl] at h4; cases h4
      | nil =>
        rw [hl] at h4
        dsimp only at h4
        cases hb : b.tgt with
        | none => rw [hb] at h4; simp at h4
        | some f =>
          rw [hb] at h4
          simp only [Bool.and_eq_true, decide_eq_true_eq] at h4
          obtain ⟨⟨ha, e1, e2, e3, e4⟩, hc⟩ := h4
          have ha' : a.tgt = none := by revert ha; cases a.tgt <;> simp
          clear ha
          obtain ⟨alo, ahi, asrc, atgt⟩ := a
          obtain ⟨blo, bhi, bsrc, btgt⟩ := b
          dsimp only at e1 e2 e3 e4 ha' hb
          subst e1 e2 e3 e4 ha' hb
          refine ⟨es ++ es', t, [(⟨.shard, 0, 32768⟩, .good asrc), (⟨.shard, 32768, 65536⟩, .good bsrc), (⟨.compact, 32768, 65536⟩, .good f)],
            [(⟨.shard, 32768, 65536⟩, .good f)], ⟨t0, h0, h1.append h2⟩, by simpa using h3, ?_, ?_, fun cb => open_half cb f (by decide) (by decide)⟩
          · rw [hl]
            refine ⟨by simp, fun s hs => ?_, fun n hn => ?_⟩
            · simp only [List.mem_cons, List.not_mem_nil, or_false] at hs
              rcases hs with rfl | rfl
              · simp [Dir.find, Shard.srcName, Shard.tgtName]
              · simp [Dir.find, Shard.srcName, Shard.tgtName]
            · by_cases n1 : (⟨.shard, 0, 32768⟩ : FName) = n
              · exact ⟨_, List.mem_cons_self, .inl n1.symm⟩
              · by_cases n2 : (⟨.shard, 32768, 65536⟩ : FName) = n
                · exact ⟨_, List.mem_cons_of_mem _ List.mem_cons_self, .inl n2.symm⟩
                · by_cases n3 : (⟨.compact, 32768, 65536⟩ : FName) = n
                  · exact ⟨_, List.mem_cons_of_mem _ List.mem_cons_self, .inr n3.symm⟩
                  · exact absurd (by simp [Dir.find, n1, n2, n3]) hn
          · unfold clearOps
            refine .op (o := .unlink ⟨.shard, 0, 32768⟩) (d1 := [(⟨.shard, 32768, 65536⟩, .good bsrc), (⟨.compact, 32768, 65536⟩, .good f)]) rfl ?_
            refine .op (o := .unlink ⟨.shard, 32768, 65536⟩) (d1 := [(⟨.compact, 32768, 65536⟩, .good f)]) rfl ?_
            refine .bg (r := [(32768, 65536)]) (rn := []) (d1 := [(⟨.shard, 32768, 65536⟩, .good f)]) (.rename 32768 65536 f rfl (by rw [hc]; exact Nat.le_refl _) rfl) ?_
            exact .fail (o := .unlink ⟨.compact, 32768, 65536⟩) rfl

/-- The hypotheses of C74 are met, also with a compaction running: the directory of the store above, cleared without a step of the compaction. -/
example : ∃ es t d t' d', Reachable clearCfg es t ∧ DirOf d t.leaves ∧ t.clear clearCfg = some t' ∧ ClearFiles d (clearOps clearCfg d) true [] d' := by
  obtain ⟨es, t, d, _, h1, _, h3, _⟩ := C74_refuted
  obtain ⟨t', h5, _⟩ := C51_clear h1
  obtain ⟨d', h6, _⟩ := C51_clear_files h3 h5
  have : ∀ (os : List FOp) (d : Dir), d.run os = some d' → ClearFiles d os true [] d' := by
    intro os
    induction os with
    | nil => intro d h; cases h; exact .done _
    | cons o os ih =>
      intro d h
      unfold Dir.run at h
      cases ho : o.app d with
      | none => rw [ho] at h; cases h
      | some d1 => rw [ho] at h; exact .op ho (ih d1 h)
  exact ⟨es, t, d, t', d', h1, h3, h5, this _ _ h6⟩

end Candy.Props
