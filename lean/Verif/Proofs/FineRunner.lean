import Verif.Proofs.FineStep
import Verif.Proofs.ConcRunner
/-!
# Running concrete fine-grained schedules

An evaluator for executions one memory access at a time: a script says who makes the next step. A run of the evaluator (checked by the kernel) yields a
`FineRun`.
-/
namespace Candy
open Spec

/-- A line of a script: thread `i` begins a call; thread `i` makes `n` steps; the call of thread `i` returns with this result; the background compaction of the shard owning
`sel` makes `n` steps. -/
inductive FCmd where
  | go (i : Nat) (c : Call)
  | step (i n : Nat)
  | fin (i : Nat) (r : Res Resp)
  | bg (sel n : Nat)

/-- `FState.Busy` among the threads below `N`. -/
def FState.busyB (cfg : Cfg) (s : FState) (N : Nat) (i : Option Nat) (lo : Nat) (P : ROp → Flight → Bool) : Bool :=
  (List.range N).any (fun j => decide (some j ≠ i) && match s.thr j with
    | none => false
    | some (_, p, fl) => match p.rop with
      | none => false
      | some op => decide ((s.shard cfg op).lo = lo) && P op fl)

theorem FState.busyB_sound {cfg : Cfg} {s : FState} {N : Nat} {i : Option Nat} {lo : Nat} {P : ROp → Flight → Bool} {Q : ROp → Flight → Prop}
    (hN : ∀ j, N ≤ j → s.thr j = none) (hPQ : ∀ op fl, Q op fl → P op fl = true) (h : s.busyB cfg N i lo P = false) : ¬ s.Busy cfg i lo Q := by
  rintro ⟨j, c, p, fl, op, h1, h2, h3, h4, h5⟩
  have hj : j < N := by
    by_cases e : N ≤ j
    · rw [hN j e] at h2; cases h2
    · omega
  unfold FState.busyB at h
  rw [List.any_eq_false] at h
  have := h j (List.mem_range.2 hj)
  rw [h2] at this
  dsimp only at this
  rw [h3] at this
  dsimp only at this
  rw [hPQ op fl h5] at this
  simp [h1, h4] at this

def fitsB (s : Shard) : Bool := decide (s.src.writeOff < 4294967296) && match s.tgt with
  | none => true
  | some t => decide (t.writeOff < 4294967296)

theorem fitsB_sound {s : Shard} (h : fitsB s = true) : s.Fits := by
  unfold fitsB at h
  simp only [Bool.and_eq_true, decide_eq_true_eq] at h
  refine ⟨h.1, fun t e => ?_⟩
  rw [e] at h
  simpa using h.2

def Ans.isSplit : Ans → Bool
  | .st .splitNeeded => true
  | _ => false

/-- The compaction of the shard at `lo` is at work on row `r`. -/
def FState.bgOn (s : FState) (lo r : Nat) : Bool := match s.bg lo with
  | none => false
  | some (r', _) => decide (r' = r)

/-- The row lock is not free for this operation. -/
def rowBusy (cfg : Cfg) (op op' : ROp) (fl : Flight) : Bool := fl.onRow && decide ((op'.ph cfg).rowSel = (op.ph cfg).rowSel) && (op.writes || op'.writes)

/-- The next step of a thread that holds the row lock. -/
def stepRun (cfg : Cfg) (s : FState) (i : Nat) (c : Call) (p : Prog Resp) (sd : Side) : MProg (Ans × Option Nat) → Option FState
  | .ret a => some (s.fly i c p (.rel a.1 a.2))
  | m => match p.rop with
    | none => none
    | some op => if fitsB (s.shard cfg op) then
        match m.step (s.shard cfg op) with
        | none => none
        | some (sh', m') => some { s.fly i c p (.run sd m') with tree := s.tree.modify (op.ph cfg).shardSel (fun _ => sh') }
      else none

/-- The next step of a thread between raw operations. -/
def stepIdle (cfg : Cfg) (s : FState) (i : Nat) (c : Call) : Prog Resp → Option FState
  | .lock l p => match s.locks l with
    | none => some { s.fly i c p .idle with locks := setN s.locks l (some i) }
    | some _ => none
  | .unlock p => some { s.fly i c p .idle with locks := dropLocks s.locks i }
  | .ins k v mode q => match sizeErr cfg k v with
    | some e => some (s.fly i c (.err e) .idle)
    | none => some (s.fly i c (.ins k v mode q) .node)
  | .get k q => some (s.fly i c (.get k q) .node)
  | .rem k q => some (s.fly i c (.rem k q) .node)
  | .byHash ph suf q => some (s.fly i c (.byHash ph suf q) .node)
  | _ => none

/-- The next step of thread `i`. -/
def stepF (cfg : Cfg) (N i : Nat) (s : FState) : Option FState :=
  match s.thr i with
  | none => none
  | some (c, p, fl) => match fl with
    | .idle => stepIdle cfg s i c p
    | .node => some (s.fly i c p .files)
    | .files => match p.rop with
      | none => none
      | some op => if s.busyB cfg N (some i) (s.shard cfg op).lo (rowBusy cfg op) || s.bgOn (s.shard cfg op).lo (op.ph cfg).rowSel then none
        else some (s.fly i c p (.run ((s.shard cfg op).sideOf (op.ph cfg).rowSel)
          (op.code cfg ((s.shard cfg op).sideOf (op.ph cfg).rowSel) (s.shard cfg op).tgt.isSome)))
    | .run sd m => stepRun cfg s i c p sd m
    | .rel a sc => some (s.fly i c p (.out a sc))
    | .out a (some off) => match p.rop with
      | none => none
      | some op => if s.busyB cfg N none (s.shard cfg op).lo (fun _ fl => fl.onFiles) then none
        else some { s.fly i c p (.out a none) with tree := s.tree.modify (op.ph cfg).shardSel (fun sh => sh.beginCompaction off) }
    | .out a none => if a.isSplit then none else some (s.fly i c (p.resume a) .idle)
    | .split _ => none

/-- The next step of a background compaction. -/
def bgF (cfg : Cfg) (N sel : Nat) (s : FState) : Option FState :=
  if sel < END_OF_SHARDS then
    match s.bg (s.tree.find sel).lo with
    | none => match (s.tree.find sel).tgt with
      | none => none
      | some t => if t.compactedUpTo < NUM_ROWS then
          if s.busyB cfg N none (s.tree.find sel).lo (fun op fl => fl.onRow && decide ((op.ph cfg).rowSel = t.compactedUpTo)) then none
          else some { s with
            bg := setN s.bg (s.tree.find sel).lo (some (t.compactedUpTo, copyCode cfg (t.compactedUpTo == 0) t.compactedUpTo ROW_WIDTH 0 0)) }
        else none
    | some (r, m) => match m with
      | .ret () => some { s with bg := setN s.bg (s.tree.find sel).lo none }
      | m => if fitsB (s.tree.find sel) then
          match m.step (s.tree.find sel) with
          | none => none
          | some (sh', m') => some { s with tree := s.tree.modify sel (fun _ => sh'), bg := setN s.bg (s.tree.find sel).lo (some (r, m')) }
        else none
  else none

theorem stepRun_sound {cfg : Cfg} {s s' : FState} {i : Nat} {c : Call} {p : Prog Resp} {sd : Side} {m : MProg (Ans × Option Nat)}
    (ht : s.thr i = some (c, p, .run sd m)) (h : stepRun cfg s i c p sd m = some s') :
    FStep cfg s none s' ∧ ∃ p' fl', s'.thr = setN s.thr i (some (c, p', fl')) := by
  have key : ∀ m, s.thr i = some (c, p, .run sd m) → (match p.rop with
    | none => none
    | some op => if fitsB (s.shard cfg op) then
        match m.step (s.shard cfg op) with
        | none => none
        | some (sh', m') => some { s.fly i c p (.run sd m') with tree := s.tree.modify (op.ph cfg).shardSel (fun _ => sh') }
      else none) = some s' → FStep cfg s none s' ∧ ∃ p' fl', s'.thr = setN s.thr i (some (c, p', fl')) := by
    intro m ht h
    cases ho : p.rop with
    | none => rw [ho] at h; cases h
    | some op =>
      rw [ho] at h
      dsimp only at h
      split at h
      · rename_i hf
        cases hm : m.step (s.shard cfg op) with
        | none => rw [hm] at h; cases h
        | some x =>
          obtain ⟨sh', m'⟩ := x
          rw [hm] at h
          cases h
          exact ⟨.mem ht ho (fitsB_sound hf) hm, _, _, rfl⟩
      · cases h
  cases m with
  | ret a =>
    obtain ⟨a, sc⟩ := a
    cases h
    exact ⟨.rel ht, _, _, rfl⟩
  | panic => exact key _ ht h
  | sig => exact key _ ht h
  | desc => exact key _ ht h
  | byte => exact key _ ht h
  | wasted => exact key _ ht h
  | woff => exact key _ ht h
  | reserve => exact key _ ht h
  | store => exact key _ ht h

theorem stepIdle_sound {cfg : Cfg} {s s' : FState} {i : Nat} {c : Call} {p : Prog Resp}
    (ht : s.thr i = some (c, p, .idle)) (h : stepIdle cfg s i c p = some s') :
    FStep cfg s none s' ∧ ∃ p' fl', s'.thr = setN s.thr i (some (c, p', fl')) := by
  cases p with
  | lock l p =>
    unfold stepIdle at h
    dsimp only at h
    cases hl : s.locks l with
    | none => rw [hl] at h; cases h; exact ⟨.lock ht hl, _, _, rfl⟩
    | some j => rw [hl] at h; cases h
  | unlock p => cases h; exact ⟨.unlock ht, _, _, rfl⟩
  | ins k v mode q =>
    unfold stepIdle at h
    dsimp only at h
    cases hl : sizeErr cfg k v with
    | none =>
      rw [hl] at h
      cases h
      exact ⟨.node ht rfl (fun k' v' m' e => by cases e; exact hl), _, _, rfl⟩
    | some e => rw [hl] at h; cases h; exact ⟨.sizeErr ht hl, _, _, rfl⟩
  | get k q => cases h; exact ⟨.node ht rfl (fun k' v' m' e => by cases e), _, _, rfl⟩
  | rem k q => cases h; exact ⟨.node ht rfl (fun k' v' m' e => by cases e), _, _, rfl⟩
  | byHash ph suf q => cases h; exact ⟨.node ht rfl (fun k' v' m' e => by cases e), _, _, rfl⟩
  | ret a => cases h
  | err e => cases h
  | panic => cases h
  | exhausted => cases h

theorem stepF_sound {cfg : Cfg} {N i : Nat} {s s' : FState} (hN : ∀ j, N ≤ j → s.thr j = none) (h : stepF cfg N i s = some s') :
    FStep cfg s none s' ∧ ∃ c p fl p' fl', s.thr i = some (c, p, fl) ∧ s'.thr = setN s.thr i (some (c, p', fl')) := by
  unfold stepF at h
  cases ht : s.thr i with
  | none => rw [ht] at h; cases h
  | some x =>
    obtain ⟨c, p, fl⟩ := x
    rw [ht] at h
    dsimp only at h
    refine (?_ : FStep cfg s none s' ∧ ∃ p' fl', s'.thr = setN s.thr i (some (c, p', fl'))).imp id (fun ⟨p', fl', e⟩ => ⟨c, p, fl, p', fl', rfl, e⟩)
    cases fl with
    | idle => exact stepIdle_sound ht h
    | node => cases h; exact ⟨.files ht, _, _, rfl⟩
    | files =>
      dsimp only at h
      cases ho : p.rop with
      | none => rw [ho] at h; cases h
      | some op =>
        rw [ho] at h
        dsimp only at h
        split at h
        · cases h
        · rename_i hb
          cases h
          have hb' := Bool.not_eq_true _ ▸ hb
          rw [Bool.or_eq_false_iff] at hb'
          refine ⟨.row ht ho (FState.busyB_sound hN ?_ hb'.1) ?_, _, _, rfl⟩
          · rintro op' fl ⟨h1, h2, h3⟩
            unfold rowBusy
            rw [h1]
            rcases h3 with h3 | h3 <;> simp [h2, h3]
          · intro r m e e'
            have := hb'.2
            unfold FState.bgOn at this
            rw [e] at this
            simp [e'] at this
    | run sd m => exact stepRun_sound ht h
    | rel a sc => cases h; exact ⟨.out ht, _, _, rfl⟩
    | out a sc =>
      cases sc with
      | none =>
        dsimp only at h
        split at h
        · cases h
        · rename_i ha
          cases h
          exact ⟨.done ht (fun e => ha (by rw [e]; rfl)), _, _, rfl⟩
      | some off =>
        dsimp only at h
        cases ho : p.rop with
        | none => rw [ho] at h; cases h
        | some op =>
          rw [ho] at h
          dsimp only at h
          split at h
          · cases h
          · rename_i hb
            cases h
            exact ⟨.begin ht ho (FState.busyB_sound hN (fun _ _ h => h) (Bool.not_eq_true _ ▸ hb)), _, _, rfl⟩
    | split d => cases h

theorem bgF_sound {cfg : Cfg} {N sel : Nat} {s s' : FState} (hN : ∀ j, N ≤ j → s.thr j = none) (h : bgF cfg N sel s = some s') :
    FStep cfg s none s' ∧ s'.thr = s.thr := by
  unfold bgF at h
  split at h
  case isFalse => cases h
  case isTrue hsel =>
  cases hb : s.bg (s.tree.find sel).lo with
  | none =>
    rw [hb] at h
    dsimp only at h
    cases ht : (s.tree.find sel).tgt with
    | none => rw [ht] at h; cases h
    | some t =>
      rw [ht] at h
      dsimp only at h
      split at h
      · rename_i hc
        split at h
        · cases h
        · rename_i hx
          cases h
          refine ⟨.bgRow sel hsel ht hc hb (FState.busyB_sound hN ?_ (Bool.not_eq_true _ ▸ hx)), rfl⟩
          rintro op fl ⟨h1, h2⟩
          simp [h1, h2]
      · cases h
  | some x =>
    obtain ⟨r, m⟩ := x
    rw [hb] at h
    have key : (if fitsB (s.tree.find sel) then
          match m.step (s.tree.find sel) with
          | none => none
          | some (sh', m') => some { s with tree := s.tree.modify sel (fun _ => sh'), bg := setN s.bg (s.tree.find sel).lo (some (r, m')) }
        else none) = some s' → FStep cfg s none s' ∧ s'.thr = s.thr := by
      intro h
      split at h
      · rename_i hf
        cases hm : m.step (s.tree.find sel) with
        | none => rw [hm] at h; cases h
        | some x =>
          obtain ⟨sh', m'⟩ := x
          rw [hm] at h
          cases h
          exact ⟨.bgMem sel hsel hb (fitsB_sound hf) hm, rfl⟩
      · cases h
    cases m with
    | ret a => cases h; exact ⟨.bgRel sel hsel hb, rfl⟩
    | panic => exact key h
    | sig => exact key h
    | desc => exact key h
    | byte => exact key h
    | wasted => exact key h
    | woff => exact key h
    | reserve => exact key h
    | store => exact key h

/-- `n` steps. -/
def iter (f : FState → Option FState) : Nat → FState → Option FState
  | 0, s => some s
  | n + 1, s => match f s with
    | none => none
    | some s' => iter f n s'

/-- Run a script of threads below `N`. -/
def runF (cfg : Cfg) (N : Nat) : List FCmd → FState → Option FState
  | [], s => some s
  | .go i c :: cs, s => match s.thr i with
    | some _ => none
    | none => if i < N then runF cfg N cs (s.fly i c (c.prog cfg) .idle) else none
  | .step i n :: cs, s => match iter (stepF cfg N i) n s with
    | none => none
    | some s' => runF cfg N cs s'
  | .bg sel n :: cs, s => match iter (bgF cfg N sel) n s with
    | none => none
    | some s' => runF cfg N cs s'
  | .fin i r :: cs, s => match s.thr i with
    | some (_, p, .idle) => if p.result = some r ∧ r ≠ .exhausted then runF cfg N cs { s with locks := dropLocks s.locks i, thr := setN s.thr i none } else none
    | _ => none

/-- What is observed of a script, given the calls in progress. -/
def traceF : List FCmd → (Nat → Option Call) → List CEvent
  | [], _ => []
  | .go i c :: cs, pend => .inv i c :: traceF cs (setN pend i (some c))
  | .step _ _ :: cs, pend => traceF cs pend
  | .bg _ _ :: cs, pend => traceF cs pend
  | .fin i r :: cs, pend => match pend i with
    | none => traceF cs pend
    | some c => .ret i c r :: traceF cs (setN pend i none)

/-- The calls in progress. -/
def FState.pend (s : FState) : Nat → Option Call := fun i => (s.thr i).map Prod.fst

theorem fpend_set {thr : Nat → Option (Call × Prog Resp × Flight)} {i : Nat} {x : Option (Call × Prog Resp × Flight)} :
    (fun j => (setN thr i x j).map Prod.fst) = setN (fun j => (thr j).map Prod.fst) i (x.map Prod.fst) := by
  funext j; simp only [setN]; split <;> rfl

theorem setN_self {β : Type} {f : Nat → β} {i : Nat} {x : β} (h : f i = x) : setN f i x = f := by
  funext j; simp only [setN]; split
  · rename_i e; rw [e, h]
  · rfl

theorem iter_thread {cfg : Cfg} {N i : Nat} : ∀ (n : Nat) {s s' : FState}, iter (stepF cfg N i) n s = some s' → (∀ j, N ≤ j → s.thr j = none) →
    (∀ j, N ≤ j → s'.thr j = none) ∧ s'.pend = s.pend ∧ ∀ tr s'', FineRun cfg s' tr s'' → FineRun cfg s tr s''
  | 0, s, s', h, hN => by cases h; exact ⟨hN, rfl, fun _ _ h => h⟩
  | n + 1, s, s', h, hN => by
    unfold iter at h
    cases hf : stepF cfg N i s with
    | none => rw [hf] at h; cases h
    | some s1 =>
      rw [hf] at h
      obtain ⟨h1, c, p, fl, p', fl', h2, h3⟩ := stepF_sound hN hf
      have hN1 : ∀ j, N ≤ j → s1.thr j = none := fun j hj => by
        rw [h3, setN_other _ _ (fun e => by subst e; rw [hN j hj] at h2; cases h2)]
        exact hN j hj
      obtain ⟨g1, g2, g3⟩ := iter_thread n h hN1
      refine ⟨g1, g2.trans ?_, fun tr s'' hr => .tau h1 (g3 tr s'' hr)⟩
      unfold FState.pend
      rw [h3, fpend_set]
      exact setN_self (by rw [h2]; rfl)

theorem iter_bg {cfg : Cfg} {N sel : Nat} : ∀ (n : Nat) {s s' : FState}, iter (bgF cfg N sel) n s = some s' → (∀ j, N ≤ j → s.thr j = none) →
    (∀ j, N ≤ j → s'.thr j = none) ∧ s'.pend = s.pend ∧ ∀ tr s'', FineRun cfg s' tr s'' → FineRun cfg s tr s''
  | 0, s, s', h, hN => by cases h; exact ⟨hN, rfl, fun _ _ h => h⟩
  | n + 1, s, s', h, hN => by
    unfold iter at h
    cases hf : bgF cfg N sel s with
    | none => rw [hf] at h; cases h
    | some s1 =>
      rw [hf] at h
      obtain ⟨h1, h2⟩ := bgF_sound hN hf
      obtain ⟨g1, g2, g3⟩ := iter_bg n h (by rw [h2]; exact hN)
      exact ⟨g1, g2.trans (by unfold FState.pend; rw [h2]), fun tr s'' hr => .tau h1 (g3 tr s'' hr)⟩

theorem runF_sound {cfg : Cfg} {N : Nat} : ∀ (cs : List FCmd) {s s' : FState}, runF cfg N cs s = some s' → (∀ j, N ≤ j → s.thr j = none) →
    (∀ j, N ≤ j → s'.thr j = none) ∧ FineRun cfg s (traceF cs s.pend) s'
  | [], s, s', h, hN => by cases h; exact ⟨hN, .nil _⟩
  | .go i c :: cs, s, s', h, hN => by
    unfold runF at h
    cases ht : s.thr i with
    | some x => rw [ht] at h; cases h
    | none =>
      rw [ht] at h
      dsimp only at h
      split at h
      · rename_i hi
        obtain ⟨g1, g2⟩ := runF_sound cs h (fun j hj => (setN_other _ _ (by omega)).trans (hN j hj))
        refine ⟨g1, .obs (.inv i c ht) ?_⟩
        have : FState.pend (s.fly i c (c.prog cfg) .idle) = setN s.pend i (some c) := fpend_set
        rw [this] at g2
        exact g2
      · cases h
  | .step i n :: cs, s, s', h, hN => by
    unfold runF at h
    cases ht : iter (stepF cfg N i) n s with
    | none => rw [ht] at h; cases h
    | some s1 =>
      rw [ht] at h
      obtain ⟨g1, g2, g3⟩ := iter_thread n ht hN
      obtain ⟨q1, q2⟩ := runF_sound cs h g1
      rw [g2] at q2
      exact ⟨q1, g3 _ _ q2⟩
  | .bg sel n :: cs, s, s', h, hN => by
    unfold runF at h
    cases ht : iter (bgF cfg N sel) n s with
    | none => rw [ht] at h; cases h
    | some s1 =>
      rw [ht] at h
      obtain ⟨g1, g2, g3⟩ := iter_bg n ht hN
      obtain ⟨q1, q2⟩ := runF_sound cs h g1
      rw [g2] at q2
      exact ⟨q1, g3 _ _ q2⟩
  | .fin i r :: cs, s, s', h, hN => by
    unfold runF at h
    cases ht : s.thr i with
    | none => rw [ht] at h; cases h
    | some x =>
      obtain ⟨c, p, fl⟩ := x
      rw [ht] at h
      cases fl with
      | idle =>
        dsimp only at h
        split at h
        · rename_i hr
          obtain ⟨g1, g2⟩ := runF_sound cs h (fun j hj => (by
            show setN s.thr i none j = none
            unfold setN
            split
            · rfl
            · exact hN j hj))
          have hp : s.pend i = some c := by unfold FState.pend; rw [ht]; rfl
          have e : FState.pend { s with locks := dropLocks s.locks i, thr := setN s.thr i none } = setN s.pend i none := fpend_set
          rw [e] at g2
          unfold traceF
          rw [hp]
          exact ⟨g1, .obs (.ret ht hr.1 hr.2) g2⟩
        · cases h
      | node => cases h
      | files => cases h
      | run => cases h
      | rel => cases h
      | out => cases h
      | split => cases h

/-- Calls one at a time, then a schedule, then a test of the state. -/
def checkFP (cfg : Cfg) (cs : List (Call × Res Resp)) (N : Nat) (sch : List FCmd) (post : FState → Bool) : Bool :=
  match Tree.create cfg with
  | none => false
  | some t0 => match runSeq cfg cs 0 t0 with
    | none => false
    | some (n, t) => decide (n < 4294967296) && (match runF cfg N sch (FState.idle t) with
      | none => false
      | some S => post S)

theorem checkFP_sound {cfg : Cfg} {cs : List (Call × Res Resp)} {N : Nat} {sch : List FCmd} {post : FState → Bool} (h : checkFP cfg cs N sch post = true) :
    ∃ t S, Reachable cfg (hist cs) t ∧ FineRun cfg (FState.idle t) (traceF sch (fun _ => none)) S ∧ (∀ j, N ≤ j → S.thr j = none) ∧ post S = true := by
  unfold checkFP at h
  cases hc : Tree.create cfg with
  | none => rw [hc] at h; cases h
  | some t0 =>
    rw [hc] at h
    dsimp only at h
    cases hr : runSeq cfg cs 0 t0 with
    | none => rw [hr] at h; cases h
    | some x =>
      obtain ⟨n, t⟩ := x
      rw [hr] at h
      simp only [Bool.and_eq_true, decide_eq_true_eq] at h
      obtain ⟨h1, h2⟩ := h
      cases hr' : runF cfg N sch (FState.idle t) with
      | none => rw [hr'] at h2; cases h2
      | some S =>
        rw [hr'] at h2
        obtain ⟨g1, g2⟩ := runF_sound sch hr' (fun _ _ => rfl)
        exact ⟨t, S, Reachable.of_budget hc (runSeq_sound cs _ _ hr) h1, g2, g1, h2⟩

/-- Calls one at a time, then a schedule. -/
def checkF (cfg : Cfg) (cs : List (Call × Res Resp)) (N : Nat) (sch : List FCmd) : Bool := checkFP cfg cs N sch (fun _ => true)

theorem checkF_sound {cfg : Cfg} {cs : List (Call × Res Resp)} {N : Nat} {sch : List FCmd} (h : checkF cfg cs N sch = true) :
    ∃ t S, Reachable cfg (hist cs) t ∧ FineRun cfg (FState.idle t) (traceF sch (fun _ => none)) S := by
  obtain ⟨t, S, h1, h2, _⟩ := checkFP_sound h
  exact ⟨t, S, h1, h2⟩

/-- All calls have returned and no compaction is inside a row. -/
def quietF (N : Nat) (S : FState) : Bool := (List.range N).all (fun i => (S.thr i).isNone) && S.tree.leaves.all (fun s => (S.bg s.lo).isNone)

theorem Tree.find_mem (t : Tree) (sel : Nat) : t.find sel ∈ t.leaves := by
  induction t with
  | leaf s => exact List.mem_singleton.2 rfl
  | vertex b t ih1 ih2 =>
    rw [Tree.find_vertex, Tree.leaves_vertex]
    split
    · exact List.mem_append.2 (.inl ih1)
    · exact List.mem_append.2 (.inr ih2)

theorem quietF_sound {cfg : Cfg} {ex : Bool} {t : Tree} {N : Nat} {S : FState} {tr : List CEvent} (h : FineRun cfg (FState.idle t) tr S) (hok : Tree.OK cfg ex 0 END_OF_SHARDS t)
    (hN : ∀ j, N ≤ j → S.thr j = none) (hq : quietF N S = true) : (∀ i, S.thr i = none) ∧ ∀ l, S.bg l = none := by
  unfold quietF at hq
  simp only [Bool.and_eq_true, List.all_eq_true, List.mem_range] at hq
  refine ⟨fun i => ?_, fun l => ?_⟩
  · by_cases e : i < N
    · exact Option.isNone_iff_eq_none.1 (hq.1 i e)
    · exact hN i (by omega)
  · refine Classical.byContradiction (fun hne => ?_)
    obtain ⟨A, pen, led, _, hs⟩ := h.sim (Sim.idle hok)
    obtain ⟨sel, _, rfl⟩ := hs.bgl l hne
    exact hne (Option.isNone_iff_eq_none.1 (hq.2 _ (S.tree.find_mem sel)))

/-- Both files together are below 4 GiB. -/
def smallB (s : Shard) : Bool := match s.tgt with
  | none => decide (s.src.writeOff < 4294967296)
  | some t => decide (s.src.writeOff + t.writeOff < 4294967296)

theorem smallB_sound {ex : Bool} {s : Shard} (ha : s.AcctInv ex) (h : smallB s = true) : s.Small := by
  unfold smallB at h
  have hb : fileW kvSize s.src ≤ s.src.writeOff := ha.1.bytes
  cases ht : s.tgt with
  | none => rw [ht] at h; exact ⟨of_decide_eq_true h, fun t e => by rw [ht] at e; cases e⟩
  | some t =>
    rw [ht] at h
    have h := of_decide_eq_true h
    refine ⟨by omega, fun t' e => ?_⟩
    rw [ht] at e; cases e
    have := remW_le kvSize s.src t.compactedUpTo
    omega

/-- Every file is below 4 GiB and no thread has used up the indices of a list or queue. -/
def fineF (N : Nat) (S : FState) : Bool := S.tree.leaves.all fitsB && (List.range N).all (fun i => match S.thr i with
  | some (_, .exhausted, _) => false
  | _ => true)

theorem fineF_sound {N : Nat} {S : FState} (hN : ∀ j, N ≤ j → S.thr j = none) (h : fineF N S = true) :
    (∀ sel, (S.tree.find sel).Fits) ∧ ∀ i c, S.thr i ≠ some (c, .exhausted, .idle) := by
  unfold fineF at h
  simp only [Bool.and_eq_true, List.all_eq_true, List.mem_range] at h
  refine ⟨fun sel => fitsB_sound (h.1 _ (S.tree.find_mem sel)), fun i c e => ?_⟩
  by_cases hi : i < N
  · have := h.2 i hi
    rw [e] at this
    cases this
  · rw [hN i (by omega)] at e; cases e

end Candy
