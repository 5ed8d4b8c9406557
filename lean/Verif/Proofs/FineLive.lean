import Verif.Proofs.FineStep
/-!
# Somebody can always go on
-/
namespace Candy
open Spec

/-! ## No call takes a second lock -/

/-- A program takes a lock only when it holds none, and ends with none (unless it fails). -/
def Prog.Locks {α : Type} : Bool → Prog α → Prop
  | h, .ret _ => h = false
  | _, .err _ => True
  | _, .panic => True
  | _, .exhausted => True
  | h, .get _ c => ∀ x, (c x).Locks h
  | h, .ins _ _ _ c => ∀ x, (c x).Locks h
  | h, .rem _ c => ∀ x, (c x).Locks h
  | h, .byHash _ suf c => ∀ l : List KV, (∀ kv ∈ l, endsWith kv.1 suf = true) → (c l).Locks h
  | h, .lock _ c => h = false ∧ c.Locks true
  | h, .unlock c => h = true ∧ c.Locks false

theorem Prog.Locks.bind {α β : Type} {f : α → Prog β} {p : Prog α} : ∀ {h : Bool}, p.Locks h → (∀ a, (f a).Locks false) → (p.bind f).Locks h := by
  induction p with
  | ret a => intro h hp hf; cases hp; exact hf a
  | err | panic | exhausted => intros; trivial
  | get k c ih => exact fun hp hf x => ih x (hp x) hf
  | ins k v mode c ih => exact fun hp hf x => ih x (hp x) hf
  | rem k c ih => exact fun hp hf x => ih x (hp x) hf
  | byHash ph suf c ih => exact fun hp hf l hl => ih l (hp l hl) hf
  | lock i c ih => exact fun hp hf => ⟨hp.1, ih hp.2 hf⟩
  | unlock c ih => exact fun hp hf => ⟨hp.1, ih hp.2 hf⟩

theorem Prog.Local.locks {P : Bytes → Prop} {α β : Type} {Q : α → Prop} {f : α → Prog β} {p : Prog α} {b : Bool} (h : p.Local P Q)
    (hf : ∀ a, (f a).Locks b) : (p.bind f).Locks b := by
  induction p with
  | ret a => exact hf a
  | err | panic | exhausted => trivial
  | get k c ih => exact fun x => ih x (h.2 x)
  | ins k v mode c ih => exact fun x => ih x (h.2 x)
  | rem k c ih => exact fun x => ih x (h.2 x)
  | byHash ph suf c ih => exact fun l hl => ih l (h.2 l hl)
  | lock i c ih => exact h.elim
  | unlock c ih => exact h.elim

theorem Prog.Locks.withLock {P : Bytes → Prop} {α : Type} {Q : α → Prop} {l : Nat} {p : Prog α} (h : p.Local P Q) : (Prog.withLock l p).Locks false :=
  ⟨rfl, h.locks (fun _ => ⟨rfl, rfl⟩)⟩

theorem Prog.bind_ret {α : Type} (p : Prog α) : p.bind Prog.ret = p := by
  induction p with
  | ret a => rfl
  | err | panic | exhausted => rfl
  | get k c ih => exact congrArg (Prog.get k) (funext ih)
  | ins k v mode c ih => exact congrArg (Prog.ins k v mode) (funext ih)
  | rem k c ih => exact congrArg (Prog.rem k) (funext ih)
  | byHash ph suf c ih => exact congrArg (Prog.byHash ph suf) (funext ih)
  | lock i c ih => exact congrArg (Prog.lock i) ih
  | unlock c ih => exact congrArg Prog.unlock ih

theorem Prog.Local.locksSelf {P : Bytes → Prop} {α : Type} {Q : α → Prop} {p : Prog α} (h : p.Local P Q) : p.Locks false := by
  have := h.locks (f := Prog.ret) (b := false) (fun _ => rfl)
  rwa [Prog.bind_ret] at this

theorem Prog.Locks.tag {α β : Type} {p : Prog α} {f : α → β} {h : Bool} (hp : p.Locks h) : (p.bind (fun a => .ret (f a))).Locks h := hp.bind (fun _ => rfl)

theorem Prog.OneOp.locks {P : Bytes → Prop} {α : Type} {p : Prog α} (h : p.OneOp P) : p.Locks false := by
  have key : ∀ {q : Prog α} {r : Res α}, q.result = some r → q.Locks false := by
    intro q r hr
    cases q <;> first | trivial | (exact rfl) | cases hr
  cases p with
  | ret | err | panic => first | rfl | trivial
  | exhausted => trivial
  | get k c => exact fun x => by obtain ⟨r, hr, _⟩ := h.2 x; exact key hr
  | ins k v mode c => exact fun x => by obtain ⟨r, hr, _⟩ := h.2 x; exact key hr
  | rem k c => exact fun x => by obtain ⟨r, hr, _⟩ := h.2 x; exact key hr
  | byHash | lock | unlock => exact h.elim

section
variable {cfg : Cfg} {lk qk : Bytes}

theorem locks_insertToList {ik v : Bytes} {mode : Mode} : (insertToList cfg lk ik v mode).Locks false := Prog.Locks.withLock local_insertToListBody
theorem locks_removeFromList {ik : Bytes} : (removeFromList cfg lk ik).Locks false := Prog.Locks.withLock local_removeFromListBody

theorem locks_getAtIndexT {i : Nat} : (getAtIndexT (cfg.listPh lk) i).Locks false := by
  unfold getAtIndexT
  exact local_getAtIndex.locks (fun a => by cases a <;> rfl)

theorem locks_decMeta {b : Bytes} : (decMeta b).Locks false := (local_decMeta (P := fun _ => True)).locksSelf

theorem locks_listRange : (listRange cfg lk).Locks false := by
  unfold listRange
  refine Prog.Locks.bind (Prog.Locks.withLock (local_getRaw (P := fun _ => True) trivial)) (fun a => ?_)
  cases a with
  | none => rfl
  | some b => exact locks_decMeta.bind (fun _ => rfl)

theorem locks_collectIdx : ∀ is, (collectIdx (cfg.listPh lk) is).Locks false
  | [] => rfl
  | i :: is => by
    unfold collectIdx
    refine Prog.Locks.bind locks_getAtIndexT (fun a => ?_)
    cases a with
    | none => exact locks_collectIdx is
    | some kv => exact Prog.Locks.bind (locks_collectIdx is) (fun _ => rfl)

theorem locks_firstIdx : ∀ is, (firstIdx (cfg.listPh lk) is).Locks false
  | [] => rfl
  | i :: is => by
    unfold firstIdx
    refine Prog.Locks.bind locks_getAtIndexT (fun a => ?_)
    cases a with
    | none => exact locks_firstIdx is
    | some kv => rfl

theorem locks_popIdx : ∀ is, (popIdx cfg lk is).Locks false
  | [] => rfl
  | i :: is => by
    unfold popIdx
    refine Prog.Locks.bind locks_getAtIndexT (fun a => ?_)
    cases a with
    | none => exact locks_popIdx is
    | some kv =>
      refine Prog.Locks.bind locks_removeFromList (fun b => ?_)
      cases b with
      | none => exact locks_popIdx is
      | some _ => rfl

theorem locks_fetchQueue : (fetchQueue cfg qk).Locks false := by
  unfold fetchQueue
  refine Prog.Locks.bind (Prog.Locks.withLock (local_getRaw (P := fun _ => True) trivial)) (fun a => ?_)
  cases a with
  | none => rfl
  | some b => exact locks_decMeta.bind (fun _ => rfl)

theorem locks_collectQ : ∀ is, (collectQ qk is).Locks false
  | [] => rfl
  | i :: is => by
    unfold collectQ
    refine Prog.Locks.bind (p := Prog.getRaw _) (fun _ => rfl) (fun a => ?_)
    cases a with
    | none => exact locks_collectQ is
    | some v => exact Prog.Locks.bind (locks_collectQ is) (fun _ => rfl)

theorem locks_firstQ : ∀ is, (firstQ qk is).Locks false
  | [] => rfl
  | i :: is => by
    unfold firstQ
    intro a
    cases a with
    | none => exact locks_firstQ is
    | some v => rfl

theorem locks_iterQueue {fwd : Bool} : (iterQueue cfg qk fwd).Locks false :=
  Prog.Locks.bind locks_fetchQueue (fun a => by
    cases a with
    | none => rfl
    | some q => exact locks_collectQ _)

end

theorem Call.locks (cfg : Cfg) (c : Call) : (c.prog cfg).Locks false := by
  cases c with
  | kv k op => exact (oneOp_kv k op).locks
  | typed k op => exact (oneOp_typed k op).locks
  | list lk op =>
    cases op with
    | set ik v =>
      refine Prog.Locks.tag (p := setInList cfg lk ik v false) (Prog.Locks.bind locks_insertToList (fun a => ?_))
      cases a <;> first | rfl | trivial
    | setPromoting ik v =>
      refine Prog.Locks.tag (p := setInList cfg lk ik v true) (Prog.Locks.bind locks_removeFromList (fun _ => Prog.Locks.bind locks_insertToList (fun a => ?_)))
      cases a <;> first | rfl | trivial
    | replace ik v e =>
      refine Prog.Locks.tag (p := replaceInList cfg lk ik v e) (Prog.Locks.bind locks_insertToList (fun a => ?_))
      cases a <;> first | rfl | trivial
    | getOrCreate ik v =>
      refine Prog.Locks.tag (p := getOrCreateInList cfg lk ik v) (Prog.Locks.bind locks_insertToList (fun a => ?_))
      cases a <;> first | rfl | trivial
    | get ik =>
      refine Prog.Locks.tag (p := getFromList cfg lk ik) (fun a => ?_)
      cases a with
      | none => rfl
      | some b => exact (local_splitVal (P := fun _ => True)).locks (fun _ => rfl)
    | remove ik => exact Prog.Locks.tag locks_removeFromList
    | iter fwd => exact Prog.Locks.tag (Prog.Locks.bind locks_listRange (fun a => by
        cases a with
        | none => rfl
        | some r => exact locks_collectIdx _))
    | peek fwd => exact Prog.Locks.tag (Prog.Locks.bind locks_listRange (fun a => by
        cases a with
        | none => rfl
        | some r => exact locks_firstIdx _))
    | pop fwd => exact Prog.Locks.tag (Prog.Locks.bind locks_listRange (fun a => by
        cases a with
        | none => rfl
        | some r => exact locks_popIdx _))
    | compact par => exact Prog.Locks.tag (Prog.Locks.withLock local_compactListBody)
    | discard => exact Prog.Locks.tag (Prog.Locks.withLock local_discardListBody)
    | len =>
      refine Prog.Locks.tag (p := listLen lk) (fun a => ?_)
      cases a with
      | none => rfl
      | some b => exact locks_decMeta.bind (fun _ => rfl)
  | queue qk op =>
    cases op with
    | push pos v => exact Prog.Locks.tag (Prog.Locks.withLock local_pushQueueBody)
    | pop pos => exact Prog.Locks.tag (Prog.Locks.withLock local_popQueueBody)
    | remove i => exact Prog.Locks.tag (Prog.Locks.withLock local_removeFromQueueBody)
    | discard => exact Prog.Locks.tag (Prog.Locks.withLock local_discardQueueBody)
    | extend vs => exact Prog.Locks.tag (Prog.Locks.withLock local_extendQueueBody)
    | removeBig => exact Prog.Locks.tag (Prog.Locks.withLock local_discardQueueBody)
    | iter fwd => exact Prog.Locks.tag locks_iterQueue
    | peek fwd => exact Prog.Locks.tag (Prog.Locks.bind locks_fetchQueue (fun a => by
        cases a with
        | none => rfl
        | some q => exact locks_firstQ _))
    | len => exact Prog.Locks.tag (Prog.Locks.bind locks_fetchQueue (fun a => by cases a <;> rfl))
    | range => exact Prog.Locks.tag (Prog.Locks.bind locks_fetchQueue (fun a => by cases a <;> rfl))
    | setBig v => exact Prog.Locks.tag (Prog.Locks.bind (Prog.Locks.withLock local_discardQueueBody) (fun _ =>
        Prog.Locks.bind (Prog.Locks.withLock local_extendQueueBody) (fun _ => rfl)))
    | getBig => exact Prog.Locks.tag (Prog.Locks.bind locks_iterQueue (fun a => by
        show Prog.Locks false (if a = [] then _ else _)
        split <;> rfl))

theorem Prog.Locks.resume {α : Type} {p : Prog α} {b : Bool} (h : p.Locks b) (a : Ans) : (p.resume a).Locks b := by
  cases p <;> cases a <;> first | exact h | exact h _ | exact h _ (fun kv hm => (List.mem_filter.1 hm).2)

/-! ## The holder of a lock is at work and wants no other -/

def LockInv (S : FState) : Prop := ∀ i, match S.thr i with
  | none => ∀ l, S.locks l ≠ some i
  | some (_, p, _) => ∃ b, p.Locks b ∧ (b = false → ∀ l, S.locks l ≠ some i)

theorem LockInv.idle (t : Tree) : LockInv (FState.idle t) := fun _ => fun _ => by simp [FState.idle]

theorem LockInv.fly {S S' : FState} (h : LockInv S) {i : Nat} {c : Call} {p : Prog Resp} {fl fl' : Flight} (hi : S.thr i = some (c, p, fl))
    (ht : S'.thr = setN S.thr i (some (c, p, fl'))) (hl : S'.locks = S.locks) : LockInv S' := by
  intro j
  rw [ht, hl]
  by_cases e : j = i
  · subst e
    have := h j
    rw [hi] at this
    rw [setN_same]
    exact this
  · rw [setN_other _ _ e]
    exact h j

theorem FStep.lockInv {cfg : Cfg} {S S' : FState} {e : Option CEvent} (hst : FStep cfg S e S') (h : LockInv S) : LockInv S' := by
  cases hst with
  | inv i c hi =>
    intro j
    show match setN S.thr i _ j with | none => ∀ l', S.locks l' ≠ _ | some (_, p, _) => ∃ b, p.Locks b ∧ (b = false → ∀ l', S.locks l' ≠ _)
    by_cases e : j = i
    · subst e
      rw [setN_same]
      have := h j
      rw [hi] at this
      exact ⟨false, c.locks cfg, fun _ => this⟩
    · rw [setN_other _ _ e]; exact h j
  | @lock i l c p hi hf =>
    intro j
    show match setN S.thr i _ j with | none => ∀ l', setN S.locks l _ l' ≠ _ | some (_, p, _) => ∃ b, p.Locks b ∧ (b = false → ∀ l', setN S.locks l _ l' ≠ _)
    by_cases e : j = i
    · subst e
      rw [setN_same]
      have := h j
      rw [hi] at this
      obtain ⟨b, hb, _⟩ := this
      exact ⟨true, hb.2, fun e => by cases e⟩
    · rw [setN_other _ _ e]
      have hne : ∀ l', S.locks l' ≠ some j → setN S.locks l (some i) l' ≠ some j := by
        intro l' hl'
        by_cases e' : l' = l
        · subst e'; rw [setN_same]; intro e2; cases e2; exact e rfl
        · rw [setN_other _ _ e']; exact hl'
      have := h j
      cases hj : S.thr j with
      | none => rw [hj] at this; exact fun l' => hne l' (this l')
      | some x =>
        obtain ⟨c', p', fl'⟩ := x
        rw [hj] at this
        obtain ⟨b, hb, hb'⟩ := this
        exact ⟨b, hb, fun e l' => hne l' (hb' e l')⟩
  | @unlock i c p hi =>
    intro j
    show match setN S.thr i _ j with | none => ∀ l', dropLocks S.locks i l' ≠ _ | some (_, p, _) => ∃ b, p.Locks b ∧ (b = false → ∀ l', dropLocks S.locks i l' ≠ _)
    by_cases e : j = i
    · subst e
      rw [setN_same]
      have := h j
      rw [hi] at this
      obtain ⟨b, hb, _⟩ := this
      exact ⟨false, hb.2, fun _ l' => dropLocks_self _ _ _⟩
    · rw [setN_other _ _ e]
      have hne : ∀ l', S.locks l' ≠ some j → dropLocks S.locks i l' ≠ some j := fun l' hl' h2 => hl' ((dropLocks_other _ e).1 h2)
      have := h j
      cases hj : S.thr j with
      | none => rw [hj] at this; exact fun l' => hne l' (this l')
      | some x =>
        obtain ⟨c', p', fl'⟩ := x
        rw [hj] at this
        obtain ⟨b, hb, hb'⟩ := this
        exact ⟨b, hb, fun e l' => hne l' (hb' e l')⟩
  | @ret i c p r hi hr hne =>
    intro j
    show match setN S.thr i _ j with | none => ∀ l', dropLocks S.locks i l' ≠ _ | some (_, p, _) => ∃ b, p.Locks b ∧ (b = false → ∀ l', dropLocks S.locks i l' ≠ _)
    by_cases e : j = i
    · subst e
      rw [setN_same]
      exact fun l' => dropLocks_self _ _ _
    · rw [setN_other _ _ e]
      have hne : ∀ l', S.locks l' ≠ some j → dropLocks S.locks i l' ≠ some j := fun l' hl' h2 => hl' ((dropLocks_other _ e).1 h2)
      have := h j
      cases hj : S.thr j with
      | none => rw [hj] at this; exact fun l' => hne l' (this l')
      | some x =>
        obtain ⟨c', p', fl'⟩ := x
        rw [hj] at this
        obtain ⟨b, hb, hb'⟩ := this
        exact ⟨b, hb, fun e l' => hne l' (hb' e l')⟩
  | @sizeErr i c k v mode q er hi hs =>
    intro j
    show match setN S.thr i _ j with | none => ∀ l', S.locks l' ≠ _ | some (_, p, _) => ∃ b, p.Locks b ∧ (b = false → ∀ l', S.locks l' ≠ _)
    by_cases e : j = i
    · subst e
      rw [setN_same]
      have := h j
      rw [hi] at this
      obtain ⟨b, _, hb⟩ := this
      exact ⟨b, trivial, hb⟩
    · rw [setN_other _ _ e]; exact h j
  | node hi => exact h.fly hi rfl rfl
  | files hi => exact h.fly hi rfl rfl
  | row hi => exact h.fly hi rfl rfl
  | mem hi => exact h.fly hi rfl rfl
  | rel hi => exact h.fly hi rfl rfl
  | out hi => exact h.fly hi rfl rfl
  | begin hi => exact h.fly hi rfl rfl
  | @done i c p a hi ha =>
    intro j
    show match setN S.thr i _ j with | none => ∀ l', S.locks l' ≠ _ | some (_, p, _) => ∃ b, p.Locks b ∧ (b = false → ∀ l', S.locks l' ≠ _)
    by_cases e : j = i
    · subst e
      rw [setN_same]
      have := h j
      rw [hi] at this
      obtain ⟨b, hb, hb'⟩ := this
      exact ⟨b, hb.resume a, hb'⟩
    · rw [setN_other _ _ e]; exact h j
  | full hi => exact h.fly hi rfl rfl
  | split hi => exact h.fly hi rfl rfl
  | already hi => exact h.fly hi rfl rfl
  | bgRow => exact h
  | bgMem => exact h
  | bgRel => exact h
  | bgSwap => exact h

theorem FineRun.lockInv {cfg : Cfg} {S S' : FState} {tr : List CEvent} (hr : FineRun cfg S tr S') (h : LockInv S) : LockInv S' := by
  induction hr with
  | nil s => exact h
  | obs hst _ ih => exact ih (hst.lockInv h)
  | tau hst _ ih => exact ih (hst.lockInv h)

/-! ## Progress -/

theorem MProg.step_some {α : Type} (m : MProg α) (hp : m ≠ .panic) (hr : ∀ a, m ≠ .ret a) (s : Shard) : ∃ s' m', m.step s = some (s', m') := by
  cases m with
  | ret a => exact absurd rfl (hr a)
  | panic => exact absurd rfl hp
  | sig | desc | byte | wasted | woff | reserve | store => exact ⟨_, _, rfl⟩

/-- A step that is not the beginning of a call. -/
def CanStep (cfg : Cfg) (S : FState) : Prop := ∃ e S', FStep cfg S e S' ∧ ∀ i c, e ≠ some (.inv i c)

theorem CanStep.of {cfg : Cfg} {S S' : FState} (h : FStep cfg S none S') : CanStep cfg S := ⟨none, S', h, fun _ _ e => by cases e⟩

theorem Tree.splitAt_some {cfg : Cfg} : ∀ (t : Tree) (sel : Nat) {p : Shard × Shard}, (t.find sel).split cfg = some p → ∃ t', t.splitAt cfg sel = some t'
  | .leaf s, sel, p, h => by
    have h : s.split cfg = some p := h
    unfold Tree.splitAt; rw [h]; exact ⟨_, rfl⟩
  | .vertex b t, sel, p, h => by
    unfold Tree.splitAt
    unfold Tree.find at h
    split at h
    · rename_i e
      rw [if_pos e]
      obtain ⟨t', h'⟩ := Tree.splitAt_some b sel h
      rw [h']; exact ⟨_, rfl⟩
    · rename_i e
      rw [if_neg e]
      obtain ⟨t', h'⟩ := Tree.splitAt_some t sel h
      rw [h']; exact ⟨_, rfl⟩

/-- In every state of an execution in which a call is in progress, somebody can go on. -/
theorem Sim.progress {cfg : Cfg} {S : FState} {A : AState} {ex : Bool} {pen : Who → Option Reg} {led : Ledger} (h : Sim cfg ex S A pen led) (hl : LockInv S)
    (hfit : ∀ sel, (S.tree.find sel).Fits)
    (hex : ∀ i c, S.thr i ≠ some (c, .exhausted, .idle)) {i0 : Nat} (hbusy : S.thr i0 ≠ none) : CanStep cfg S := by
  -- a thread at work on the files
  by_cases hrun : ∃ i c p sd m, S.thr i = some (c, p, .run sd m)
  · obtain ⟨i, c, p, sd, m, hi⟩ := hrun
    have hti := h.thr i
    rw [hi] at hti
    obtain ⟨op, cm, ho, _, _, _, _, hsafe⟩ := hti
    by_cases hr : ∃ a, m = .ret a
    · obtain ⟨⟨a, sc⟩, rfl⟩ := hr
      exact .of (.rel hi)
    · obtain ⟨s', m', hm⟩ := MProg.step_some m (fun e => by subst e; exact hsafe.elim) (fun a e => hr ⟨a, e⟩) (S.shard cfg op)
      exact .of (.mem hi ho (hfit _) hm)
  -- a compaction at work on a row
  by_cases hbg : ∃ sel r m, sel < END_OF_SHARDS ∧ S.bg (S.tree.find sel).lo = some (r, m)
  · obtain ⟨sel, r, m, hsel, hb⟩ := hbg
    have hsafe := h.bgt sel r m hsel hb
    by_cases hr : ∃ a, m = .ret a
    · obtain ⟨⟨⟩, rfl⟩ := hr
      exact .of (.bgRel sel hsel hb)
    · obtain ⟨s', m', hm⟩ := MProg.step_some m (fun e => by subst e; exact hsafe.elim) (fun a e => hr ⟨a, e⟩) (S.tree.find sel)
      exact .of (.bgMem sel hsel hb (hfit _) hm)
  have hbn : ∀ sel, sel < END_OF_SHARDS → S.bg (S.tree.find sel).lo = none := by
    intro sel hsel
    cases hb : S.bg (S.tree.find sel).lo with
    | none => rfl
    | some x => obtain ⟨r, m⟩ := x; exact absurd ⟨sel, r, m, hsel, hb⟩ hbg
  have hrow : ∀ (i : Option Nat) lo (Q : ROp → Flight → Prop), (∀ op fl, Q op fl → fl.onRow = true) → ¬ S.Busy cfg i lo Q := by
    rintro i lo Q hQ ⟨j, c, p, fl, op, _, h2, _, _, h5⟩
    have := hQ op fl h5
    cases fl with
    | run sd m => exact hrun ⟨j, c, p, sd, m, h2⟩
    | idle | node | files | rel | out | split => cases this
  -- a thread waiting for a row lock, or about to drop the files
  by_cases hfl : ∃ i c p, S.thr i = some (c, p, .files)
  · obtain ⟨i, c, p, hi⟩ := hfl
    have hti := h.thr i
    rw [hi] at hti
    obtain ⟨_, op, ho, _⟩ := hti
    refine .of (.row hi ho (hrow _ _ _ (fun op fl h => h.1)) (fun r m hb => ?_))
    have := hbn _ (op.ph cfg).shardSel_lt
    rw [show (S.shard cfg op).lo = (S.tree.find (op.ph cfg).shardSel).lo from rfl, this] at hb
    cases hb
  by_cases hre : ∃ i c p a sc, S.thr i = some (c, p, .rel a sc)
  · obtain ⟨i, c, p, a, sc, hi⟩ := hre
    exact .of (.out hi)
  have hfiles : ∀ (i : Option Nat) lo (Q : ROp → Flight → Prop), (∀ op fl, Q op fl → fl.onFiles = true) → ¬ S.Busy cfg i lo Q := by
    rintro i lo Q hQ ⟨j, c, p, fl, op, _, h2, _, _, h5⟩
    have := hQ op fl h5
    cases fl with
    | run sd m => exact hrun ⟨j, c, p, sd, m, h2⟩
    | files => exact hfl ⟨j, c, p, h2⟩
    | rel a sc => exact hre ⟨j, c, p, a, sc, h2⟩
    | idle | node | out | split => cases this
  by_cases hno : ∃ i c p, S.thr i = some (c, p, .node)
  · obtain ⟨i, c, p, hi⟩ := hno
    exact .of (.files hi)
  by_cases hou : ∃ i c p a sc, S.thr i = some (c, p, .out a sc)
  · obtain ⟨i, c, p, a, sc, hi⟩ := hou
    have hti := h.thr i
    rw [hi] at hti
    obtain ⟨op, ho, _, _⟩ := hti
    cases sc with
    | some off => exact .of (.begin hi ho (hfiles _ _ _ (fun _ _ h => h)))
    | none =>
      by_cases ha : a = .st .splitNeeded
      · subst ha; exact .of (.full hi ho)
      · exact .of (.done hi ha)
  have hnode : ∀ (i : Option Nat) lo (Q : ROp → Flight → Prop), (∀ op fl, Q op fl → fl.onNode = true) → ¬ S.Busy cfg i lo Q := by
    rintro i lo Q hQ ⟨j, c, p, fl, op, _, h2, _, _, h5⟩
    have := hQ op fl h5
    cases fl with
    | run sd m => exact hrun ⟨j, c, p, sd, m, h2⟩
    | files => exact hfl ⟨j, c, p, h2⟩
    | rel a sc => exact hre ⟨j, c, p, a, sc, h2⟩
    | node => exact hno ⟨j, c, p, h2⟩
    | out a sc => exact hou ⟨j, c, p, a, sc, h2⟩
    | idle | split => cases this
  by_cases hsp : ∃ i c p d, S.thr i = some (c, p, .split d)
  · obtain ⟨i, c, p, d, hi⟩ := hsp
    have hti := h.thr i
    rw [hi] at hti
    obtain ⟨_, op, ho, _⟩ := hti
    have hsel := (op.ph cfg).shardSel_lt
    by_cases hd : S.tree.depth (op.ph cfg).shardSel = d
    · cases htg : (S.shard cfg op).tgt with
      | some t =>
        -- the compaction goes on
        by_cases hc : t.compactedUpTo < NUM_ROWS
        · exact .of (.bgRow (op.ph cfg).shardSel hsel htg hc (hbn _ hsel) (hrow _ _ _ (fun _ _ h => h.1)))
        · exact .of (.bgSwap (op.ph cfg).shardSel hsel htg (by omega) (hbn _ hsel) (hfiles _ _ _ (fun _ _ h => h)))
      | none =>
        subst hd
        have hno := h.nobody hsel (hfiles _ _ _ (fun _ _ h => h)) (.inl (hbn _ hsel))
        obtain ⟨bf, tf, hs, _⟩ := Shard.split_fine htg ((h.core.shard _ hsel).files .src) (hfit _) (Nat.lt_of_le_of_lt (h.quietFiles hsel hno .src).bytes (hfit _).1)
        obtain ⟨t', ht'⟩ := Tree.splitAt_some S.tree _ hs
        exact .of (.split hi ho (hnode _ _ _ (fun _ _ h => h)) htg (hfit _) ht')
    · exact .of (.already hi ho hd)
  -- all are between raw operations
  have hidle : ∀ i c p fl, S.thr i = some (c, p, fl) → fl = .idle := by
    intro i c p fl hi
    cases fl with
    | idle => rfl
    | node => exact absurd ⟨i, c, p, hi⟩ hno
    | files => exact absurd ⟨i, c, p, hi⟩ hfl
    | run sd m => exact absurd ⟨i, c, p, sd, m, hi⟩ hrun
    | rel a sc => exact absurd ⟨i, c, p, a, sc, hi⟩ hre
    | out a sc => exact absurd ⟨i, c, p, a, sc, hi⟩ hou
    | split d => exact absurd ⟨i, c, p, d, hi⟩ hsp
  have go : ∀ i c p, S.thr i = some (c, p, .idle) → (∀ l q, p ≠ .lock l q) → CanStep cfg S := by
    intro i c p hi hnl
    cases p with
    | ret a => exact ⟨_, _, .ret hi rfl (by simp), fun _ _ e => by cases e⟩
    | err e => exact ⟨_, _, .ret hi rfl (by simp), fun _ _ e => by cases e⟩
    | panic => exact ⟨_, _, .ret hi rfl (by simp), fun _ _ e => by cases e⟩
    | exhausted => exact absurd hi (hex i c)
    | get k q => exact .of (.node hi rfl (fun _ _ _ e => by cases e))
    | rem k q => exact .of (.node hi rfl (fun _ _ _ e => by cases e))
    | byHash ph suf q => exact .of (.node hi rfl (fun _ _ _ e => by cases e))
    | ins k v mode q =>
      cases hs : sizeErr cfg k v with
      | none => exact .of (.node hi rfl (fun k' v' m' e => by cases e; exact hs))
      | some e => exact .of (.sizeErr hi hs)
    | lock l q => exact absurd rfl (hnl l q)
    | unlock q => exact .of (.unlock hi)
  cases hi0 : S.thr i0 with
  | none => exact absurd hi0 hbusy
  | some x =>
    obtain ⟨c, p, fl⟩ := x
    cases hidle _ _ _ _ hi0
    by_cases hlk : ∃ l q, p = .lock l q
    · obtain ⟨l, q, rfl⟩ := hlk
      cases hh : S.locks l with
      | none => exact .of (.lock hi0 hh)
      | some j =>
        have hj := hl j
        cases htj : S.thr j with
        | none => rw [htj] at hj; exact absurd hh (hj l)
        | some y =>
          obtain ⟨c', p', fl'⟩ := y
          cases hidle _ _ _ _ htj
          rw [htj] at hj
          obtain ⟨b, hb, hb'⟩ := hj
          refine go j c' p' htj (fun l' q' e => ?_)
          subst e
          exact hb' hb.1 l hh
    · exact go i0 c p hi0 (fun l q e => hlk ⟨l, q, e⟩)

end Candy
