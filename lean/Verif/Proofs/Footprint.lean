import Verif.Proofs.Abs
/-!
# Every call writes only under its own raw keys

A syntactic argument, valid in any state of the store (also for lists and queues whose records are inconsistent).
-/
namespace Candy
open Spec

/-- The program writes only keys satisfying `P`, and returns only values satisfying `Q`. -/
def Prog.Within (P : Bytes → Prop) {α : Type} (Q : α → Prop) : Prog α → Prop
  | .ret a => Q a
  | .err _ => True
  | .panic => True
  | .exhausted => True
  | .get _ c => ∀ x, (c x).Within P Q
  | .ins k _ _ c => P k ∧ ∀ x, (c x).Within P Q
  | .rem k c => P k ∧ ∀ x, (c x).Within P Q
  | .byHash _ suf c => ∀ l : List KV, (∀ kv ∈ l, endsWith kv.1 suf = true) → (c l).Within P Q
  | .lock _ c => c.Within P Q
  | .unlock c => c.Within P Q

/-- No constraint on results. -/
abbrev anyRes {α : Type} : α → Prop := fun _ => True

theorem Prog.Within.step {cfg : Cfg} {P : Bytes → Prop} {α : Type} {Q : α → Prop} {m m' : Map} {p p' : Prog α} (h : p.Within P Q)
    (hs : AStep cfg m p m' p') : SameOutside P m m' ∧ p'.Within P Q := by
  cases hs with
  | get k c => exact ⟨.refl _ _, h _⟩
  | insErr => exact ⟨.refl _ _, trivial⟩
  | ins k v mode c hs => exact ⟨(SameOutside.refl _ _).upd h.1, h.2 _⟩
  | rem k c => exact ⟨(SameOutside.refl _ _).upd h.1, h.2 _⟩
  | byHash ph suf c l hl => exact ⟨.refl _ _, h l hl.suffix⟩
  | lock => exact ⟨.refl _ _, h⟩
  | unlock => exact ⟨.refl _ _, h⟩

theorem Prog.Within.exec {cfg : Cfg} {P : Bytes → Prop} {α : Type} {Q : α → Prop} {m m' : Map} {p p' : Prog α} (h : p.Within P Q)
    (hs : AExec cfg m p m' p') : SameOutside P m m' ∧ p'.Within P Q := by
  induction hs with
  | refl => exact ⟨.refl _ _, h⟩
  | step h1 _ ih =>
    obtain ⟨a, b⟩ := h.step h1
    obtain ⟨c, d⟩ := ih b
    exact ⟨a.trans c, d⟩

theorem Prog.Within.bind {P : Bytes → Prop} {α β : Type} {Q : α → Prop} {R : β → Prop} {f : α → Prog β} {p : Prog α}
    (h : p.Within P Q) (hf : ∀ a, Q a → (f a).Within P R) : (p.bind f).Within P R := by
  induction p with
  | ret a => exact hf a h
  | err | panic | exhausted => trivial
  | get k c ih => exact fun x => ih x (h x)
  | ins k v mode c ih => exact ⟨h.1, fun x => ih x (h.2 x)⟩
  | rem k c ih => exact ⟨h.1, fun x => ih x (h.2 x)⟩
  | byHash ph suf c ih => exact fun l hl => ih l (h l hl)
  | lock i c ih => exact ih h
  | unlock c ih => exact ih h

theorem Prog.Within.bind' {P : Bytes → Prop} {α β : Type} {Q : α → Prop} {R : β → Prop} {f : α → Prog β} {p : Prog α}
    (h : p.Within P Q) (hf : ∀ a, Q a → (f a).Within P R) : (p >>= f).Within P R := h.bind hf

theorem Prog.Within.mono {P : Bytes → Prop} {α : Type} {Q R : α → Prop} (hq : ∀ a, Q a → R a) {p : Prog α}
    (h : p.Within P Q) : p.Within P R := by
  induction p with
  | ret a => exact hq a h
  | err | panic | exhausted => trivial
  | get k c ih => exact fun x => ih x (h x)
  | ins k v mode c ih => exact ⟨h.1, fun x => ih x (h.2 x)⟩
  | rem k c ih => exact ⟨h.1, fun x => ih x (h.2 x)⟩
  | byHash ph suf c ih => exact fun l hl => ih l (h l hl)
  | lock i c ih => exact ih h
  | unlock c ih => exact ih h

section
variable {P : Bytes → Prop}

theorem within_pure {α : Type} {Q : α → Prop} {a : α} (h : Q a) : (pure a : Prog α).Within P Q := h
theorem within_ret {α : Type} {a : α} : (Prog.ret a).Within P anyRes := trivial
theorem within_getRaw (k) : (Prog.getRaw k).Within P anyRes := fun _ => trivial
theorem within_removeRaw {k} (h : P k) : (Prog.removeRaw k).Within P anyRes := ⟨h, fun _ => trivial⟩
theorem within_insertInternal {k v mode} (h : P k) : (insertInternal k v mode).Within P anyRes := ⟨h, fun _ => trivial⟩
theorem within_setRaw {k v} (h : P k) : (setRaw k v).Within P anyRes :=
  (within_insertInternal h).bind' (fun a _ => by cases a <;> trivial)
theorem within_replaceRaw {k v e} (h : P k) : (replaceRaw k v e).Within P anyRes :=
  (within_insertInternal h).bind' (fun a _ => by cases a <;> trivial)
theorem within_gocRaw {k v} (h : P k) : (gocRaw k v).Within P anyRes :=
  (within_insertInternal h).bind' (fun a _ => by cases a <;> trivial)
theorem within_ensureSizes {k v} : (ensureSizes k v).Within P anyRes := by
  unfold ensureSizes; split
  · trivial
  · split <;> trivial
theorem within_decMeta {b} : (decMeta b).Within P anyRes := by
  unfold decMeta; split <;> trivial
theorem within_splitVal {b} : (splitVal b).Within P anyRes := by
  unfold splitVal; split <;> trivial
theorem within_idxSucc {n} : (idxSucc n).Within P anyRes := by
  unfold idxSucc; split <;> trivial
theorem within_idxPred {n} : (idxPred n).Within P anyRes := by
  unfold idxPred; split <;> trivial
theorem within_numPred {n} : (numPred n).Within P anyRes := by
  unfold numPred; split <;> trivial
theorem within_withLock {α : Type} {Q : α → Prop} {i} {p : Prog α} (h : p.Within P Q) : (Prog.withLock i p).Within P Q :=
  h.bind (fun _ ha => ha)
theorem within_tag {α : Type} {Q : α → Prop} {f : α → Resp} {p : Prog α} (h : p.Within P Q) : (p.tag f).Within P anyRes :=
  h.bind (fun _ _ => trivial)

end

/-- Discharges `Within` goals for straight-line code. -/
macro "within" : tactic => `(tactic| repeat (first
  | exact within_getRaw _
  | (refine within_removeRaw ?_; first | assumption | exact LFoot.list _ _ | exact LFoot.item _ _ _ | exact LFoot.chain _ _ _ | exact QFoot.queue _ | exact QFoot.item _ _)
  | (refine within_setRaw ?_; first | assumption | exact LFoot.list _ _ | exact LFoot.item _ _ _ | exact LFoot.chain _ _ _ | exact QFoot.queue _ | exact QFoot.item _ _)
  | (refine within_replaceRaw ?_; first | assumption | exact LFoot.list _ _ | exact LFoot.item _ _ _ | exact LFoot.chain _ _ _ | exact QFoot.queue _ | exact QFoot.item _ _)
  | (refine within_gocRaw ?_; first | assumption | exact LFoot.list _ _ | exact LFoot.item _ _ _ | exact LFoot.chain _ _ _ | exact QFoot.queue _ | exact QFoot.item _ _)
  | exact within_decMeta
  | exact within_splitVal
  | exact within_idxSucc
  | exact within_idxPred
  | exact within_numPred
  | exact within_ensureSizes
  | exact trivial
  | (refine within_withLock ?_)
  | (refine Prog.Within.bind' (Q := anyRes) ?_ (fun _ _ => ?_))
  | split
  | (dsimp only)))

/-! ## Key-value calls -/

theorem within_kv (k : Bytes) (op : KvOp) : (op.prog k).Within (fun x => x = userKey k) anyRes := by
  have h : (fun x => x = userKey k) (userKey k) := rfl
  cases op <;> refine within_tag (Q := anyRes) ?_
  · unfold kvGet; within
  · unfold kvContains; within
  · unfold kvRemove; within
  · unfold kvSet; within
  · unfold kvReplace; within
  · unfold kvGetOrCreate; within

theorem within_typed (k : Bytes) (op : KvOp) : (op.typedProg k).Within (fun x => x = typedKey k) anyRes := by
  have h : (fun x => x = typedKey k) (typedKey k) := rfl
  cases op <;> refine within_tag (Q := anyRes) ?_ <;> within

/-! ## Lists -/

section
variable {cfg : Cfg} {lk : Bytes}

theorem within_insertToList {ik v mode} : (insertToList cfg lk ik v mode).Within (LFoot cfg lk) anyRes := by
  unfold insertToList insertToListBody updateItem insertNewItem
  within

theorem within_removeMeta {idx b} : (removeMeta lk idx b).Within (LFoot cfg lk) anyRes := by
  unfold removeMeta
  within

theorem within_removeFromList {ik} : (removeFromList cfg lk ik).Within (LFoot cfg lk) anyRes := by
  unfold removeFromList removeFromListBody removeMeta
  within

/-- `getAtIndex` writes nothing and returns only item keys of its list. -/
theorem within_getAtIndex {idx} : (getAtIndex (cfg.listPh lk) idx).Within (LFoot cfg lk)
    (fun o => ∀ p k v, o = some (p, k, v) → LFoot cfg lk k) := by
  unfold getAtIndex
  refine Prog.Within.bind' (Q := anyRes) (within_getRaw _) (fun _ _ => ?_)
  split
  · intro p k v h; simp at h
  · split
    · trivial
    · intro l hl
      dsimp only
      split
      · intro p k v h; simp at h
      · rename_i kv hkv
        intro p k v h
        simp only [Option.some.injEq, Prod.mk.injEq] at h
        obtain ⟨_, rfl, _⟩ := h
        obtain ⟨ik, hik⟩ := endsWith_item.1 (hl kv (List.mem_of_find?_eq_some hkv))
        rw [hik]; exact LFoot.item _ _ _

theorem within_getAtIndexT {idx} : (getAtIndexT (cfg.listPh lk) idx).Within (LFoot cfg lk) anyRes := by
  unfold getAtIndexT
  refine Prog.Within.bind' within_getAtIndex (fun o _ => ?_)
  split <;> trivial

theorem within_listRange : (listRange cfg lk).Within (LFoot cfg lk) anyRes := by
  unfold listRange; within

theorem within_collectIdx : ∀ is, (collectIdx (cfg.listPh lk) is).Within (LFoot cfg lk) anyRes
  | [] => trivial
  | i :: is => by
    unfold collectIdx
    refine Prog.Within.bind' within_getAtIndexT (fun o _ => ?_)
    split
    · exact within_collectIdx is
    · exact Prog.Within.bind' (within_collectIdx is) (fun _ _ => trivial)

theorem within_firstIdx : ∀ is, (firstIdx (cfg.listPh lk) is).Within (LFoot cfg lk) anyRes
  | [] => trivial
  | i :: is => by
    unfold firstIdx
    refine Prog.Within.bind' within_getAtIndexT (fun o _ => ?_)
    split
    · exact within_firstIdx is
    · trivial

theorem within_popIdx : ∀ is, (popIdx cfg lk is).Within (LFoot cfg lk) anyRes
  | [] => trivial
  | i :: is => by
    unfold popIdx
    refine Prog.Within.bind' within_getAtIndexT (fun o _ => ?_)
    split
    · exact within_popIdx is
    · refine Prog.Within.bind' within_removeFromList (fun o _ => ?_)
      split
      · trivial
      · exact within_popIdx is

theorem within_compactIdx : ∀ is new, (compactIdx (cfg.listPh lk) is new).Within (LFoot cfg lk) anyRes
  | [], _ => trivial
  | i :: is, new => by
    unfold compactIdx
    refine Prog.Within.bind' within_getAtIndex (fun o ho => ?_)
    split
    · exact within_compactIdx is new
    · rename_i iph k v
      have hk := ho _ _ _ rfl
      refine Prog.Within.bind' (Q := anyRes) (within_setRaw (LFoot.chain _ _ _)) (fun _ _ => ?_)
      refine Prog.Within.bind' (Q := anyRes) (within_setRaw hk) (fun _ _ => ?_)
      refine Prog.Within.bind' (Q := anyRes) (within_removeRaw (LFoot.chain _ _ _)) (fun _ _ => ?_)
      exact Prog.Within.bind' (Q := anyRes) within_idxSucc (fun _ _ => within_compactIdx is _)

theorem within_discardIdx : ∀ is, (discardIdx (cfg.listPh lk) is).Within (LFoot cfg lk) anyRes
  | [] => trivial
  | i :: is => by
    unfold discardIdx
    refine Prog.Within.bind' within_getAtIndex (fun o ho => ?_)
    split
    · exact within_discardIdx is
    · rename_i iph k v
      have hk := ho _ _ _ rfl
      refine Prog.Within.bind' (Q := anyRes) (within_removeRaw (LFoot.chain _ _ _)) (fun _ _ => ?_)
      exact Prog.Within.bind' (Q := anyRes) (within_removeRaw hk) (fun _ _ => within_discardIdx is)

theorem within_list (op : LOp) : (op.prog cfg lk).Within (LFoot cfg lk) anyRes := by
  cases op <;> refine within_tag (Q := anyRes) ?_
  · unfold setInList
    refine Prog.Within.bind' (Q := anyRes) within_insertToList (fun _ _ => ?_)
    split <;> trivial
  · unfold setInList
    refine Prog.Within.bind' (Q := anyRes) within_removeFromList (fun _ _ => ?_)
    refine Prog.Within.bind' (Q := anyRes) within_insertToList (fun _ _ => ?_)
    split <;> trivial
  · unfold replaceInList
    refine Prog.Within.bind' (Q := anyRes) within_insertToList (fun _ _ => ?_)
    split <;> trivial
  · unfold getOrCreateInList
    refine Prog.Within.bind' (Q := anyRes) within_insertToList (fun _ _ => ?_)
    split <;> trivial
  · unfold getFromList; within
  · exact within_removeFromList
  · unfold iterList
    refine Prog.Within.bind' (Q := anyRes) within_listRange (fun _ _ => ?_)
    split
    · trivial
    · exact within_collectIdx _
  · unfold peekList
    refine Prog.Within.bind' (Q := anyRes) within_listRange (fun _ _ => ?_)
    split
    · trivial
    · exact within_firstIdx _
  · unfold popList
    refine Prog.Within.bind' (Q := anyRes) within_listRange (fun _ _ => ?_)
    split
    · trivial
    · exact within_popIdx _
  · unfold compactList compactListBody
    refine within_withLock (Prog.Within.bind' (Q := anyRes) (within_getRaw _) (fun _ _ => ?_))
    split
    · trivial
    · refine Prog.Within.bind' (Q := anyRes) within_decMeta (fun _ _ => ?_)
      split
      · trivial
      · split
        · trivial
        · split
          · trivial
          · split
            · trivial
            · refine Prog.Within.bind' (Q := anyRes) (within_compactIdx _ _) (fun _ _ => ?_)
              within
  · unfold discardList discardListBody
    refine within_withLock (Prog.Within.bind' (Q := anyRes) (within_getRaw _) (fun _ _ => ?_))
    split
    · trivial
    · refine Prog.Within.bind' (Q := anyRes) within_decMeta (fun _ _ => ?_)
      refine Prog.Within.bind' (Q := anyRes) (within_discardIdx _) (fun _ _ => ?_)
      within
  · unfold listLen; within

end

/-! ## Queues -/

section
variable {cfg : Cfg} {qk : Bytes}

theorem within_popHeadLoop : ∀ n h, (popHeadLoop qk n h).Within (QFoot qk) anyRes
  | 0, _ => trivial
  | n + 1, h => by
    unfold popHeadLoop
    refine Prog.Within.bind' (Q := anyRes) (within_removeRaw (QFoot.item _ _)) (fun _ _ => ?_)
    split
    · trivial
    · exact within_popHeadLoop n _

theorem within_popTailLoop : ∀ n h, (popTailLoop qk n h).Within (QFoot qk) anyRes
  | 0, _ => trivial
  | n + 1, h => by
    unfold popTailLoop
    refine Prog.Within.bind' (Q := anyRes) (within_removeRaw (QFoot.item _ _)) (fun _ _ => ?_)
    split
    · trivial
    · exact within_popTailLoop n _

theorem within_putQueueMeta {h t n} : (putQueueMeta qk h t n).Within (QFoot qk) anyRes := by
  unfold putQueueMeta; within

theorem within_discardQLoop : ∀ is, (discardQLoop qk is).Within (QFoot qk) anyRes
  | [] => trivial
  | i :: is => by
    unfold discardQLoop
    exact Prog.Within.bind' (Q := anyRes) (within_removeRaw (QFoot.item _ _)) (fun _ _ => within_discardQLoop is)

theorem within_discardQueue : (discardQueue cfg qk).Within (QFoot qk) anyRes := by
  unfold discardQueue discardQueueBody
  refine within_withLock (Prog.Within.bind' (Q := anyRes) (within_getRaw _) (fun _ _ => ?_))
  split
  · trivial
  · refine Prog.Within.bind' (Q := anyRes) within_decMeta (fun _ _ => ?_)
    refine Prog.Within.bind' (Q := anyRes) (within_discardQLoop _) (fun _ _ => ?_)
    within

theorem within_extendLoop : ∀ vs t, (extendLoop qk vs t).Within (QFoot qk) anyRes
  | [], _ => trivial
  | v :: vs, t => by
    unfold extendLoop
    refine Prog.Within.bind' (Q := anyRes) (within_setRaw (QFoot.item _ _)) (fun _ _ => ?_)
    exact Prog.Within.bind' (Q := anyRes) within_idxSucc (fun _ _ => within_extendLoop vs _)

theorem within_extendQueue {vs} : (extendQueue cfg qk vs).Within (QFoot qk) anyRes := by
  unfold extendQueue extendQueueBody
  refine within_withLock (Prog.Within.bind' (Q := anyRes) (within_gocRaw (QFoot.queue _)) (fun _ _ => ?_))
  refine Prog.Within.bind' (Q := anyRes) within_decMeta (fun _ _ => ?_)
  refine Prog.Within.bind' (Q := anyRes) (within_extendLoop _ _) (fun _ _ => ?_)
  within

theorem within_fetchQueue : (fetchQueue cfg qk).Within (QFoot qk) anyRes := by
  unfold fetchQueue; within

theorem within_collectQ : ∀ is, (collectQ qk is).Within (QFoot qk) anyRes
  | [] => trivial
  | i :: is => by
    unfold collectQ
    refine Prog.Within.bind' (Q := anyRes) (within_getRaw _) (fun _ _ => ?_)
    split
    · exact within_collectQ is
    · exact Prog.Within.bind' (within_collectQ is) (fun _ _ => trivial)

theorem within_firstQ : ∀ is, (firstQ qk is).Within (QFoot qk) anyRes
  | [] => trivial
  | i :: is => by
    unfold firstQ
    refine Prog.Within.bind' (Q := anyRes) (within_getRaw _) (fun _ _ => ?_)
    split
    · exact within_firstQ is
    · trivial

theorem within_iterQueue {fwd} : (iterQueue cfg qk fwd).Within (QFoot qk) anyRes := by
  unfold iterQueue
  refine Prog.Within.bind' (Q := anyRes) within_fetchQueue (fun _ _ => ?_)
  split
  · trivial
  · exact within_collectQ _

theorem within_queue (op : QOp) : (op.prog cfg qk).Within (QFoot qk) anyRes := by
  cases op <;> refine within_tag (Q := anyRes) ?_
  · unfold pushQueue pushQueueBody; within
  · unfold popQueue popQueueBody
    refine within_withLock (Prog.Within.bind' (Q := anyRes) (within_getRaw _) (fun _ _ => ?_))
    split
    · trivial
    · refine Prog.Within.bind' (Q := anyRes) within_decMeta (fun _ _ => ?_)
      split
      · refine Prog.Within.bind' (Q := anyRes) (within_popHeadLoop _ _) (fun x _ => ?_)
        obtain ⟨a, b⟩ := x
        dsimp only
        unfold putQueueMeta
        within
      · refine Prog.Within.bind' (Q := anyRes) (within_popTailLoop _ _) (fun x _ => ?_)
        obtain ⟨a, b⟩ := x
        dsimp only
        unfold putQueueMeta
        within
  · unfold removeFromQueue removeFromQueueBody putQueueMeta
    within
  · exact within_discardQueue
  · exact within_extendQueue
  · exact within_iterQueue
  · unfold peekQueue
    refine Prog.Within.bind' (Q := anyRes) within_fetchQueue (fun _ _ => ?_)
    split
    · trivial
    · exact within_firstQ _
  · unfold queueLen
    refine Prog.Within.bind' (Q := anyRes) within_fetchQueue (fun _ _ => ?_)
    split <;> trivial
  · unfold queueRange
    refine Prog.Within.bind' (Q := anyRes) within_fetchQueue (fun _ _ => ?_)
    split <;> trivial
  · unfold Candy.setBig
    refine Prog.Within.bind' (Q := anyRes) within_discardQueue (fun _ _ => ?_)
    exact Prog.Within.bind' (Q := anyRes) within_extendQueue (fun _ _ => trivial)
  · unfold Candy.getBig
    refine Prog.Within.bind' (Q := anyRes) within_iterQueue (fun _ _ => ?_)
    split <;> trivial
  · exact within_discardQueue

end

/-- The raw keys a call may write. -/
def Call.Foot (cfg : Cfg) : Call → Bytes → Prop
  | .kv k _ => fun x => x = userKey k
  | .typed k _ => fun x => x = typedKey k
  | .list lk _ => LFoot cfg lk
  | .queue qk _ => QFoot qk

theorem within_call (cfg : Cfg) (c : Call) : (c.prog cfg).Within (c.Foot cfg) anyRes := by
  cases c with
  | kv k op => exact within_kv k op
  | typed k op => exact within_typed k op
  | list lk op => exact within_list op
  | queue qk op => exact within_queue op

end Candy
