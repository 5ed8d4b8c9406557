import Verif.Proofs.Footprint
import Verif.Model.Conc
/-!
# Critical sections read and write only their own raw keys

Needed for concurrency: what a call does inside its critical section depends only on the raw keys of its list or queue.
-/
namespace Candy
open Spec

/-- The program reads and writes only keys satisfying `P`, touches no locks, and returns only values satisfying `Q`. -/
def Prog.Local (P : Bytes → Prop) {α : Type} (Q : α → Prop) : Prog α → Prop
  | .ret a => Q a
  | .err _ => True
  | .panic => True
  | .exhausted => True
  | .get k c => P k ∧ ∀ x, (c x).Local P Q
  | .ins k _ _ c => P k ∧ ∀ x, (c x).Local P Q
  | .rem k c => P k ∧ ∀ x, (c x).Local P Q
  | .byHash _ suf c => (∀ k, endsWith k suf = true → P k) ∧ ∀ l : List KV, (∀ kv ∈ l, endsWith kv.1 suf = true) → (c l).Local P Q
  | .lock _ _ => False
  | .unlock _ => False

theorem Prog.Local.bind {P : Bytes → Prop} {α β : Type} {Q : α → Prop} {R : β → Prop} {f : α → Prog β} {p : Prog α}
    (h : p.Local P Q) (hf : ∀ a, Q a → (f a).Local P R) : (p.bind f).Local P R := by
  induction p with
  | ret a => exact hf a h
  | err | panic | exhausted => trivial
  | get k c ih => exact ⟨h.1, fun x => ih x (h.2 x)⟩
  | ins k v mode c ih => exact ⟨h.1, fun x => ih x (h.2 x)⟩
  | rem k c ih => exact ⟨h.1, fun x => ih x (h.2 x)⟩
  | byHash ph suf c ih => exact ⟨h.1, fun l hl => ih l (h.2 l hl)⟩
  | lock i c ih => exact h.elim
  | unlock c ih => exact h.elim

theorem Prog.Local.bind' {P : Bytes → Prop} {α β : Type} {Q : α → Prop} {R : β → Prop} {f : α → Prog β} {p : Prog α}
    (h : p.Local P Q) (hf : ∀ a, Q a → (f a).Local P R) : (p >>= f).Local P R := h.bind hf

section
variable {P : Bytes → Prop}

theorem local_getRaw {k} (h : P k) : (Prog.getRaw k).Local P anyRes := ⟨h, fun _ => trivial⟩
theorem local_removeRaw {k} (h : P k) : (Prog.removeRaw k).Local P anyRes := ⟨h, fun _ => trivial⟩
theorem local_insertInternal {k v mode} (h : P k) : (insertInternal k v mode).Local P anyRes := ⟨h, fun _ => trivial⟩
theorem local_setRaw {k v} (h : P k) : (setRaw k v).Local P anyRes :=
  (local_insertInternal h).bind' (fun a _ => by cases a <;> trivial)
theorem local_replaceRaw {k v e} (h : P k) : (replaceRaw k v e).Local P anyRes :=
  (local_insertInternal h).bind' (fun a _ => by cases a <;> trivial)
theorem local_gocRaw {k v} (h : P k) : (gocRaw k v).Local P anyRes :=
  (local_insertInternal h).bind' (fun a _ => by cases a <;> trivial)
theorem local_decMeta {b} : (decMeta b).Local P anyRes := by
  unfold decMeta; split <;> trivial
theorem local_splitVal {b} : (splitVal b).Local P anyRes := by
  unfold splitVal; split <;> trivial
theorem local_idxSucc {n} : (idxSucc n).Local P anyRes := by
  unfold idxSucc; split <;> trivial
theorem local_idxPred {n} : (idxPred n).Local P anyRes := by
  unfold idxPred; split <;> trivial
theorem local_numPred {n} : (numPred n).Local P anyRes := by
  unfold numPred; split <;> trivial

end

/-- The key is one of the footprint. -/
macro "infoot" : tactic => `(tactic| first | assumption | exact LFoot.list _ _ | exact LFoot.item _ _ _ | exact LFoot.chain _ _ _ | exact QFoot.queue _ | exact QFoot.item _ _)

/-- Discharges `Local` goals for straight-line code. -/
macro "locally" : tactic => `(tactic| repeat (first
  | (refine local_getRaw ?_; infoot)
  | (refine local_removeRaw ?_; infoot)
  | (refine local_setRaw ?_; infoot)
  | (refine local_replaceRaw ?_; infoot)
  | (refine local_gocRaw ?_; infoot)
  | exact local_decMeta
  | exact local_splitVal
  | exact local_idxSucc
  | exact local_idxPred
  | exact local_numPred
  | exact trivial
  | (refine Prog.Local.bind' (Q := anyRes) ?_ (fun _ _ => ?_))
  | split
  | (dsimp only)))

/-! ## Lists -/

section
variable {cfg : Cfg} {lk : Bytes}

theorem local_insertToListBody {ik v mode} : (insertToListBody cfg lk ik v mode).Local (LFoot cfg lk) anyRes := by
  unfold insertToListBody updateItem insertNewItem
  locally

theorem local_removeFromListBody {ik} : (removeFromListBody cfg lk ik).Local (LFoot cfg lk) anyRes := by
  unfold removeFromListBody removeMeta
  locally

theorem local_getAtIndex {idx} : (getAtIndex (cfg.listPh lk) idx).Local (LFoot cfg lk)
    (fun o => ∀ p k v, o = some (p, k, v) → LFoot cfg lk k) := by
  unfold getAtIndex
  refine Prog.Local.bind' (Q := anyRes) (local_getRaw (LFoot.chain _ _ _)) (fun _ _ => ?_)
  split
  · intro p k v h; simp at h
  · split
    · trivial
    · refine ⟨fun k hk => ?_, fun l hl => ?_⟩
      · obtain ⟨ik, hik⟩ := endsWith_item.1 hk
        rw [hik]; exact LFoot.item _ _ _
      dsimp only
      split
      · intro p k v h; simp at h
      · rename_i kv hkv
        intro p k v h
        simp only [Option.some.injEq, Prod.mk.injEq] at h
        obtain ⟨_, rfl, _⟩ := h
        obtain ⟨ik, hik⟩ := endsWith_item.1 (hl kv (List.mem_of_find?_eq_some hkv))
        rw [hik]; exact LFoot.item _ _ _

theorem local_compactIdx : ∀ is new, (compactIdx (cfg.listPh lk) is new).Local (LFoot cfg lk) anyRes
  | [], _ => trivial
  | i :: is, new => by
    unfold compactIdx
    refine Prog.Local.bind' local_getAtIndex (fun o ho => ?_)
    split
    · exact local_compactIdx is new
    · rename_i iph k v
      have hk := ho _ _ _ rfl
      refine Prog.Local.bind' (Q := anyRes) (local_setRaw (LFoot.chain _ _ _)) (fun _ _ => ?_)
      refine Prog.Local.bind' (Q := anyRes) (local_setRaw hk) (fun _ _ => ?_)
      refine Prog.Local.bind' (Q := anyRes) (local_removeRaw (LFoot.chain _ _ _)) (fun _ _ => ?_)
      exact Prog.Local.bind' (Q := anyRes) local_idxSucc (fun _ _ => local_compactIdx is _)

theorem local_discardIdx : ∀ is, (discardIdx (cfg.listPh lk) is).Local (LFoot cfg lk) anyRes
  | [] => trivial
  | i :: is => by
    unfold discardIdx
    refine Prog.Local.bind' local_getAtIndex (fun o ho => ?_)
    split
    · exact local_discardIdx is
    · rename_i iph k v
      have hk := ho _ _ _ rfl
      refine Prog.Local.bind' (Q := anyRes) (local_removeRaw (LFoot.chain _ _ _)) (fun _ _ => ?_)
      exact Prog.Local.bind' (Q := anyRes) (local_removeRaw hk) (fun _ _ => local_discardIdx is)

theorem local_compactListBody {par} : (compactListBody cfg lk par).Local (LFoot cfg lk) anyRes := by
  unfold compactListBody
  refine Prog.Local.bind' (Q := anyRes) (local_getRaw (LFoot.list _ _)) (fun _ _ => ?_)
  split
  · trivial
  · refine Prog.Local.bind' (Q := anyRes) local_decMeta (fun _ _ => ?_)
    split
    · trivial
    · split
      · trivial
      · split
        · trivial
        · split
          · trivial
          · refine Prog.Local.bind' (Q := anyRes) (local_compactIdx _ _) (fun _ _ => ?_)
            locally

theorem local_discardListBody : (discardListBody cfg lk).Local (LFoot cfg lk) anyRes := by
  unfold discardListBody
  refine Prog.Local.bind' (Q := anyRes) (local_getRaw (LFoot.list _ _)) (fun _ _ => ?_)
  split
  · trivial
  · refine Prog.Local.bind' (Q := anyRes) local_decMeta (fun _ _ => ?_)
    refine Prog.Local.bind' (Q := anyRes) (local_discardIdx _) (fun _ _ => ?_)
    locally

end

/-! ## Queues -/

section
variable {qk : Bytes}

theorem local_popHeadLoop : ∀ n h, (popHeadLoop qk n h).Local (QFoot qk) anyRes
  | 0, _ => trivial
  | n + 1, h => by
    unfold popHeadLoop
    refine Prog.Local.bind' (Q := anyRes) (local_removeRaw (QFoot.item _ _)) (fun _ _ => ?_)
    split
    · trivial
    · exact local_popHeadLoop n _

theorem local_popTailLoop : ∀ n h, (popTailLoop qk n h).Local (QFoot qk) anyRes
  | 0, _ => trivial
  | n + 1, h => by
    unfold popTailLoop
    refine Prog.Local.bind' (Q := anyRes) (local_removeRaw (QFoot.item _ _)) (fun _ _ => ?_)
    split
    · trivial
    · exact local_popTailLoop n _

theorem local_discardQLoop : ∀ is, (discardQLoop qk is).Local (QFoot qk) anyRes
  | [] => trivial
  | i :: is => by
    unfold discardQLoop
    exact Prog.Local.bind' (Q := anyRes) (local_removeRaw (QFoot.item _ _)) (fun _ _ => local_discardQLoop is)

theorem local_extendLoop : ∀ vs t, (extendLoop qk vs t).Local (QFoot qk) anyRes
  | [], _ => trivial
  | v :: vs, t => by
    unfold extendLoop
    refine Prog.Local.bind' (Q := anyRes) (local_setRaw (QFoot.item _ _)) (fun _ _ => ?_)
    exact Prog.Local.bind' (Q := anyRes) local_idxSucc (fun _ _ => local_extendLoop vs _)

theorem local_pushQueueBody {v pos} : (pushQueueBody qk v pos).Local (QFoot qk) anyRes := by
  unfold pushQueueBody; locally

theorem local_popQueueBody {pos} : (popQueueBody qk pos).Local (QFoot qk) anyRes := by
  unfold popQueueBody
  refine Prog.Local.bind' (Q := anyRes) (local_getRaw (QFoot.queue _)) (fun _ _ => ?_)
  split
  · trivial
  · refine Prog.Local.bind' (Q := anyRes) local_decMeta (fun _ _ => ?_)
    split
    · refine Prog.Local.bind' (Q := anyRes) (local_popHeadLoop _ _) (fun x _ => ?_)
      obtain ⟨a, b⟩ := x
      dsimp only
      unfold putQueueMeta
      locally
    · refine Prog.Local.bind' (Q := anyRes) (local_popTailLoop _ _) (fun x _ => ?_)
      obtain ⟨a, b⟩ := x
      dsimp only
      unfold putQueueMeta
      locally

theorem local_removeFromQueueBody {idx} : (removeFromQueueBody qk idx).Local (QFoot qk) anyRes := by
  unfold removeFromQueueBody putQueueMeta; locally

theorem local_discardQueueBody : (discardQueueBody qk).Local (QFoot qk) anyRes := by
  unfold discardQueueBody
  refine Prog.Local.bind' (Q := anyRes) (local_getRaw (QFoot.queue _)) (fun _ _ => ?_)
  split
  · trivial
  · refine Prog.Local.bind' (Q := anyRes) local_decMeta (fun _ _ => ?_)
    refine Prog.Local.bind' (Q := anyRes) (local_discardQLoop _) (fun _ _ => ?_)
    locally

theorem local_extendQueueBody {vs} : (extendQueueBody qk vs).Local (QFoot qk) anyRes := by
  unfold extendQueueBody
  refine Prog.Local.bind' (Q := anyRes) (local_gocRaw (QFoot.queue _)) (fun _ _ => ?_)
  refine Prog.Local.bind' (Q := anyRes) local_decMeta (fun _ _ => ?_)
  refine Prog.Local.bind' (Q := anyRes) (local_extendLoop _ _) (fun _ _ => ?_)
  locally

end

/-! ## The shape of the atomic calls -/

/-- Inside the critical section: reading and writing within `P`; after the lock has been dropped the result is known. -/
def Prog.InSec (P : Bytes → Prop) {α : Type} : Prog α → Prop
  | .ret _ => True
  | .err _ => True
  | .panic => True
  | .exhausted => True
  | .get k c => P k ∧ ∀ x, (c x).InSec P
  | .ins k _ _ c => P k ∧ ∀ x, (c x).InSec P
  | .rem k c => P k ∧ ∀ x, (c x).InSec P
  | .byHash _ suf c => (∀ k, endsWith k suf = true → P k) ∧ ∀ l : List KV, (∀ kv ∈ l, endsWith kv.1 suf = true) → (c l).InSec P
  | .lock _ _ => False
  | .unlock c => ∃ r, c.result = some r ∧ r ≠ .exhausted

theorem Prog.bind_assoc {α β γ : Type} (p : Prog α) (f : α → Prog β) (g : β → Prog γ) :
    (p.bind f).bind g = p.bind (fun a => (f a).bind g) := by
  induction p with
  | ret a => rfl
  | err | panic | exhausted => rfl
  | get k c ih => exact congrArg (Prog.get k) (funext ih)
  | ins k v mode c ih => exact congrArg (Prog.ins k v mode) (funext ih)
  | rem k c ih => exact congrArg (Prog.rem k) (funext ih)
  | byHash ph suf c ih => exact congrArg (Prog.byHash ph suf) (funext ih)
  | lock i c ih => exact congrArg (Prog.lock i) ih
  | unlock c ih => exact congrArg Prog.unlock ih

theorem Prog.Local.inSec {P : Bytes → Prop} {α β : Type} {f : α → Prog β} {p : Prog α} (h : p.Local P anyRes)
    (hf : ∀ a, ∃ r, (f a).result = some r ∧ r ≠ .exhausted) : (p.bind (fun a => .unlock (f a))).InSec P := by
  induction p with
  | ret a => exact hf a
  | err | panic | exhausted => trivial
  | get k c ih => exact ⟨h.1, fun x => ih x (h.2 x)⟩
  | ins k v mode c ih => exact ⟨h.1, fun x => ih x (h.2 x)⟩
  | rem k c ih => exact ⟨h.1, fun x => ih x (h.2 x)⟩
  | byHash ph suf c ih => exact ⟨h.1, fun l hl => ih l (h.2 l hl)⟩
  | lock i c ih => exact h.elim
  | unlock c ih => exact h.elim

/-- A call consisting of one critical section on lock `l`. -/
def Prog.Section (P : Bytes → Prop) (l : Nat) {α : Type} (p : Prog α) : Prop := ∃ q : Prog α, p = .lock l q ∧ q.InSec P

theorem section_of {P : Bytes → Prop} {α β : Type} {l : Nat} {body : Prog α} {f : α → Prog β} (h : body.Local P anyRes)
    (hf : ∀ a, ∃ r, (f a).result = some r ∧ r ≠ .exhausted) : ((Prog.withLock l body).bind f).Section P l := by
  refine ⟨body.bind (fun a => .unlock (f a)), ?_, h.inSec hf⟩
  show Prog.lock l ((body.bind (fun a => Prog.unlock (.ret a))).bind f) = _
  rw [Prog.bind_assoc]
  rfl

/-- The lock of an atomic call on a list or queue. -/
def Call.lockOf (cfg : Cfg) : Call → Nat
  | .kv _ _ => 0
  | .typed _ _ => 0
  | .list lk _ => cfg.lockIdx (cfg.listPh lk)
  | .queue qk _ => cfg.queueLock qk

/-- Only one raw operation, on a key of `P`, after which the result is known; or none. -/
def Prog.OneOp (P : Bytes → Prop) {α : Type} : Prog α → Prop
  | .ret _ => True
  | .err _ => True
  | .panic => True
  | .exhausted => False
  | .get k c => P k ∧ ∀ x, ∃ r, (c x).result = some r ∧ r ≠ .exhausted
  | .ins k _ _ c => P k ∧ ∀ x, ∃ r, (c x).result = some r ∧ r ≠ .exhausted
  | .rem k c => P k ∧ ∀ x, ∃ r, (c x).result = some r ∧ r ≠ .exhausted
  | .byHash .. => False
  | .lock _ _ => False
  | .unlock _ => False

theorem oneOp_set {k v : Bytes} {α : Type} {f : SetStatus → α} : ((setRaw k v).bind (fun a => .ret (f a))).OneOp (fun x => x = k) := by
  refine ⟨rfl, fun x => ?_⟩
  cases x <;> exact ⟨_, rfl, by simp⟩

theorem oneOp_replace {k v : Bytes} {e} {α : Type} {f : ReplaceStatus → α} : ((replaceRaw k v e).bind (fun a => .ret (f a))).OneOp (fun x => x = k) := by
  refine ⟨rfl, fun x => ?_⟩
  cases x <;> exact ⟨_, rfl, by simp⟩

theorem oneOp_goc {k v : Bytes} {α : Type} {f : GocStatus → α} : ((gocRaw k v).bind (fun a => .ret (f a))).OneOp (fun x => x = k) := by
  refine ⟨rfl, fun x => ?_⟩
  cases x <;> exact ⟨_, rfl, by simp⟩

theorem oneOp_sizes {k v : Bytes} {α β : Type} {p : Prog α} {f : α → Prog β} {P : Bytes → Prop} (h : (p.bind f).OneOp P) :
    (((ensureSizes k v) >>= fun _ => p).bind f).OneOp P := by
  unfold ensureSizes
  split
  · trivial
  · split
    · trivial
    · exact h

theorem oneOp_kv (k : Bytes) (op : KvOp) : (op.prog k).OneOp (fun x => x = userKey k) := by
  cases op with
  | get => exact ⟨rfl, fun x => ⟨_, rfl, by simp⟩⟩
  | contains => exact ⟨rfl, fun x => ⟨_, rfl, by simp⟩⟩
  | remove => exact ⟨rfl, fun x => ⟨_, rfl, by simp⟩⟩
  | set v => exact oneOp_sizes oneOp_set
  | replace v e => exact oneOp_sizes oneOp_replace
  | getOrCreate v => exact oneOp_sizes oneOp_goc

theorem oneOp_typed (k : Bytes) (op : KvOp) : (op.typedProg k).OneOp (fun x => x = typedKey k) := by
  cases op with
  | get => exact ⟨rfl, fun x => ⟨_, rfl, by simp⟩⟩
  | contains => exact ⟨rfl, fun x => ⟨_, rfl, by simp⟩⟩
  | remove => exact ⟨rfl, fun x => ⟨_, rfl, by simp⟩⟩
  | set v => exact oneOp_set
  | replace v e => exact oneOp_replace
  | getOrCreate v => exact oneOp_goc

theorem retKnown {α : Type} (a : α) : ∃ r, (Prog.ret a).result = some r ∧ r ≠ .exhausted := ⟨_, rfl, by simp⟩

/-- A call of the key-value API. -/
def Call.onKv : Call → Bool
  | .kv _ _ => true
  | .typed _ _ => true
  | _ => false

/-- Every atomic call is a single raw operation or a single critical section. -/
theorem atomic_shape (cfg : Cfg) (c : Call) (h : c.atomic = true) :
    (c.onKv = true ∧ (c.prog cfg).OneOp (c.Foot cfg)) ∨ (c.onKv = false ∧ (c.prog cfg).Section (c.Foot cfg) (c.lockOf cfg)) := by
  cases c with
  | kv k op => exact Or.inl ⟨rfl, oneOp_kv k op⟩
  | typed k op => exact Or.inl ⟨rfl, oneOp_typed k op⟩
  | list lk op =>
    refine Or.inr ⟨rfl, ?_⟩
    cases op with
    | set ik v =>
      show (((insertToList cfg lk ik v .set).bind _).bind _).Section _ _
      rw [Prog.bind_assoc]
      refine section_of local_insertToListBody (fun a => ?_)
      cases a <;> exact ⟨_, rfl, by simp⟩
    | replace ik v e =>
      show (((insertToList cfg lk ik v (.replace e)).bind _).bind _).Section _ _
      rw [Prog.bind_assoc]
      refine section_of local_insertToListBody (fun a => ?_)
      cases a <;> exact ⟨_, rfl, by simp⟩
    | getOrCreate ik v =>
      show (((insertToList cfg lk ik v .getOrCreate).bind _).bind _).Section _ _
      rw [Prog.bind_assoc]
      refine section_of local_insertToListBody (fun a => ?_)
      cases a <;> exact ⟨_, rfl, by simp⟩
    | remove ik => exact section_of local_removeFromListBody (fun a => retKnown _)
    | compact par => exact section_of local_compactListBody (fun a => retKnown _)
    | discard => exact section_of local_discardListBody (fun a => retKnown _)
    | _ => simp [Call.atomic] at h
  | queue qk op =>
    refine Or.inr ⟨rfl, ?_⟩
    cases op with
    | push pos v => exact section_of local_pushQueueBody (fun a => retKnown _)
    | pop pos => exact section_of local_popQueueBody (fun a => retKnown _)
    | remove i => exact section_of local_removeFromQueueBody (fun a => retKnown _)
    | discard => exact section_of local_discardQueueBody (fun a => retKnown _)
    | extend vs => exact section_of local_extendQueueBody (fun a => retKnown _)
    | removeBig => exact section_of local_discardQueueBody (fun a => retKnown _)
    | len =>
      show (((fetchQueue cfg qk).bind _).bind _).Section _ _
      unfold fetchQueue
      show ((((Prog.withLock (cfg.queueLock qk) _).bind _).bind _).bind _).Section _ _
      rw [Prog.bind_assoc, Prog.bind_assoc]
      refine section_of (local_getRaw (QFoot.queue _)) (fun a => ?_)
      cases a with
      | none => exact ⟨_, rfl, by simp⟩
      | some b =>
        by_cases hb : b.length = 24
        · refine ⟨_, by simp only [decMeta, hb, if_true]; rfl, by simp⟩
        · exact ⟨.panic, by simp only [decMeta, hb, if_false]; rfl, by simp⟩
    | range =>
      show (((fetchQueue cfg qk).bind _).bind _).Section _ _
      unfold fetchQueue
      show ((((Prog.withLock (cfg.queueLock qk) _).bind _).bind _).bind _).Section _ _
      rw [Prog.bind_assoc, Prog.bind_assoc]
      refine section_of (local_getRaw (QFoot.queue _)) (fun a => ?_)
      cases a with
      | none => exact ⟨_, rfl, by simp⟩
      | some b =>
        by_cases hb : b.length = 24
        · refine ⟨_, by simp only [decMeta, hb, if_true]; rfl, by simp⟩
        · exact ⟨.panic, by simp only [decMeta, hb, if_false]; rfl, by simp⟩
    | _ => simp [Call.atomic] at h

end Candy
