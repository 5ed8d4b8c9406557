import Verif.Proofs.Local
/-!
# The calls on lists touch the item last

`set_in_list`, `replace_in_list`, `get_or_create_in_list` and `remove_from_list` change at most one item, by their last raw operation. So `get_from_list`, which reads
the item without taking the lock, sees the list before or after the call.
-/
namespace Candy
open Spec

/-- The result is known (up to dropping the lock). -/
def Prog.Ends {α : Type} (p : Prog α) : Prop :=
  (∃ q r, p = .unlock q ∧ q.result = some r ∧ r ≠ .exhausted) ∨ ∃ r, p.result = some r ∧ r ≠ .exhausted

/-- Inside the critical section, not yet having written a key of `W`; writing one ends it. -/
def Prog.Once (W : Bytes → Prop) {α : Type} : Prog α → Prop
  | .ret _ => True
  | .err _ => True
  | .panic => True
  | .exhausted => True
  | .get _ c => ∀ x, (c x).Once W
  | .ins k _ _ c => (W k ∧ ∀ x, (c x).Ends) ∨ (¬ W k ∧ ∀ x, (c x).Once W)
  | .rem k c => (W k ∧ ∀ x, (c x).Ends) ∨ (¬ W k ∧ ∀ x, (c x).Once W)
  | .byHash _ suf c => ∀ l : List KV, (∀ kv ∈ l, endsWith kv.1 suf = true) → (c l).Once W
  | .lock _ _ => False
  | .unlock _ => True

/-- No key of `W` is in reach. -/
theorem Prog.InSec.once {P W : Bytes → Prop} {α : Type} {p : Prog α} (h : p.InSec P) (hd : ∀ k, P k → ¬ W k) : p.Once W := by
  induction p with
  | ret a => trivial
  | err | panic | exhausted => trivial
  | get k c ih => exact fun x => ih x (h.2 x)
  | ins k v mode c ih => exact .inr ⟨hd k h.1, fun x => ih x (h.2 x)⟩
  | rem k c ih => exact .inr ⟨hd k h.1, fun x => ih x (h.2 x)⟩
  | byHash ph suf c ih => exact fun l hl => ih l (h.2 l hl)
  | lock i c ih => exact h.elim
  | unlock c ih => trivial

/-- A part that does not write keys of `W`, then the rest. -/
theorem Prog.Once.bind {W : Bytes → Prop} {α β : Type} {Q : α → Prop} {f : α → Prog β} {p : Prog α} (h : p.Local (fun k => ¬ W k) Q) (hf : ∀ a, (f a).Once W) :
    (p.bind f).Once W := by
  induction p with
  | ret a => exact hf a
  | err | panic | exhausted => trivial
  | get k c ih => exact fun x => ih x (h.2 x)
  | ins k v mode c ih => exact .inr ⟨h.1, fun x => ih x (h.2 x)⟩
  | rem k c ih => exact .inr ⟨h.1, fun x => ih x (h.2 x)⟩
  | byHash ph suf c ih => exact fun l hl => ih l (h.2 l hl)
  | lock i c ih => exact h.elim
  | unlock c ih => exact h.elim

/-- The last write. -/
theorem once_setRaw {W : Bytes → Prop} {β : Type} {k v : Bytes} {f : SetStatus → Prog β} (hk : W k) (hf : ∀ a, (f a).Ends) : ((setRaw k v).bind f).Once W := by
  refine .inl ⟨hk, fun x => ?_⟩
  cases x
  all_goals first
    | exact hf _
    | exact .inr ⟨.panic, rfl, by simp⟩

theorem once_replaceRaw {W : Bytes → Prop} {β : Type} {k v : Bytes} {e : Option Bytes} {f : ReplaceStatus → Prog β} (hk : W k) (hf : ∀ a, (f a).Ends) :
    ((replaceRaw k v e).bind f).Once W := by
  refine .inl ⟨hk, fun x => ?_⟩
  cases x
  all_goals first
    | exact hf _
    | exact .inr ⟨.panic, rfl, by simp⟩

theorem once_removeRaw {W : Bytes → Prop} {β : Type} {k : Bytes} {f : Option Bytes → Prog β} (hk : W k) (hf : ∀ a, (f a).Ends) : ((Prog.removeRaw k).bind f).Once W :=
  .inl ⟨hk, hf⟩

/-- The items of some lists. -/
def ItemOf (R : PH → Prop) (k : Bytes) : Prop := ∃ lph ik, R lph ∧ k = itemKey lph ik

section
variable {cfg : Cfg} {R : PH → Prop}

theorem itemOf_list (lk : Bytes) : ¬ ItemOf R (listKey lk) := fun ⟨_, _, _, e⟩ => listKey_ne_item _ _ _ e
theorem itemOf_chain (lph : PH) (i : Nat) : ¬ ItemOf R (chainKey lph i) := fun ⟨_, _, _, e⟩ => itemKey_ne_chain _ _ _ _ e.symm

theorem ends_unlock {α β : Type} {f : α → Prog β} (hf : ∀ a, ∃ r, (f a).result = some r ∧ r ≠ .exhausted) (a : α) : (Prog.unlock (f a)).Ends := by
  obtain ⟨r, h1, h2⟩ := hf a
  exact .inl ⟨_, r, rfl, h1, h2⟩

theorem once_seq {W : Bytes → Prop} {α β γ : Type} {p : Prog α} {f : α → Prog β} {g : β → Prog γ} (h : p.Local (fun k => ¬ W k) anyRes) (hf : ∀ a, ((f a).bind g).Once W) :
    ((p >>= f).bind g).Once W := by
  show ((p.bind f).bind g).Once W
  rw [Prog.bind_assoc]
  exact Prog.Once.bind h hf

theorem once_lastSet {W : Bytes → Prop} {β γ : Type} {k v : Bytes} {f : SetStatus → Prog β} {g : β → Prog γ} (hk : W k) (hf : ∀ a, ((f a).bind g).Ends) :
    ((setRaw k v >>= f).bind g).Once W := by
  show (((setRaw k v).bind f).bind g).Once W
  rw [Prog.bind_assoc]
  exact once_setRaw hk hf

theorem once_lastReplace {W : Bytes → Prop} {β γ : Type} {k v : Bytes} {e : Option Bytes} {f : ReplaceStatus → Prog β} {g : β → Prog γ} (hk : W k) (hf : ∀ a, ((f a).bind g).Ends) :
    ((replaceRaw k v e >>= f).bind g).Once W := by
  show (((replaceRaw k v e).bind f).bind g).Once W
  rw [Prog.bind_assoc]
  exact once_replaceRaw hk hf

theorem once_lastRemove {W : Bytes → Prop} {β γ : Type} {k : Bytes} {f : Option Bytes → Prog β} {g : β → Prog γ} (hk : W k) (hf : ∀ a, ((f a).bind g).Ends) :
    ((Prog.removeRaw k >>= f).bind g).Once W := by
  show (((Prog.removeRaw k).bind f).bind g).Once W
  rw [Prog.bind_assoc]
  exact once_removeRaw hk hf

theorem once_get {W : Bytes → Prop} {β γ : Type} {k : Bytes} {f : Option Bytes → Prog β} {g : β → Prog γ} (hf : ∀ a, ((f a).bind g).Once W) :
    ((Prog.getRaw k >>= f).bind g).Once W := fun x => hf x

theorem once_insert {lk ik v : Bytes} {mode : Mode} {β : Type} {f : ListIns → Prog β} (hR : R (cfg.listPh lk)) (hf : ∀ a, ∃ r, (f a).result = some r ∧ r ≠ .exhausted) :
    ((insertToListBody cfg lk ik v mode).bind (fun a => .unlock (f a))).Once (ItemOf R) := by
  have hi : ItemOf R (itemKey (cfg.listPh lk) ik) := ⟨_, _, hR, rfl⟩
  have hu := ends_unlock hf
  have hnew : ((insertNewItem cfg lk ik v).bind (fun a => .unlock (f a))).Once (ItemOf R) := by
    unfold insertNewItem
    refine once_seq (local_gocRaw (itemOf_list _)) (fun a => ?_)
    cases a with
    | createdNew b =>
      refine once_seq (local_setRaw (itemOf_chain _ _)) (fun _ => ?_)
      exact once_lastSet hi (fun _ => hu _)
    | existingValue b =>
      refine once_seq local_decMeta (fun l => ?_)
      refine once_seq local_idxSucc (fun _ => ?_)
      refine once_seq local_idxSucc (fun _ => ?_)
      refine once_seq (local_setRaw (itemOf_list _)) (fun _ => ?_)
      refine once_seq (local_setRaw (itemOf_chain _ _)) (fun _ => ?_)
      exact once_lastSet hi (fun _ => hu _)
  unfold insertToListBody
  refine once_get (fun x => ?_)
  cases x with
  | some b =>
    show ((updateItem _ _ _ _ _).bind _).Once _
    unfold updateItem
    refine once_seq local_splitVal (fun y => ?_)
    obtain ⟨old, suf⟩ := y
    cases mode with
    | getOrCreate => trivial
    | set => exact once_lastReplace hi (fun _ => hu _)
    | replace e =>
      cases e with
      | none => exact once_lastReplace hi (fun _ => hu _)
      | some e =>
        dsimp only
        split
        · trivial
        · exact once_lastReplace hi (fun _ => hu _)
  | none =>
    cases mode with
    | replace e => trivial
    | set => exact hnew
    | getOrCreate => exact hnew

theorem once_remove {lk ik : Bytes} {β : Type} {f : Option Bytes → Prog β} (hR : R (cfg.listPh lk)) (hf : ∀ a, ∃ r, (f a).result = some r ∧ r ≠ .exhausted) :
    ((removeFromListBody cfg lk ik).bind (fun a => .unlock (f a))).Once (ItemOf R) := by
  have hi : ItemOf R (itemKey (cfg.listPh lk) ik) := ⟨_, _, hR, rfl⟩
  have hu := ends_unlock hf
  have hl : ¬ ItemOf R (listKey lk) := itemOf_list lk
  unfold removeFromListBody
  refine once_get (fun x => ?_)
  cases x with
  | none => trivial
  | some b =>
    refine once_seq local_splitVal (fun y => ?_)
    obtain ⟨old, suf⟩ := y
    refine once_get (fun z => ?_)
    have hend : ((Prog.removeRaw (chainKey (cfg.listPh lk) (dec64 suf)) >>= fun _ => Prog.removeRaw (itemKey (cfg.listPh lk) ik) >>= fun _ => pure (some old)).bind
        (fun a => .unlock (f a))).Once (ItemOf R) :=
      once_seq (local_removeRaw (itemOf_chain _ _)) (fun _ => once_lastRemove hi (fun _ => hu _))
    cases z with
    | none => exact hend
    | some m =>
      refine once_seq (p := removeMeta lk (dec64 suf) m) ?_ (fun _ => hend)
      unfold removeMeta
      locally

/-- The hashes of some list keys. -/
def HashOf (cfg : Cfg) (K : Bytes → Prop) (ph : PH) : Prop := ∃ lk, K lk ∧ cfg.listPh lk = ph

/-- A compaction of a list, with no other list of `K` with this hash. -/
def Compacts (cfg : Cfg) (K : Bytes → Prop) (c : Call) : Prop := ∃ lk par, c = .list lk (.compact par) ∧ ∀ lk', K lk' → cfg.listPh lk' = cfg.listPh lk → lk' = lk

/-- `c` is one of the calls that are serializable when the lists with keys `K` are being read with `get_from_list`. -/
def SFits (cfg : Cfg) (K : Bytes → Prop) (c : Call) : Prop :=
  (c.atomic = true ∧ ∀ lk op, c = .list lk op → HashOf cfg K (cfg.listPh lk) → op ≠ .discard ∧ ∀ par, op = .compact par → ∀ lk', K lk' → cfg.listPh lk' = cfg.listPh lk → lk' = lk) ∨
  ∃ lk ik, c = .list lk (.get ik) ∧ K lk

theorem lfoot_item {lk k : Bytes} (h : LFoot cfg lk k) (hi : ItemOf R k) : R (cfg.listPh lk) := by
  obtain ⟨lph, ik, hR, rfl⟩ := hi
  rcases h with h | ⟨jk, h⟩ | ⟨j, h⟩
  · exact (listKey_ne_item _ _ _ h.symm).elim
  · rw [← (itemKey_inj h).1]; exact hR
  · exact (itemKey_ne_chain _ _ _ _ h).elim

theorem item_lfoot (lk ik : Bytes) : LFoot cfg lk (itemKey (cfg.listPh lk) ik) := LFoot.item _ _ _

/-- A call consisting of one critical section on lock `l` which (unless `X`) writes a key of `W` at most once, at its end. -/
def Prog.SectionW (P W : Bytes → Prop) (l : Nat) (X : Prop) {α : Type} (p : Prog α) : Prop := ∃ q : Prog α, p = .lock l q ∧ q.InSec P ∧ (q.Once W ∨ X)

theorem Prog.Section.free {P W : Bytes → Prop} {X : Prop} {l : Nat} {α : Type} {p : Prog α} (h : p.Section P l) (hd : ∀ k, P k → ¬ W k) : p.SectionW P W l X := by
  obtain ⟨q, h1, h2⟩ := h
  exact ⟨q, h1, h2, .inl (h2.once hd)⟩

theorem Prog.Section.withOnce {P W : Bytes → Prop} {X : Prop} {l : Nat} {α β : Type} {body : Prog α} {f : α → Prog β} (h : ((Prog.withLock l body).bind f).Section P l)
    (ho : (body.bind (fun a => .unlock (f a))).Once W) : ((Prog.withLock l body).bind f).SectionW P W l X := by
  obtain ⟨q, h1, h2⟩ := h
  refine ⟨q, h1, h2, ?_⟩
  have e : (Prog.withLock l body).bind f = .lock l (body.bind (fun a => .unlock (f a))) := by
    show Prog.lock l ((body.bind (fun a => Prog.unlock (.ret a))).bind f) = _
    rw [Prog.bind_assoc]
    rfl
  rw [e] at h1
  injection h1 with _ h1
  rw [← h1]; exact .inl ho

/-- The shape of the calls that fit. -/
theorem fits_shape {K : Bytes → Prop} {c : Call} (h : SFits cfg K c) :
    (c.onKv = true ∧ (c.prog cfg).OneOp (c.Foot cfg)) ∨
    (c.onKv = false ∧ (c.prog cfg).SectionW (c.Foot cfg) (ItemOf (HashOf cfg K)) (c.lockOf cfg) (Compacts cfg K c)) ∨
    (∃ lk ik cont, c = .list lk (.get ik) ∧ K lk ∧ c.prog cfg = .get (itemKey (cfg.listPh lk) ik) cont ∧
      (∀ v i j, (cont (some (v ++ enc64 i))).result = (cont (some (v ++ enc64 j))).result) ∧ ∀ x, ∃ r, (cont x).result = some r ∧ r ≠ .exhausted) := by
  rcases h with ⟨hat, hno⟩ | ⟨lk, ik, rfl, hR⟩
  · rcases atomic_shape cfg c hat with h1 | ⟨h1, h2⟩
    · exact .inl h1
    refine .inr (.inl ⟨h1, ?_⟩)
    cases c with
    | kv k op => simp [Call.onKv] at h1
    | typed k op => simp [Call.onKv] at h1
    | queue qk op => exact h2.free (fun k hk ⟨lph, ik, _, e⟩ => by
        rcases hk with h3 | ⟨j, h3⟩ <;> rw [e, itemKey_eq] at h3 <;>
          first
          | exact ne_of_ns (by decide) h3
          | (rw [qitemKey_eq] at h3; exact ne_of_ns (by decide) h3))
    | list lk op =>
      by_cases hR : HashOf cfg K (cfg.listPh lk)
      · obtain ⟨hd, hc⟩ := hno lk op rfl hR
        cases op with
        | set ik v =>
          have h2 : (((insertToList cfg lk ik v .set).bind _).bind _).Section _ _ := h2
          show (((insertToList cfg lk ik v .set).bind _).bind _).SectionW _ _ _ _
          rw [Prog.bind_assoc] at h2 ⊢
          exact h2.withOnce (once_insert hR (fun a => by cases a <;> exact ⟨_, rfl, by simp⟩))
        | replace ik v e =>
          have h2 : (((insertToList cfg lk ik v (.replace e)).bind _).bind _).Section _ _ := h2
          show (((insertToList cfg lk ik v (.replace e)).bind _).bind _).SectionW _ _ _ _
          rw [Prog.bind_assoc] at h2 ⊢
          exact h2.withOnce (once_insert hR (fun a => by cases a <;> exact ⟨_, rfl, by simp⟩))
        | getOrCreate ik v =>
          have h2 : (((insertToList cfg lk ik v .getOrCreate).bind _).bind _).Section _ _ := h2
          show (((insertToList cfg lk ik v .getOrCreate).bind _).bind _).SectionW _ _ _ _
          rw [Prog.bind_assoc] at h2 ⊢
          exact h2.withOnce (once_insert hR (fun a => by cases a <;> exact ⟨_, rfl, by simp⟩))
        | remove ik =>
          exact Prog.Section.withOnce (body := removeFromListBody cfg lk ik) h2 (once_remove hR (fun a => retKnown _))
        | compact par =>
          obtain ⟨q, g1, g2⟩ := h2
          exact ⟨q, g1, g2, .inr ⟨lk, par, rfl, hc par rfl⟩⟩
        | discard => exact absurd rfl hd
        | _ => simp [Call.atomic] at hat
      · exact h2.free (fun k hk hi => hR (lfoot_item hk hi))
  · have e : ∀ b, ((splitVal b).bind (fun y => Prog.ret (some y.1))).bind (fun a => Prog.ret (Resp.val a)) = (splitVal b).bind (fun y => Prog.ret (Resp.val (some y.1))) := fun b => Prog.bind_assoc _ _ _
    refine .inr (.inr ⟨lk, ik, _, rfl, hR, rfl, fun v i j => ?_, fun x => ?_⟩)
    · show (((splitVal _).bind (fun y => Prog.ret (some y.1))).bind (fun a => Prog.ret (Resp.val a))).result = (((splitVal _).bind (fun y => Prog.ret (some y.1))).bind (fun a => Prog.ret (Resp.val a))).result
      rw [e, e]
      unfold splitVal
      simp only [List.length_append, enc64_length]
      rw [if_neg (by omega), if_neg (by omega)]
      show some (Res.ok (Resp.val (some _))) = some (Res.ok (Resp.val (some _)))
      simp
    · cases x with
      | none => exact ⟨_, rfl, by simp⟩
      | some b =>
        have : ∃ r, ((splitVal b).bind (fun y => Prog.ret (Resp.val (some y.1)))).result = some r ∧ r ≠ .exhausted := by
          unfold splitVal
          split
          · exact ⟨.panic, rfl, by simp⟩
          · exact ⟨_, rfl, by simp⟩
        rw [← e b] at this
        exact this

end
end Candy
