import Verif.Proofs.ListStay
import Verif.Proofs.Origin
/-!
# An item of a list that nobody removes can be read, even during compactions of the list
-/
namespace Candy
open Spec

/-- The item `ik` is in the list with a permitted value. -/
structure KT (cfg : Cfg) (lk ik : Bytes) (W : Bytes → Prop) (k : Bytes) (o : Option Bytes) : Prop where
  shape : Shape cfg k o
  item : k = itemKey (cfg.listPh lk) ik → ∃ v c, c.length = 8 ∧ W v ∧ o = some (v ++ c)

section
variable {cfg : Cfg} {lk ik : Bytes} {W : Bytes → Prop} {D : Prop}

theorem kt_of_ne {k : Bytes} {o : Option Bytes} (h : k ≠ itemKey (cfg.listPh lk) ik) (hs : Shape cfg k o) : KT cfg lk ik W k o := ⟨hs, fun e => absurd e h⟩
theorem kt_rec {b : Bytes} (h : b.length = 24) : KT cfg lk ik W (listKey lk) (some b) := kt_of_ne (listKey_ne_item _ _ _) (shape_list.2 h)
theorem kt_rec_none : KT cfg lk ik W (listKey lk) none := kt_of_ne (listKey_ne_item _ _ _) shape_none
theorem kt_chain {i : Nat} {k' : Bytes} : KT cfg lk ik W (chainKey (cfg.listPh lk) i) (some (enc64 (cfg.ph k').toNat)) := kt_of_ne (fun e => itemKey_ne_chain _ _ _ _ e.symm) (shape_chain.2 ⟨k', rfl⟩)
theorem kt_chain_none {i : Nat} : KT cfg lk ik W (chainKey (cfg.listPh lk) i) none := kt_of_ne (fun e => itemKey_ne_chain _ _ _ _ e.symm) shape_none
theorem kt_item {jk v c : Bytes} (hc : c.length = 8) (h : jk = ik → W v) : KT cfg lk ik W (itemKey (cfg.listPh lk) jk) (some (v ++ c)) :=
  ⟨shape_item.2 (by rw [List.length_append, hc]; omega), fun e => ⟨v, c, hc, h (itemKey_inj e).2, rfl⟩⟩
theorem kt_item_none {jk : Bytes} (h : jk ≠ ik) : KT cfg lk ik W (itemKey (cfg.listPh lk) jk) none := kt_of_ne (fun e => h (itemKey_inj e).2) shape_none

theorem kt_item_val {jk old suffix : Bytes} (h : KT cfg lk ik W (itemKey (cfg.listPh lk) jk) (some (old ++ suffix))) (hs : suffix.length = 8) : jk = ik → W old := by
  intro e
  subst e
  obtain ⟨v, c, h1, h2, h3⟩ := h.item rfl
  injection h3 with h3
  rw [(List.append_inj' h3 (by rw [hs, h1])).1]
  exact h2

macro "ktauto" : tactic => `(tactic| repeat (first
  | exact trivial
  | exact types_idxSucc.mono (fun _ _ => trivial) id
  | exact types_idxPred.mono (fun _ _ => trivial) id
  | exact types_numPred trivial
  | exact (types_removeRaw kt_rec_none).mono (fun _ _ => trivial) id
  | exact (types_removeRaw kt_chain_none).mono (fun _ _ => trivial) id
  | exact types_setRaw (kt_rec (encMeta_length _ _ _))
  | (refine Prog.Types.bind' (Q := anyRes) ?_ (fun _ _ => ?_))
  | split
  | (dsimp only)))

theorem kt_getAt {i : Nat} : (getAtIndex (cfg.listPh lk) i).Types cfg (KT cfg lk ik W) True
    (fun o => ∀ iph k v, o = some (iph, k, v) → (∃ k', iph = cfg.ph k') ∧ ∃ jk u c, k = itemKey (cfg.listPh lk) jk ∧ v = u ++ c ∧ c.length = 8 ∧ (jk = ik → W u)) := by
  unfold getAtIndex
  refine types_getRaw.bind' (fun o ho => ?_)
  split
  · intro _ _ _ h; cases h
  · rename_i b
    obtain ⟨k', rfl⟩ := shape_chain.1 ho.shape
    simp only [enc64_length, ne_eq, not_true_eq_false, if_false, phOf_enc]
    intro m l hm hl
    dsimp only
    split
    · intro _ _ _ h; cases h
    · rename_i kv hkv
      intro iph k v h
      simp only [Option.some.injEq, Prod.mk.injEq] at h
      obtain ⟨rfl, rfl, rfl⟩ := h
      have hmem := List.mem_of_find?_eq_some hkv
      obtain ⟨jk, hjk⟩ := endsWith_item.1 (hl.suffix kv hmem)
      have hv := List.find?_some hkv
      obtain ⟨u, hu⟩ := endsWith_iff.1 hv
      have h1 := hm kv.1
      rw [hl.sound (cfg.ph_sig_ne k') kv hmem, hjk, hu] at h1
      exact ⟨⟨k', rfl⟩, jk, u, enc64 i, hjk, hu, enc64_length _, kt_item_val h1 (enc64_length _)⟩

theorem kt_getAtT {i : Nat} : (getAtIndexT (cfg.listPh lk) i).Types cfg (KT cfg lk ik W) True anyRes := by
  unfold getAtIndexT
  refine kt_getAt.bind' (fun o ho => ?_)
  split <;> trivial

theorem kt_collect : ∀ is, (collectIdx (cfg.listPh lk) is).Types cfg (KT cfg lk ik W) True anyRes
  | [] => trivial
  | i :: is => by
    unfold collectIdx
    refine kt_getAtT.bind' (fun o _ => ?_)
    cases o with
    | none => exact kt_collect is
    | some kv => exact (kt_collect is).bind' (fun _ _ => trivial)

theorem kt_first : ∀ is, (firstIdx (cfg.listPh lk) is).Types cfg (KT cfg lk ik W) True anyRes
  | [] => trivial
  | i :: is => by
    unfold firstIdx
    refine kt_getAtT.bind' (fun o _ => ?_)
    cases o with
    | none => exact kt_first is
    | some kv => trivial

theorem kt_range : (listRange cfg lk).Types cfg (KT cfg lk ik W) True anyRes := by
  unfold listRange
  refine (types_withLock types_getRaw).bind' (fun o ho => ?_)
  cases o with
  | none => trivial
  | some b => exact (types_decMeta (shape_list.1 ho.shape)).bind' (fun _ _ => trivial)

theorem kt_iter {fwd : Bool} : (iterList cfg lk fwd).Types cfg (KT cfg lk ik W) True anyRes := by
  unfold iterList
  refine kt_range.bind' (fun o _ => ?_)
  cases o with
  | none => trivial
  | some q => exact kt_collect _

theorem kt_peek {fwd : Bool} : (peekList cfg lk fwd).Types cfg (KT cfg lk ik W) True anyRes := by
  unfold peekList
  refine kt_range.bind' (fun o _ => ?_)
  cases o with
  | none => trivial
  | some q => exact kt_first _

theorem kt_len : (listLen lk).Types cfg (KT cfg lk ik W) True anyRes := by
  unfold listLen
  refine types_getRaw.bind' (fun o ho => ?_)
  cases o with
  | none => trivial
  | some b => exact (types_decMeta (shape_list.1 ho.shape)).bind' (fun _ _ => trivial)

theorem kt_get {jk : Bytes} : (getFromList cfg lk jk).Types cfg (KT cfg lk ik W) True (fun o => jk = ik → ∃ v, o = some v ∧ W v) := by
  unfold getFromList
  refine types_getRaw.bind' (fun o ho => ?_)
  cases o with
  | none =>
    intro e
    subst e
    obtain ⟨_, _, _, _, e⟩ := ho.item rfl
    cases e
  | some b =>
    refine (types_splitVal (shape_item.1 ho.shape)).bind' (fun x hx => ?_)
    obtain ⟨old, suffix⟩ := x
    intro e
    exact ⟨old, rfl, kt_item_val (by rw [← show b = old ++ suffix from hx.1]; exact ho) hx.2 e⟩

theorem kt_newItem {jk v : Bytes} (h : jk ≠ ik) : (insertNewItem cfg lk jk v).Types cfg (KT cfg lk ik W) True anyRes := by
  unfold insertNewItem
  have fin : ∀ i, (setRaw (chainKey (cfg.listPh lk) i) (enc64 (cfg.ph (itemKey (cfg.listPh lk) jk)).toNat) >>= fun _ =>
      setRaw (itemKey (cfg.listPh lk) jk) (v ++ enc64 i) >>= fun _ => pure (ListIns.created v)).Types cfg (KT cfg lk ik W) True anyRes := by
    intro i
    exact (types_setRaw kt_chain).bind' (fun _ _ => (types_setRaw (kt_item (enc64_length _) (fun e => absurd e h))).bind' (fun _ _ => trivial))
  refine (types_gocRaw' (fun _ => kt_rec (encMeta_length _ _ _))).bind' (fun st hst => ?_)
  rcases hst with ⟨rfl, _⟩ | ⟨b, rfl, hb⟩
  · exact fin FIRST_IDX
  · refine (types_decMeta (shape_list.1 hb.shape)).bind' (fun q _ => ?_)
    refine types_idxSucc.bind' (fun t ht => types_idxSucc.bind' (fun _ _ => ?_))
    exact (types_setRaw (kt_rec (encMeta_length _ _ _))).bind' (fun _ _ => fin q.tail)

theorem kt_update {jk v b : Bytes} {mode : Mode} (hb : KT cfg lk ik W (itemKey (cfg.listPh lk) jk) (some b)) (hW : jk = ik → W v ∨ mode = .getOrCreate) :
    (updateItem (cfg.listPh lk) jk v mode b).Types cfg (KT cfg lk ik W) True anyRes := by
  unfold updateItem
  refine (types_splitVal (shape_item.1 hb.shape)).bind' (fun x hx => ?_)
  obtain ⟨old, suffix⟩ := x
  have h2 : suffix.length = 8 := hx.2
  dsimp only
  split
  · trivial
  · split
    · trivial
    · exact (types_replaceRaw (kt_item h2 (fun h => (hW h).elim id (fun e => by cases e)))).bind' (fun _ _ => trivial)
  · rename_i hg _
    exact (types_replaceRaw (kt_item h2 (fun h => (hW h).elim id (fun e => absurd e (by intro e; subst e; exact hg rfl))))).bind' (fun _ _ => trivial)

theorem kt_insert {jk v : Bytes} {mode : Mode} (hW : jk = ik → W v ∨ mode = .getOrCreate) : (insertToList cfg lk jk v mode).Types cfg (KT cfg lk ik W) True anyRes := by
  refine types_withLock ?_
  unfold insertToListBody
  refine types_getRaw.bind' (fun o ho => ?_)
  cases o with
  | some b => exact kt_update ho hW
  | none =>
    have hf : jk ≠ ik := fun e => by
      subst e
      obtain ⟨_, _, _, _, e⟩ := ho.item rfl
      cases e
    dsimp only
    split
    · trivial
    · exact kt_newItem hf

theorem kt_removeMeta {idx : Nat} {b : Bytes} (hb : KT cfg lk ik W (listKey lk) (some b)) : (removeMeta lk idx b).Types cfg (KT cfg lk ik W) True anyRes := by
  unfold removeMeta
  refine (types_decMeta (shape_list.1 hb.shape)).bind' (fun _ _ => (types_numPred trivial).bind' (fun _ _ => ?_))
  ktauto

theorem kt_remove {jk : Bytes} (hf : jk ≠ ik) : (removeFromList cfg lk jk).Types cfg (KT cfg lk ik W) True anyRes := by
  refine types_withLock ?_
  unfold removeFromListBody
  refine types_getRaw.bind' (fun o ho => ?_)
  cases o with
  | none => trivial
  | some b =>
    refine (types_splitVal (shape_item.1 ho.shape)).bind' (fun x hx => ?_)
    obtain ⟨old, suffix⟩ := x
    dsimp only
    have fin : (Prog.removeRaw (chainKey (cfg.listPh lk) (dec64 suffix)) >>= fun _ => Prog.removeRaw (itemKey (cfg.listPh lk) jk) >>= fun _ => (pure (some old) : Prog (Option Bytes))).Types cfg (KT cfg lk ik W) True anyRes :=
      (types_removeRaw kt_chain_none).bind' (fun _ _ => (types_removeRaw (kt_item_none hf)).bind' (fun _ _ => trivial))
    refine types_getRaw.bind' (fun o ho => ?_)
    cases o with
    | none => exact fin
    | some b => exact (kt_removeMeta ho).bind' (fun _ _ => fin)

theorem kt_fated (hD : D) : (removeFromList cfg lk ik).TD cfg (KT cfg lk ik W) D (fun _ => False) (fun o : Option Bytes => ∃ v, o = some v) := by
  refine td_withLock ?_
  unfold removeFromListBody
  intro x hx
  obtain ⟨v, c, _, _, rfl⟩ := hx.item rfl
  refine .inr ⟨hD, ?_⟩
  show Prog.Fated _ (splitVal _ >>= _)
  refine Prog.Fated.const (fun a => ?_)
  obtain ⟨old, suffix⟩ := a
  refine Prog.Fated.const (fun o => ?_)
  cases o with
  | none => exact Prog.Fated.const (fun _ => Prog.Fated.const (fun _ => ⟨old, rfl⟩))
  | some b => exact Prog.Fated.const (fun _ => Prog.Fated.const (fun _ => Prog.Fated.const (fun _ => ⟨old, rfl⟩)))

theorem kt_popIdx (hD : D) : ∀ is, (popIdx cfg lk is).TD cfg (KT cfg lk ik W) D anyRes (fun o => ∃ kv, o = some kv ∧ kv.1 = ik)
  | [] => trivial
  | i :: is => by
    unfold popIdx
    refine Prog.TD.bind' (P := fun _ => False) (Prog.Types.td (Pan := True) kt_getAtT) (fun o _ => ?_) (fun _ h => h.elim)
    cases o with
    | none => exact kt_popIdx hD is
    | some kv =>
      by_cases e : kv.1 = ik
      · dsimp only
        rw [e]
        refine Prog.TD.bind' (kt_fated hD) (fun _ h => h.elim) (fun r hr => ?_)
        obtain ⟨u, rfl⟩ := hr
        exact ⟨kv, rfl, e⟩
      · refine Prog.TD.bind' (P := fun _ => False) (Prog.Types.td (Pan := True) (kt_remove e)) (fun r _ => ?_) (fun _ h => h.elim)
        cases r with
        | none => exact kt_popIdx hD is
        | some u => trivial

theorem kt_pop (hD : D) {fwd : Bool} : (popList cfg lk fwd).TD cfg (KT cfg lk ik W) D anyRes (fun o => ∃ kv, o = some kv ∧ kv.1 = ik) := by
  unfold popList
  refine Prog.TD.bind' (P := fun _ => False) (Prog.Types.td (Pan := True) kt_range) (fun o _ => ?_) (fun _ h => h.elim)
  cases o with
  | none => trivial
  | some q => exact kt_popIdx hD _

theorem kt_compactIdx : ∀ is new, (compactIdx (cfg.listPh lk) is new).Types cfg (KT cfg lk ik W) True anyRes
  | [], _ => trivial
  | i :: is, new => by
    unfold compactIdx
    refine kt_getAt.bind' (fun o ho => ?_)
    split
    · exact kt_compactIdx is new
    · obtain ⟨⟨k', rfl⟩, jk, u, c, rfl, rfl, hc, hu⟩ := ho _ _ _ rfl
      refine (types_setRaw kt_chain).bind' (fun _ _ => ?_)
      rw [take_item hc]
      refine (types_setRaw (kt_item (enc64_length _) hu)).bind' (fun _ _ => ?_)
      refine (types_removeRaw kt_chain_none).bind' (fun _ _ => ?_)
      exact types_idxSucc.bind' (fun _ _ => kt_compactIdx is _)

theorem kt_compact {par : CompactParams} : (compactList cfg lk par).Types cfg (KT cfg lk ik W) True anyRes := by
  refine types_withLock ?_
  unfold compactListBody
  refine types_getRaw.bind' (fun o ho => ?_)
  split
  · trivial
  · refine (types_decMeta (shape_list.1 ho.shape)).bind' (fun _ _ => ?_)
    split
    · trivial
    · split
      · trivial
      · split
        · trivial
        · split
          · trivial
          · refine (kt_compactIdx _ _).bind' (fun _ _ => ?_)
            split
            · exact (types_removeRaw kt_rec_none).bind' (fun _ _ => trivial)
            · exact (types_setRaw (kt_rec (encMeta_length _ _ _))).bind' (fun _ _ => trivial)

theorem kt_setInList {jk v : Bytes} (hW : jk = ik → W v) : (setInList cfg lk jk v false).Types cfg (KT cfg lk ik W) True anyRes := by
  unfold setInList
  refine (kt_insert (fun h => .inl (hW h))).bind' (fun a _ => ?_)
  cases a <;> trivial

theorem kt_setPromoting {jk v : Bytes} (hf : jk ≠ ik) : (setInList cfg lk jk v true).Types cfg (KT cfg lk ik W) True anyRes := by
  unfold setInList
  refine (kt_remove hf).bind' (fun _ _ => ?_)
  refine (kt_insert (fun h => absurd h hf)).bind' (fun a _ => ?_)
  cases a <;> trivial

theorem kt_replaceInList {jk v : Bytes} {e : Option Bytes} (hW : jk = ik → W v) : (replaceInList cfg lk jk v e).Types cfg (KT cfg lk ik W) True anyRes := by
  unfold replaceInList
  refine (kt_insert (fun h => .inl (hW h))).bind' (fun a _ => ?_)
  cases a <;> trivial

theorem kt_getOrCreateInList {jk v : Bytes} : (getOrCreateInList cfg lk jk v).Types cfg (KT cfg lk ik W) True anyRes := by
  unfold getOrCreateInList
  refine (kt_insert (fun _ => .inr rfl)).bind' (fun a _ => ?_)
  cases a <;> trivial

/-- What the answers show of the item. -/
def ShowsK (lk ik : Bytes) (W : Bytes → Prop) (c : Call) (r : Resp) : Prop := ∀ o, c = .list lk (.get ik) → r = .val o → ∃ v, o = some v ∧ W v
def TakesK (lk ik : Bytes) (c : Call) (r : Resp) : Prop := ∃ fwd kv, c = .list lk (.pop fwd) ∧ r = .item (some kv) ∧ kv.1 = ik

theorem ktd_call (c : Call) (hc : ¬ c.removesItem lk ik)
    (hclash : ∀ lk' op, c = .list lk' op → cfg.listPh lk' = cfg.listPh lk → lk' = lk) (hW : ∀ v, c.putsItem lk ik v → W v) :
    (c.prog cfg).TD cfg (KT cfg lk ik W) (∃ fwd, c = .list lk (.pop fwd)) (ShowsK lk ik W c) (TakesK lk ik c) := by
  by_cases hq : ∃ op, c = .list lk op
  · obtain ⟨op, rfl⟩ := hq
    cases op with
    | set jk v => exact Prog.Types.td (Pan := True) (types_tag (kt_setInList (fun h => hW v (.inl (by rw [h])))) (fun _ _ => nofun))
    | setPromoting jk v => exact Prog.Types.td (Pan := True) (types_tag (kt_setPromoting (fun h => hc (.inr (.inr ⟨v, by rw [h]⟩)))) (fun _ _ => nofun))
    | replace jk v e => exact Prog.Types.td (Pan := True) (types_tag (kt_replaceInList (fun h => hW v (.inr (.inl ⟨e, by rw [h]⟩)))) (fun _ _ => nofun))
    | getOrCreate jk v => exact Prog.Types.td (Pan := True) (types_tag kt_getOrCreateInList (fun _ _ => nofun))
    | get jk => exact Prog.Types.td (Pan := True) (types_tag kt_get (fun o ho o' h1 h2 => by cases h2; injection h1 with _ h1; injection h1 with h1; exact ho h1))
    | remove jk => exact Prog.Types.td (Pan := True) (types_tag (kt_remove (fun h => hc (.inr (.inl (by rw [h]))))) (fun _ _ => nofun))
    | iter fwd => exact Prog.Types.td (Pan := True) (types_tag kt_iter (fun _ _ => nofun))
    | peek fwd => exact Prog.Types.td (Pan := True) (types_tag kt_peek (fun _ _ => nofun))
    | pop fwd =>
      refine (kt_pop ⟨fwd, rfl⟩).bind (fun o ho => nofun) (fun o ho => ?_)
      obtain ⟨kv, rfl, h⟩ := ho
      exact ⟨fwd, kv, rfl, rfl, h⟩
    | compact par => exact Prog.Types.td (Pan := True) (types_tag kt_compact (fun _ _ => nofun))
    | discard => exact absurd (.inl rfl) hc
    | len => exact Prog.Types.td (Pan := True) (types_tag kt_len (fun _ _ => nofun))
  · have hq' : ∀ op, c ≠ .list lk op := fun op h => hq ⟨op, h⟩
    refine Prog.Types.td (Pan := True) (Prog.Types.mono (Q := anyRes) ?_ (fun _ _ _ h1 => absurd h1 (hq' _)) id)
    refine Prog.Types.within (types_call c (fun _ => trivial)) (within_call cfg c) (fun k hk o ho => kt_of_ne ?_ ho) (fun k o h => h.shape)
    intro hf
    have hf : LFoot cfg lk k := .inr (.inl ⟨ik, hf⟩)
    cases c with
    | kv k' op => exact user_notL ((show k = userKey k' from hk) ▸ hf)
    | typed k' op => exact typed_notL ((show k = typedKey k' from hk) ▸ hf)
    | list lk' op =>
      have hne : lk' ≠ lk := fun h => hq' op (by rw [h])
      exact foot_LL hk hf hne (fun e => hne (hclash lk' op rfl e))
    | queue qk' op => exact foot_LQ hf hk

end
end Candy
