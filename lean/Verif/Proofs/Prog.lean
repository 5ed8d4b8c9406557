import Verif.Model.Queues
import Verif.Proofs.Term
/-!
# Programs: abstract semantics on the ideal map, simulation, and a program logic
-/
namespace Candy
open Spec

/-- What `get_by_hash` may answer, in terms of the ideal map: stored pairs whose key has the suffix, all those whose key has
exactly this hash among them. -/
structure ByHash (cfg : Cfg) (m : Map) (ph : PH) (suf : Bytes) (l : List KV) : Prop where
  suffix : ∀ kv ∈ l, endsWith kv.1 suf = true
  sound : ph.sig ≠ INVALID_SIG → ∀ kv ∈ l, m kv.1 = some kv.2
  complete : ph.sig ≠ INVALID_SIG → ∀ k v, m k = some v → cfg.ph k = ph → endsWith k suf = true → (k, v) ∈ l
  sigs : ph.sig ≠ INVALID_SIG → ∀ kv ∈ l, (cfg.ph kv.1).sig = ph.sig
  distinct : ph.sig ≠ INVALID_SIG → DistinctKeys l

/-- One raw operation of a program on the ideal map. -/
inductive AStep (cfg : Cfg) {α : Type} : Map → Prog α → Map → Prog α → Prop
  | get (m : Map) (k c) : AStep cfg m (.get k c) m (c (m k))
  | insErr (m : Map) (k v mode c e) (hs : sizeErr cfg k v = some e) : AStep cfg m (.ins k v mode c) m (.err e)
  | ins (m : Map) (k v mode c) (hs : sizeErr cfg k v = none) :
      AStep cfg m (.ins k v mode c) (m.upd k (insertAt (m k) v mode).1) (c (insertAt (m k) v mode).2)
  | rem (m : Map) (k c) : AStep cfg m (.rem k c) (m.upd k none) (c (m k))
  | byHash (m : Map) (ph suf c l) (hl : ByHash cfg m ph suf l) : AStep cfg m (.byHash ph suf c) m (c l)
  | lock (m : Map) (i c) : AStep cfg m (.lock i c) m c
  | unlock (m : Map) (c) : AStep cfg m (.unlock c) m c

/-- Execution of a program on the ideal map. -/
inductive AExec (cfg : Cfg) {α : Type} : Map → Prog α → Map → Prog α → Prop
  | refl (m p) : AExec cfg m p m p
  | step {m p m' p' m'' p''} (h : AStep cfg m p m' p') (hr : AExec cfg m' p' m'' p'') : AExec cfg m p m'' p''

theorem sizeErr_none {cfg k v} : sizeErr cfg k v = none ↔
    k.length ≤ MAX_TOTAL_KEY_SIZE ∧ v.length ≤ MAX_TOTAL_VALUE_SIZE ∧ k.length + v.length ≤ cfg.maxShardSize.toNat := by
  unfold sizeErr
  constructor
  · intro h
    split at h
    · simp at h
    · split at h
      · simp at h
      · split at h
        · simp at h
        · omega
  · rintro ⟨h1, h2, h3⟩
    rw [if_neg (by omega), if_neg (by omega), if_neg (by omega)]

theorem sizeErr_lt {cfg k v} (h : sizeErr cfg k v = none) : k.length < 65536 ∧ v.length < 65536 := by
  have := sizeErr_none.1 h
  have h1 : MAX_TOTAL_KEY_SIZE = 16383 := rfl
  have h2 : MAX_TOTAL_VALUE_SIZE = 65535 := rfl
  omega

theorem inSpan_full (ph : PH) : inSpan 0 END_OF_SHARDS ph.shardSel := ⟨Nat.zero_le _, ph.shardSel_lt⟩

/-- A concrete step is a step of the ideal map. -/
theorem CStep.sim {cfg : Cfg} {ex : Bool} {α : Type} {t t' : Tree} {p p' : Prog α} (hok : Tree.OK cfg ex 0 END_OF_SHARDS t)
    (hsm : t.Small) (h : CStep cfg t p t' p') :
    Tree.OK cfg ex 0 END_OF_SHARDS t' ∧ AStep cfg (t.get cfg) p (t'.get cfg) p' := by
  cases h with
  | get k c => exact ⟨hok, .get _ _ _⟩
  | insErr k v mode c e hs => exact ⟨hok, .insErr _ _ _ _ _ _ hs⟩
  | ins _ k v mode c st n hs h =>
    have hz := sizeErr_lt hs
    rcases Tree.insert_spec (mode := mode) (k := k) (v := v) hz.1 hz.2 n t 0 END_OF_SHARDS hok hsm (inSpan_full _) with
      hd | ⟨t2, h1, h2, h3⟩
    · rw [hd] at h; simp at h
    · rw [h1] at h
      simp only [Out.ok.injEq, Prod.mk.injEq] at h
      obtain ⟨rfl, rfl⟩ := h
      refine ⟨h2, ?_⟩
      have : t2.get cfg = (Map.upd (t.get cfg) k (insertAt (t.get cfg k) v mode).1) := by
        funext k'; exact h3 k' (inSpan_full _)
      rw [this]
      exact .ins _ _ _ _ _ hs
  | rem k c =>
    obtain ⟨h1, h2, h3⟩ := Tree.remove_spec hok (k := k) (inSpan_full _)
    refine ⟨h1, ?_⟩
    have : (t.remove cfg k).1.get cfg = Map.upd (t.get cfg) k none := by
      funext k'; exact h3 k' (inSpan_full _)
    rw [this, h2]
    exact .rem _ _ _
  | byHash ph suf c =>
    refine ⟨hok, .byHash _ _ _ _ _ ⟨?_, ?_, ?_, fun hs kv hkv => Tree.getByHash_sig hok ph hs (List.mem_filter.1 hkv).1,
      fun hs => List.Pairwise.filter _ (Tree.getByHash_spec hok ph hs).2.2⟩⟩
    · intro kv hkv; exact (List.mem_filter.1 hkv).2
    · intro hs kv hkv; exact (Tree.getByHash_spec hok ph hs).1 kv (List.mem_filter.1 hkv).1
    · intro hs k v hm hp he
      exact List.mem_filter.2 ⟨(Tree.getByHash_spec hok ph hs).2.1 k v hm hp, he⟩
  | lock i c => exact ⟨hok, .lock _ _ _⟩
  | unlock c => exact ⟨hok, .unlock _ _⟩

theorem bg_get {cfg : Cfg} {ex : Bool} {t t' : Tree} {sel : Nat} (hok : Tree.OK cfg ex 0 END_OF_SHARDS t)
    (hsm : t.Small) (h : t.bgStep cfg sel = some t') : Tree.OK cfg ex 0 END_OF_SHARDS t' ∧ t'.get cfg = t.get cfg := by
  obtain ⟨t2, h1, h2, _, h4⟩ := Tree.bgStep_spec hok hsm sel
  rw [h1] at h; simp at h; subst h
  exact ⟨h2, funext fun k => h4 k (inSpan_full _)⟩

/-- A concrete execution, with any schedule of the background threads, is an execution on the ideal map. -/
theorem CExec.sim {cfg : Cfg} {ex : Bool} {α : Type} {t t' : Tree} {p p' : Prog α} (h : CExec cfg Tree.Small t p t' p')
    (hok : Tree.OK cfg ex 0 END_OF_SHARDS t) : Tree.OK cfg ex 0 END_OF_SHARDS t' ∧ AExec cfg (t.get cfg) p (t'.get cfg) p' := by
  induction h with
  | refl t p => exact ⟨hok, .refl _ _⟩
  | step hs h _ ih =>
    obtain ⟨h1, h2⟩ := h.sim hok hs
    obtain ⟨i1, i2⟩ := ih h1
    exact ⟨i1, .step h2 i2⟩
  | bg sel hs h _ ih =>
    obtain ⟨h1, h2⟩ := bg_get hok hs h
    obtain ⟨i1, i2⟩ := ih h1
    exact ⟨i1, h2 ▸ i2⟩

/-- Weakest precondition: every execution of the program from `m` passes only through maps satisfying `I`, and ends (if it ends)
in `Q`. -/
def wp (cfg : Cfg) (I : Map → Prop) {α : Type} : Prog α → Map → (Map → Res α → Prop) → Prop
  | .ret a, m, Q => I m ∧ Q m (.ok a)
  | .err e, m, Q => I m ∧ Q m (.err e)
  | .panic, m, Q => I m ∧ Q m .panic
  | .exhausted, m, Q => I m ∧ Q m .exhausted
  | .get k c, m, Q => I m ∧ wp cfg I (c (m k)) m Q
  | .ins k v mode c, m, Q => I m ∧
      match sizeErr cfg k v with
      | some e => Q m (.err e)
      | none => wp cfg I (c (insertAt (m k) v mode).2) (m.upd k (insertAt (m k) v mode).1) Q
  | .rem k c, m, Q => I m ∧ wp cfg I (c (m k)) (m.upd k none) Q
  | .byHash ph suf c, m, Q => I m ∧ ∀ l, ByHash cfg m ph suf l → wp cfg I (c l) m Q
  | .lock _ c, m, Q => I m ∧ wp cfg I c m Q
  | .unlock c, m, Q => I m ∧ wp cfg I c m Q

theorem wp.inv {cfg I} {α : Type} {p : Prog α} {m Q} (h : wp cfg I p m Q) : I m := by
  cases p <;> exact h.1

theorem wp.step {cfg I} {α : Type} {p p' : Prog α} {m m' Q} (h : wp cfg I p m Q) (hs : AStep cfg m p m' p') :
    wp cfg I p' m' Q := by
  cases hs with
  | get k c => exact h.2
  | insErr k v mode c e hs =>
    have := h.2; rw [hs] at this; exact ⟨h.1, this⟩
  | ins k v mode c hs => have := h.2; rw [hs] at this; exact this
  | rem k c => exact h.2
  | byHash ph suf c l hl => exact h.2 l hl
  | lock i c => exact h.2
  | unlock c => exact h.2

theorem wp.exec {cfg I} {α : Type} {p p' : Prog α} {m m' Q} (hs : AExec cfg m p m' p') (h : wp cfg I p m Q) :
    wp cfg I p' m' Q := by
  induction hs with
  | refl => exact h
  | step h1 _ ih => exact ih (h.step h1)

theorem wp.result {cfg I} {α : Type} {p : Prog α} {m Q r} (h : wp cfg I p m Q) (hr : p.result = some r) : Q m r := by
  cases p <;> simp [Prog.result] at hr <;> subst hr <;> exact h.2

/-- Soundness: a finished execution satisfies the postcondition. -/
theorem wp.sound {cfg I} {α : Type} {p p' : Prog α} {m m' Q r} (h : wp cfg I p m Q) (hs : AExec cfg m p m' p')
    (hr : p'.result = some r) : Q m' r := (wp.exec hs h).result hr

theorem wp.mono {cfg} {I I' : Map → Prop} {α : Type} (hI : ∀ m, I m → I' m) :
    ∀ {p : Prog α} {m} {Q Q' : Map → Res α → Prop}, wp cfg I p m Q → (∀ m r, Q m r → Q' m r) → wp cfg I' p m Q'
  | .ret a, m, Q, Q', h, hq => ⟨hI _ h.1, hq _ _ h.2⟩
  | .err e, m, Q, Q', h, hq => ⟨hI _ h.1, hq _ _ h.2⟩
  | .panic, m, Q, Q', h, hq => ⟨hI _ h.1, hq _ _ h.2⟩
  | .exhausted, m, Q, Q', h, hq => ⟨hI _ h.1, hq _ _ h.2⟩
  | .get k c, m, Q, Q', h, hq => ⟨hI _ h.1, wp.mono hI h.2 hq⟩
  | .ins k v mode c, m, Q, Q', h, hq => by
    refine ⟨hI _ h.1, ?_⟩
    have := h.2
    revert this
    cases sizeErr cfg k v with
    | some e => exact fun h => hq _ _ h
    | none => exact fun h => wp.mono hI h hq
  | .rem k c, m, Q, Q', h, hq => ⟨hI _ h.1, wp.mono hI h.2 hq⟩
  | .byHash ph suf c, m, Q, Q', h, hq => ⟨hI _ h.1, fun l hl => wp.mono hI (h.2 l hl) hq⟩
  | .lock i c, m, Q, Q', h, hq => ⟨hI _ h.1, wp.mono hI h.2 hq⟩
  | .unlock c, m, Q, Q', h, hq => ⟨hI _ h.1, wp.mono hI h.2 hq⟩

theorem wp.conseq {cfg} {I : Map → Prop} {α : Type} {p : Prog α} {m} {Q Q' : Map → Res α → Prop} (h : wp cfg I p m Q)
    (hq : ∀ m r, Q m r → Q' m r) : wp cfg I p m Q' := wp.mono (fun _ h => h) h hq

/-- The postcondition may assume the invariant. -/
theorem wp.withInv {cfg} {I : Map → Prop} {α : Type} : ∀ {p : Prog α} {m} {Q : Map → Res α → Prop}, wp cfg I p m Q →
    wp cfg I p m (fun m r => I m ∧ Q m r)
  | .ret a, m, Q, h => ⟨h.1, h⟩
  | .err e, m, Q, h => ⟨h.1, h⟩
  | .panic, m, Q, h => ⟨h.1, h⟩
  | .exhausted, m, Q, h => ⟨h.1, h⟩
  | .get k c, m, Q, h => ⟨h.1, wp.withInv h.2⟩
  | .ins k v mode c, m, Q, h => by
    refine ⟨h.1, ?_⟩
    have hI := h.1
    have := h.2
    revert this
    cases sizeErr cfg k v with
    | some e => exact fun h => ⟨hI, h⟩
    | none => exact fun h => wp.withInv h
  | .rem k c, m, Q, h => ⟨h.1, wp.withInv h.2⟩
  | .byHash ph suf c, m, Q, h => ⟨h.1, fun l hl => wp.withInv (h.2 l hl)⟩
  | .lock i c, m, Q, h => ⟨h.1, wp.withInv h.2⟩
  | .unlock c, m, Q, h => ⟨h.1, wp.withInv h.2⟩

theorem wp.conseqI {cfg} {I : Map → Prop} {α : Type} {p : Prog α} {m} {Q Q' : Map → Res α → Prop} (h : wp cfg I p m Q)
    (hq : ∀ m r, I m → Q m r → Q' m r) : wp cfg I p m Q' := h.withInv.conseq (fun m r h => hq m r h.1 h.2)

/-- Postcondition of the first part of a sequence. -/
def seqPost (cfg : Cfg) (I : Map → Prop) {α β : Type} (f : α → Prog β) (Q : Map → Res β → Prop) (m : Map) : Res α → Prop
  | .ok a => wp cfg I (f a) m Q
  | .err e => Q m (.err e)
  | .panic => Q m .panic
  | .exhausted => Q m .exhausted

theorem wp_bind' {cfg I} {α β : Type} {f : α → Prog β} {Q} : ∀ {p : Prog α} {m : Map},
    wp cfg I (p.bind f) m Q ↔ wp cfg I p m (seqPost cfg I f Q)
  | .ret a, m => ⟨fun h => ⟨h.inv, h⟩, fun h => h.2⟩
  | .err e, m => Iff.rfl
  | .panic, m => Iff.rfl
  | .exhausted, m => Iff.rfl
  | .get k c, m => and_congr Iff.rfl wp_bind'
  | .ins k v mode c, m => by
    refine and_congr Iff.rfl ?_
    cases sizeErr cfg k v with
    | some e => exact Iff.rfl
    | none => exact wp_bind'
  | .rem k c, m => and_congr Iff.rfl wp_bind'
  | .byHash ph suf c, m => and_congr Iff.rfl ⟨fun h l hl => wp_bind'.1 (h l hl), fun h l hl => wp_bind'.2 (h l hl)⟩
  | .lock i c, m => and_congr Iff.rfl wp_bind'
  | .unlock c, m => and_congr Iff.rfl wp_bind'

theorem wp_bind {cfg I} {α β : Type} {f : α → Prog β} {Q} {p : Prog α} {m : Map} :
    wp cfg I (p >>= f) m Q ↔ wp cfg I p m (seqPost cfg I f Q) := wp_bind'

theorem wp_pure {cfg I} {α : Type} {a : α} {m Q} : wp cfg I (pure a : Prog α) m Q ↔ I m ∧ Q m (.ok a) := Iff.rfl

theorem wp_getRaw {cfg I k m Q} : wp cfg I (Prog.getRaw k) m Q ↔ I m ∧ Q m (.ok (m k)) :=
  ⟨fun h => ⟨h.1, h.2.2⟩, fun h => ⟨h.1, h.1, h.2⟩⟩

theorem wp_removeRaw {cfg I k m Q} :
    wp cfg I (Prog.removeRaw k) m Q ↔ I m ∧ I (m.upd k none) ∧ Q (m.upd k none) (.ok (m k)) := Iff.rfl

theorem wp_withLock {cfg I} {α : Type} {i} {p : Prog α} {m Q} : wp cfg I (Prog.withLock i p) m Q ↔ wp cfg I p m Q := by
  constructor
  · intro h
    refine (wp_bind'.1 h.2).conseq ?_
    intro m r hr
    cases r with
    | ok a => exact hr.2.2
    | _ => exact hr
  · intro h
    refine ⟨h.inv, wp_bind'.2 ?_⟩
    have : ∀ {p : Prog α} {m}, wp cfg I p m Q → wp cfg I p m (seqPost cfg I (fun a => Prog.unlock (.ret a)) Q) := by
      intro p
      induction p with
      | ret a => exact fun h => ⟨h.1, h.1, h.1, h.2⟩
      | err | panic | exhausted => exact fun h => h
      | get k c ih => exact fun h => ⟨h.1, ih _ h.2⟩
      | ins k v mode c ih =>
        intro m h
        refine ⟨h.1, ?_⟩
        have := h.2
        revert this
        cases sizeErr cfg k v with
        | some e => exact id
        | none => exact fun h => ih _ h
      | rem k c ih => exact fun h => ⟨h.1, ih _ h.2⟩
      | byHash ph suf c ih => exact fun h => ⟨h.1, fun l hl => ih l (h.2 l hl)⟩
      | lock i c ih => exact fun h => ⟨h.1, ih h.2⟩
      | unlock c ih => exact fun h => ⟨h.1, ih h.2⟩
    exact this h

/-- Status of `set_raw` for a key with the given current value. -/
def setStatusOf : Option Bytes → SetStatus
  | none => .createdNew
  | some v => .prevValue v

theorem wp_setRaw {cfg I k v m Q} : wp cfg I (setRaw k v) m Q ↔ I m ∧
    match sizeErr cfg k v with
    | some e => Q m (.err e)
    | none => I (m.upd k (some v)) ∧ Q (m.upd k (some v)) (.ok (setStatusOf (m k))) := by
  unfold setRaw insertInternal
  refine wp_bind.trans ?_
  refine and_congr Iff.rfl ?_
  cases sizeErr cfg k v with
  | some e => exact Iff.rfl
  | none =>
    cases hm : m k with
    | none => exact ⟨fun h => h.2, fun h => ⟨h.1, h⟩⟩
    | some x => exact ⟨fun h => h.2, fun h => ⟨h.1, h⟩⟩

theorem wp_setRaw_of {cfg I k v m Q} (hs : sizeErr cfg k v = none) (h1 : I m) (h2 : I (m.upd k (some v)))
    (h3 : Q (m.upd k (some v)) (.ok (setStatusOf (m k)))) : wp cfg I (setRaw k v) m Q := by
  rw [wp_setRaw, hs]; exact ⟨h1, h2, h3⟩

/-- Result and new value of `replace_raw`. -/
def replaceOf (cur : Option Bytes) (v : Bytes) (e : Option Bytes) : Option Bytes × ReplaceStatus :=
  match cur with
  | none => (none, .doesNotExist)
  | some old => if e = none ∨ e = some old then (some v, .prevValue old) else (some old, .wrongValue old)

theorem wp_replaceRaw {cfg I k v e m Q} : wp cfg I (replaceRaw k v e) m Q ↔ I m ∧
    match sizeErr cfg k v with
    | some e => Q m (.err e)
    | none => I (m.upd k (replaceOf (m k) v e).1) ∧ Q (m.upd k (replaceOf (m k) v e).1) (.ok (replaceOf (m k) v e).2) := by
  unfold replaceRaw insertInternal
  refine wp_bind.trans ?_
  refine and_congr Iff.rfl ?_
  cases sizeErr cfg k v with
  | some e => exact Iff.rfl
  | none =>
    cases hm : m k with
    | none => exact ⟨fun h => h.2, fun h => ⟨h.1, h⟩⟩
    | some x =>
      cases e with
      | none => exact ⟨fun h => h.2, fun h => ⟨h.1, h⟩⟩
      | some e =>
        by_cases he : e = x
        · subst he
          simp only [insertAt, replaceOf, if_pos, or_true]
          exact ⟨fun h => h.2, fun h => ⟨h.1, h⟩⟩
        · simp only [insertAt, replaceOf, Option.some.injEq, he, or_false, reduceCtorEq, if_false]
          exact ⟨fun h => h.2, fun h => ⟨h.1, h⟩⟩

/-- Status of `get_or_create_raw`. -/
def gocOf (cur : Option Bytes) (v : Bytes) : GocStatus :=
  match cur with
  | none => .createdNew v
  | some old => .existingValue old

theorem wp_gocRaw {cfg I k v m Q} : wp cfg I (gocRaw k v) m Q ↔ I m ∧
    match sizeErr cfg k v with
    | some e => Q m (.err e)
    | none => I (m.upd k (some ((m k).getD v))) ∧ Q (m.upd k (some ((m k).getD v))) (.ok (gocOf (m k) v)) := by
  unfold gocRaw insertInternal
  refine wp_bind.trans ?_
  refine and_congr Iff.rfl ?_
  cases sizeErr cfg k v with
  | some e => exact Iff.rfl
  | none =>
    cases hm : m k with
    | none => exact ⟨fun h => h.2, fun h => ⟨h.1, h⟩⟩
    | some x => exact ⟨fun h => h.2, fun h => ⟨h.1, h⟩⟩

end Candy
