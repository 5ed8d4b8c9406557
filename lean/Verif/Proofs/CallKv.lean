import Verif.Proofs.Abs
/-!
# Key-value and typed calls refine the ideal store
-/
namespace Candy
open Spec

theorem sizeErr_eq (cfg : Cfg) (k v : Bytes) : sizeErr cfg k v =
    if 16383 < k.length then some .keyTooLong else if 65535 < v.length then some .valueTooLong
    else if cfg.maxShardSize.toNat < k.length + v.length then some .cannotFit else none := rfl

theorem kvError_none {cfg k v} (h : kvError cfg k (.set v) = none) : sizeErr cfg (userKey k) v = none ∧ k.length ≤ MAX_KEY_SIZE ∧ v.length ≤ MAX_VALUE_SIZE := by
  have e1 : MAX_KEY_SIZE = 16128 := rfl
  have e2 : MAX_VALUE_SIZE = 65280 := rfl
  unfold kvError at h
  dsimp only [KvOp.value?] at h
  rw [sizeErr_eq, userKey_eq]
  simp only [List.length_append, List.length_cons, List.length_nil]
  split at h
  · simp at h
  · split at h
    · simp at h
    · split at h
      · simp at h
      · refine ⟨?_, by omega, by omega⟩
        rw [if_neg (by omega), if_neg (by omega), if_neg (by omega)]

/-- The size checks of a modifying call. -/
theorem wp_ensure {cfg I k v} {α : Type} {f : Prog α} {m : Map} {Q : Map → Res α → Prop}
    (hI : I m) (hf : kvError cfg k (.set v) = none → wp cfg I f m Q)
    (hf2 : ∀ e, kvError cfg k (.set v) = some e → k.length ≤ MAX_KEY_SIZE → v.length ≤ MAX_VALUE_SIZE → sizeErr cfg (userKey k) v = some e → wp cfg I f m Q)
    (he : ∀ e, kvError cfg k (.set v) = some e → Q m (.err e)) :
    wp cfg I (do ensureSizes k v; f) m Q := by
  have e1 : MAX_KEY_SIZE = 16128 := rfl
  have e2 : MAX_VALUE_SIZE = 65280 := rfl
  unfold ensureSizes
  by_cases h1 : MAX_KEY_SIZE < k.length
  · rw [if_pos h1]
    refine ⟨hI, he _ ?_⟩
    unfold kvError; dsimp only [KvOp.value?]; rw [if_pos (by omega)]
  · rw [if_neg h1]
    by_cases h2 : MAX_VALUE_SIZE < v.length
    · rw [if_pos h2]
      refine ⟨hI, he _ ?_⟩
      unfold kvError; dsimp only [KvOp.value?]; rw [if_neg (by omega), if_pos (by omega)]
    · rw [if_neg h2]
      show wp cfg I f m Q
      cases hk : kvError cfg k (.set v) with
      | none => exact hf hk
      | some e =>
        refine hf2 e hk (by omega) (by omega) ?_
        rw [← hk, sizeErr_eq, userKey_eq]
        unfold kvError
        dsimp only [KvOp.value?]
        simp only [List.length_append, List.length_cons, List.length_nil]
        rw [if_neg (show ¬ 16383 < k.length + (0 + 1) by omega), if_neg (show ¬ 65535 < v.length by omega),
          if_neg (show ¬ 16128 < k.length by omega), if_neg (show ¬ 65280 < v.length by omega)]

theorem kvError_congr {cfg k v} {op : KvOp} (h : KvOp.value? op = some v) : kvError cfg k op = kvError cfg k (.set v) := by
  unfold kvError; rw [h]; rfl

theorem upd_getD {m : Map} {k v : Bytes} : m.upd k (some ((m k).getD v)) = m.upd k (kvAnswer (m k) (.getOrCreate v)).2 := by
  cases m k <;> rfl

theorem replaceOf_answer (cur : Option Bytes) (v : Bytes) (e : Option Bytes) :
    (replaceOf cur v e).1 = (kvAnswer cur (.replace v e)).2 ∧ Resp.replaceStatus (replaceOf cur v e).2 = (kvAnswer cur (.replace v e)).1 := by
  unfold replaceOf kvAnswer
  cases cur with
  | none => exact ⟨rfl, rfl⟩
  | some old => dsimp only; split <;> exact ⟨rfl, rfl⟩

/-- A modifying key-value call, given what its raw operation does. -/
theorem wp_kvMod {cfg I k v op m} {α : Type} {f : α → Resp} {p : Prog α} (hop : KvOp.value? op = some v) (hI : I m)
    (hI' : kvError cfg k op = none → I (m.upd (userKey k) (kvAnswer (m (userKey k)) op).2))
    (hp : ∀ Q : Map → Res α → Prop, (match sizeErr cfg (userKey k) v with
      | some e => Q m (.err e)
      | none => I (m.upd (userKey k) (kvAnswer (m (userKey k)) op).2) ∧ ∀ a, f a = (kvAnswer (m (userKey k)) op).1 → Q (m.upd (userKey k) (kvAnswer (m (userKey k)) op).2) (.ok a)) → wp cfg I p m Q) :
    wp cfg I (Prog.tag f (do ensureSizes k v; p)) m (fun m' r => match kvError cfg k op with
      | some e => r = .err e ∧ m' = m
      | none => r = .ok (kvAnswer (m (userKey k)) op).1 ∧ m' = m.upd (userKey k) (kvAnswer (m (userKey k)) op).2) := by
  apply wp_tag
  rw [kvError_congr hop] at hI' ⊢
  refine wp_ensure hI ?_ ?_ ?_
  · intro he
    apply hp
    rw [(kvError_none he).1, he]
    exact ⟨hI' he, fun a ha => ⟨hI' he, by rw [ha], rfl⟩⟩
  · intro e he _ _ hs
    apply hp
    rw [hs, he]
    exact ⟨rfl, rfl⟩
  · intro e he
    dsimp only
    rw [he]
    exact ⟨rfl, rfl⟩

theorem wp_kvOp' (cfg : Cfg) (I : Map → Prop) (k : Bytes) (op : KvOp) (m : Map) (hI : I m)
    (hI' : kvError cfg k op = none → I (m.upd (userKey k) (kvAnswer (m (userKey k)) op).2)) :
    wp cfg I (op.prog k) m (fun m' r => match kvError cfg k op with
      | some e => r = .err e ∧ m' = m
      | none => r = .ok (kvAnswer (m (userKey k)) op).1 ∧ m' = m.upd (userKey k) (kvAnswer (m (userKey k)) op).2) := by
  cases op with
  | get =>
    apply wp_tag
    refine wp_getRaw.2 ⟨hI, hI, rfl, ?_⟩
    exact (m.upd_self _).symm
  | contains =>
    apply wp_tag
    unfold kvContains
    rw [wp_bind, wp_getRaw]
    refine ⟨hI, hI, hI, rfl, ?_⟩
    exact (m.upd_self _).symm
  | remove =>
    apply wp_tag
    exact wp_removeRaw.2 ⟨hI, hI' rfl, hI' rfl, rfl, rfl⟩
  | set v =>
    refine wp_kvMod (f := Resp.setStatus) (p := setRaw (userKey k) v) rfl hI hI' ?_
    intro Q hQ
    rw [wp_setRaw]
    refine ⟨hI, ?_⟩
    cases hs : sizeErr cfg (userKey k) v with
    | some e => rw [hs] at hQ; exact hQ
    | none =>
      rw [hs] at hQ
      refine ⟨hQ.1, hQ.2 _ ?_⟩
      cases m (userKey k) <;> rfl
  | replace v e =>
    refine wp_kvMod (f := Resp.replaceStatus) (p := replaceRaw (userKey k) v e) rfl hI hI' ?_
    intro Q hQ
    rw [wp_replaceRaw]
    refine ⟨hI, ?_⟩
    cases hs : sizeErr cfg (userKey k) v with
    | some e => rw [hs] at hQ; exact hQ
    | none =>
      rw [hs] at hQ
      obtain ⟨h1, h2⟩ := replaceOf_answer (m (userKey k)) v e
      dsimp only
      rw [h1]
      exact ⟨hQ.1, hQ.2 _ h2⟩
  | getOrCreate v =>
    refine wp_kvMod (f := Resp.gocStatus) (p := gocRaw (userKey k) v) rfl hI hI' ?_
    intro Q hQ
    rw [wp_gocRaw]
    refine ⟨hI, ?_⟩
    cases hs : sizeErr cfg (userKey k) v with
    | some e => rw [hs] at hQ; exact hQ
    | none =>
      rw [hs] at hQ
      dsimp only
      rw [upd_getD]
      refine ⟨hQ.1, hQ.2 _ ?_⟩
      cases m (userKey k) <;> rfl

theorem wp_kvOp (cfg : Cfg) (k : Bytes) (op : KvOp) (m : Map) :
    wp cfg noInv (op.prog k) m (fun m' r => match kvError cfg k op with
      | some e => r = .err e ∧ m' = m
      | none => r = .ok (kvAnswer (m (userKey k)) op).1 ∧ m' = m.upd (userKey k) (kvAnswer (m (userKey k)) op).2) :=
  wp_kvOp' cfg noInv k op m trivial (fun _ => trivial)

theorem typedError_eq {cfg tk v op} (hop : KvOp.value? op = some v) : typedError cfg tk op = sizeErr cfg (typedKey tk) v := by
  unfold typedError
  rw [hop, sizeErr_eq, typedKey_eq]
  simp

theorem wp_typedOp' (cfg : Cfg) (I : Map → Prop) (tk : Bytes) (op : KvOp) (m : Map) (hI : I m)
    (hI' : typedError cfg tk op = none → I (m.upd (typedKey tk) (kvAnswer (m (typedKey tk)) op).2)) :
    wp cfg I (op.typedProg tk) m (fun m' r => match typedError cfg tk op with
      | some e => r = .err e ∧ m' = m
      | none => r = .ok (kvAnswer (m (typedKey tk)) op).1 ∧ m' = m.upd (typedKey tk) (kvAnswer (m (typedKey tk)) op).2) := by
  cases op with
  | get =>
    apply wp_tag
    refine wp_getRaw.2 ⟨hI, hI, rfl, ?_⟩
    exact (m.upd_self _).symm
  | contains =>
    apply wp_tag
    refine wp_getRaw.2 ⟨hI, hI, rfl, ?_⟩
    exact (m.upd_self _).symm
  | remove =>
    apply wp_tag
    exact wp_removeRaw.2 ⟨hI, hI' rfl, hI' rfl, rfl, rfl⟩
  | set v =>
    apply wp_tag
    rw [typedError_eq (op := .set v) rfl] at hI'
    rw [wp_setRaw, typedError_eq (op := .set v) rfl]
    refine ⟨hI, ?_⟩
    cases hs : sizeErr cfg (typedKey tk) v with
    | some e => exact ⟨rfl, rfl⟩
    | none =>
      refine ⟨hI' hs, hI' hs, ?_, rfl⟩
      cases m (typedKey tk) <;> rfl
  | replace v e =>
    apply wp_tag
    rw [typedError_eq (op := .replace v e) rfl] at hI'
    rw [wp_replaceRaw, typedError_eq (op := .replace v e) rfl]
    refine ⟨hI, ?_⟩
    cases hs : sizeErr cfg (typedKey tk) v with
    | some e => exact ⟨rfl, rfl⟩
    | none =>
      obtain ⟨h1, h2⟩ := replaceOf_answer (m (typedKey tk)) v e
      dsimp only
      rw [h1, h2]
      exact ⟨hI' hs, hI' hs, rfl, rfl⟩
  | getOrCreate v =>
    apply wp_tag
    rw [typedError_eq (op := .getOrCreate v) rfl] at hI'
    rw [wp_gocRaw, typedError_eq (op := .getOrCreate v) rfl]
    refine ⟨hI, ?_⟩
    cases hs : sizeErr cfg (typedKey tk) v with
    | some e => exact ⟨rfl, rfl⟩
    | none =>
      dsimp only
      rw [upd_getD]
      refine ⟨hI' hs, hI' hs, ?_, rfl⟩
      cases m (typedKey tk) <;> rfl

theorem wp_typedOp (cfg : Cfg) (tk : Bytes) (op : KvOp) (m : Map) :
    wp cfg noInv (op.typedProg tk) m (fun m' r => match typedError cfg tk op with
      | some e => r = .err e ∧ m' = m
      | none => r = .ok (kvAnswer (m (typedKey tk)) op).1 ∧ m' = m.upd (typedKey tk) (kvAnswer (m (typedKey tk)) op).2) :=
  wp_typedOp' cfg noInv tk op m trivial (fun _ => trivial)

end Candy
