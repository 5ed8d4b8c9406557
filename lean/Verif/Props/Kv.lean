import Verif.Proofs.Demo
/-!
# C01 - C06, C17: the key-value API
-/
namespace Candy.Props
open Candy.Spec

/-! ## Consequences of the refinement for one key-value call -/

theorem kv_call {cfg es t t' k op r} (h : Reachable cfg es t) (hc : Calls cfg t (.kv k op) r t') :
    match kvError cfg k op with
    | some e => r = .err e ∧ t'.get cfg = t.get cfg
    | none => r = .ok (kvAnswer (t.userGet cfg k) op).1 ∧ t'.get cfg = Map.upd (t.get cfg) (userKey k) (kvAnswer (t.userGet cfg k) op).2 := by
  obtain ⟨w, _, hs, _⟩ := h.world
  obtain ⟨p, h1, h2⟩ := hc
  exact (wp_kvOp cfg k op _).sound (h1.sim hs.ok).2 h2

theorem kv_ok {cfg es t t' k op r} (h : Reachable cfg es t) (hc : Calls cfg t (.kv k op) r t') (he : kvError cfg k op = none) :
    r = .ok (kvAnswer (t.userGet cfg k) op).1 ∧ t'.userGet cfg k = (kvAnswer (t.userGet cfg k) op).2 ∧
      ∀ k', k' ≠ k → t'.userGet cfg k' = t.userGet cfg k' := by
  have := kv_call h hc
  rw [he] at this
  refine ⟨this.1, ?_, fun k' hk' => ?_⟩
  · have e := congrFun this.2 (userKey k)
    rw [Map.upd_same] at e; exact e
  · have e := congrFun this.2 (userKey k')
    rw [Map.upd_other _ _ (fun x => hk' (userKey_inj x))] at e
    exact e

/-- Key and value are within the limits: at most 16128 and 65280 bytes, together (with the name space byte) at most a shard. -/
def Fits (cfg : Cfg) (k v : Bytes) : Prop := k.length ≤ 16128 ∧ v.length ≤ 65280 ∧ k.length + 1 + v.length ≤ cfg.maxShardSize.toNat

theorem kvError_fits {cfg k v op} (hv : KvOp.value? op = some v) (h : Fits cfg k v) : kvError cfg k op = none := by
  unfold kvError
  rw [hv]
  obtain ⟨h1, h2, h3⟩ := h
  dsimp only
  rw [if_neg (by omega), if_neg (by omega), if_neg (by omega)]

/-! ## C01 -/

/-- The answers to the key-value calls of a history are those of an ideal map that starts as `m`: `Spec.kvError` says which calls must fail
(too long), `Spec.kvAnswer` what a call on a key with the given value answers and what the key's value becomes. Calls of other
APIs, `merge_small_shards`, closing and reopening have no effect on the map, `clear` empties it; a call in which the process died has
happened or not, and everything else is as it was before the crash. -/
def LikeIdealMap (cfg : Cfg) : Map → List Event → Prop
  | _, [] => True
  | m, .call (.kv k op) r :: es =>
    match kvError cfg k op with
    | some e => r = .err e ∧ LikeIdealMap cfg m es
    | none => r = .ok (kvAnswer (m k) op).1 ∧ LikeIdealMap cfg (m.upd k (kvAnswer (m k) op).2) es
  | m, .call _ _ :: es => LikeIdealMap cfg m es
  | m, .merge _ :: es => LikeIdealMap cfg m es
  | _, .clear :: es => LikeIdealMap cfg Map.empty es
  | m, .reopen :: es => LikeIdealMap cfg m es
  | m, .crash (some (.kv k op)) :: es =>
    LikeIdealMap cfg m es ∨ (kvError cfg k op = none ∧ LikeIdealMap cfg (m.upd k (kvAnswer (m k) op).2) es)
  | m, .crash _ :: es => LikeIdealMap cfg m es

theorem specRun_likeIdealMap {cfg w es w'} (h : SpecRun cfg w es w') : LikeIdealMap cfg w.kv es := by
  induction h with
  | nil => trivial
  | @call w w1 w2 c r es h _ ih =>
    cases c with
    | kv k op =>
      obtain ⟨m', h1, rfl⟩ := h
      unfold LikeIdealMap
      unfold kvStep at h1
      cases he : kvError cfg k op with
      | some e => rw [he] at h1; exact ⟨h1.1, h1.2 ▸ ih⟩
      | none => rw [he] at h1; exact ⟨h1.1, h1.2 ▸ ih⟩
    | typed k op => obtain ⟨m', _, rfl⟩ := h; exact ih
    | list k op => obtain ⟨m', _, rfl⟩ := h; exact ih
    | queue k op => obtain ⟨m', _, rfl⟩ := h; exact ih
  | merge _ ih => exact ih
  | clear _ ih => exact ih
  | reopen _ ih => exact ih
  | @crash w w1 w2 c es h _ ih =>
    cases c with
    | none => cases h; exact ih
    | some c =>
      cases c with
      | kv k op =>
        obtain ⟨m', h1, rfl⟩ := h
        rcases h1 with rfl | ⟨e, rfl⟩
        · exact Or.inl ih
        · exact Or.inr ⟨e, ih⟩
      | typed k op => obtain ⟨m', _, rfl⟩ := h; exact ih
      | list k op => obtain ⟨m', _, rfl⟩ := h; exact ih
      | queue k op => obtain ⟨m', _, rfl⟩ := h; exact ih

/-- **C01.** For every configuration (including every hash function) and every history since the creation of a store - key-value calls
interleaved with calls of the other APIs, background compaction at any moment, splits, merges, clears, reopenings and crashes of the
process - the answers of the key-value
calls are those of an ideal map. -/
theorem C01_store_is_a_map {cfg : Cfg} {es : List Event} {t : Tree} (h : Reachable cfg es t) : LikeIdealMap cfg Map.empty es := by
  obtain ⟨w, h1, _⟩ := h.world
  exact specRun_likeIdealMap h1

/-- C01 without any condition on the size of the files, for stores given less than 4 GiB in total. -/
theorem C01_budget {cfg : Cfg} {es : List Event} {t0 t : Tree} {n : Nat} (h0 : Tree.create cfg = some t0) (h : RunB cfg 0 t0 es n t)
    (hn : n < 4294967296) : LikeIdealMap cfg Map.empty es := C01_store_is_a_map (Reachable.of_budget h0 h hn)

/-- A history with a set, a second set of the same key and a get exists, with all keys colliding. -/
example : ∃ t, Reachable demoCfg
    [.call (.kv [97] (.set [98])) (.ok (.setStatus .createdNew)), .call (.kv [97] (.set [99])) (.ok (.setStatus (.prevValue [98]))),
     .call (.kv [97] .get) (.ok (.val (some [99])))] t := by
  obtain ⟨t0, h0⟩ := tiny_new (cfg := demoCfg) (by decide)
  obtain ⟨t1, _, h1⟩ := h0.kv [97] (.set [98]) 3 (by intro v hv; simp [KvOp.value?] at hv; subst hv; decide) (by decide) (by decide) (by decide)
  obtain ⟨t2, _, h2⟩ := h1.kv [97] (.set [99]) 3 (by intro v hv; simp [KvOp.value?] at hv; subst hv; decide) (by decide) (by decide) (by decide)
  obtain ⟨t3, _, h3⟩ := h2.kv [97] .get 3 (by intro v hv; simp [KvOp.value?] at hv) (by decide) (by decide) (by decide)
  refine ⟨t3, ?_⟩
  have := h3.reach
  simp only [Map.upd_same, List.nil_append, List.cons_append] at this
  exact this

/-! ## C02 - C06 -/

/-- **C02.** `set` reports whether the key was new, or its previous value; afterwards the key has the new value (and the other keys are as
before). -/
theorem C02_set {cfg es t t' k v r} (h : Reachable cfg es t) (hc : Calls cfg t (.kv k (.set v)) r t') (hf : Fits cfg k v) :
    (t.userGet cfg k = none → r = .ok (.setStatus .createdNew)) ∧
    (∀ old, t.userGet cfg k = some old → r = .ok (.setStatus (.prevValue old))) ∧
    t'.userGet cfg k = some v ∧ ∀ k', k' ≠ k → t'.userGet cfg k' = t.userGet cfg k' := by
  obtain ⟨h1, h2, h3⟩ := kv_ok h hc (kvError_fits rfl hf)
  exact ⟨fun e => by rw [h1, e]; rfl, fun old e => by rw [h1, e]; rfl, h2, h3⟩

/-- **C03.** `replace` is a compare-and-swap. -/
theorem C03_replace {cfg es t t' k v e r} (h : Reachable cfg es t) (hc : Calls cfg t (.kv k (.replace v e)) r t') (hf : Fits cfg k v) :
    (t.userGet cfg k = none → r = .ok (.replaceStatus .doesNotExist) ∧ t'.userGet cfg k = none) ∧
    (∀ old, t.userGet cfg k = some old → (e = none ∨ e = some old) →
      r = .ok (.replaceStatus (.prevValue old)) ∧ t'.userGet cfg k = some v) ∧
    (∀ old x, t.userGet cfg k = some old → e = some x → x ≠ old →
      r = .ok (.replaceStatus (.wrongValue old)) ∧ t'.userGet cfg k = some old) ∧
    ∀ k', k' ≠ k → t'.userGet cfg k' = t.userGet cfg k' := by
  obtain ⟨h1, h2, h3⟩ := kv_ok h hc (kvError_fits rfl hf)
  refine ⟨fun e => ?_, fun old e1 e2 => ?_, fun old x e1 e2 e3 => ?_, h3⟩
  · rw [h1, h2, e]; exact ⟨rfl, rfl⟩
  · rw [h1, h2, e1]; simp only [kvAnswer, if_pos e2, and_self]
  · subst e2
    rw [h1, h2, e1]
    simp only [kvAnswer, Option.some.injEq, e3, or_false, reduceCtorEq, if_false, and_self]

/-- **C04.** `get_or_create` never overwrites. -/
theorem C04_get_or_create {cfg es t t' k v r} (h : Reachable cfg es t) (hc : Calls cfg t (.kv k (.getOrCreate v)) r t') (hf : Fits cfg k v) :
    (∀ old, t.userGet cfg k = some old → r = .ok (.gocStatus (.existingValue old)) ∧ t'.userGet cfg k = some old) ∧
    (t.userGet cfg k = none → r = .ok (.gocStatus (.createdNew v)) ∧ t'.userGet cfg k = some v) ∧
    ∀ k', k' ≠ k → t'.userGet cfg k' = t.userGet cfg k' := by
  obtain ⟨h1, h2, h3⟩ := kv_ok h hc (kvError_fits rfl hf)
  refine ⟨fun old e => ?_, fun e => ?_, h3⟩
  · rw [h1, h2, e]; exact ⟨rfl, rfl⟩
  · rw [h1, h2, e]; exact ⟨rfl, rfl⟩

/-- **C05.** `remove` returns the value the key had, and removes exactly that key. -/
theorem C05_remove {cfg es t t' k r} (h : Reachable cfg es t) (hc : Calls cfg t (.kv k .remove) r t') :
    r = .ok (.val (t.userGet cfg k)) ∧ t'.userGet cfg k = none ∧ ∀ k', k' ≠ k → t'.userGet cfg k' = t.userGet cfg k' := kv_ok h hc rfl

/-- What `get` and `contains` answer. -/
theorem C01_get {cfg es t t' k r} (h : Reachable cfg es t) (hc : Calls cfg t (.kv k .get) r t') :
    r = .ok (.val (t.userGet cfg k)) ∧ ∀ k', t'.userGet cfg k' = t.userGet cfg k' := by
  obtain ⟨h1, h2, h3⟩ := kv_ok h hc rfl
  exact ⟨h1, fun k' => if e : k' = k then by rw [e, h2]; rfl else h3 k' e⟩

theorem C01_contains {cfg es t t' k r} (h : Reachable cfg es t) (hc : Calls cfg t (.kv k .contains) r t') :
    r = .ok (.flag (t.userGet cfg k).isSome) ∧ ∀ k', t'.userGet cfg k' = t.userGet cfg k' := by
  obtain ⟨h1, h2, h3⟩ := kv_ok h hc rfl
  exact ⟨h1, fun k' => if e : k' = k then by rw [e, h2]; rfl else h3 k' e⟩

/-- **C06.** No key-value call (successful or not) on one key changes what another key returns - whatever the hashes of the two
keys: `cfg.hash` is any function. -/
theorem C06_collisions {cfg es t t' k op r} (h : Reachable cfg es t) (hc : Calls cfg t (.kv k op) r t') (k' : Bytes) (hk : k' ≠ k) :
    t'.userGet cfg k' = t.userGet cfg k' := by
  have := kv_call h hc
  cases he : kvError cfg k op with
  | some e => rw [he] at this; exact congrFun this.2 _
  | none => exact (kv_ok h hc he).2.2 k' hk

/-- Two keys with the same 64-bit hash, both in the store, one being replaced, the other removed. -/
example : ∃ es t t' t'' r, Reachable demoCfg es t ∧ demoCfg.ph (userKey [97]) = demoCfg.ph (userKey [99]) ∧
    t.userGet demoCfg [97] = some [98] ∧ t.userGet demoCfg [99] = some [100] ∧ Calls demoCfg t (.kv [97] (.set [101])) r t' ∧
    Calls demoCfg t' (.kv [97] .remove) (.ok (.val (some [101]))) t'' ∧ t''.userGet demoCfg [99] = some [100] := by
  obtain ⟨es, t0, _, _, m, h0, rfl⟩ := demo_ab
  obtain ⟨t1, _, h1⟩ := h0.kv [99] (.set [100]) 3 (by intro v hv; simp [KvOp.value?] at hv; subst hv; decide) (by decide) (by decide) (by decide)
  obtain ⟨t2, c2, h2⟩ := h1.kv [97] (.set [101]) 3 (by intro v hv; simp [KvOp.value?] at hv; subst hv; decide) (by decide) (by decide) (by decide)
  obtain ⟨t3, c3, h3⟩ := h2.kv [97] .remove 3 (by intro v hv; simp [KvOp.value?] at hv) (by decide) (by decide) (by decide)
  have ne : userKey [99] ≠ userKey [97] := by decide
  refine ⟨_, t1, t2, t3, _, h1.reach, ?_, ?_, ?_, c2, ?_, ?_⟩
  · unfold Cfg.ph; rfl
  · unfold Tree.userGet; rw [h1.get, Map.upd_other _ _ ne.symm, Map.upd_same]
  · unfold Tree.userGet; rw [h1.get, Map.upd_same]; rfl
  · rw [Map.upd_same] at c3; exact c3
  · unfold Tree.userGet; rw [h3.get, Map.upd_other _ _ ne, Map.upd_other _ _ ne, Map.upd_same]; rfl

/-! ## C17 -/

/-- **C17.** The limits are exact: the three errors happen exactly when the key is longer than 16128 bytes; else the value is longer than
65280 bytes; else the pair does not fit into a shard. A failing call changes nothing stored (by any API). -/
theorem C17_limits {cfg es t t' k v op r} (h : Reachable cfg es t) (hop : KvOp.value? op = some v) (hc : Calls cfg t (.kv k op) r t') :
    (r = .err .keyTooLong ↔ 16128 < k.length) ∧
    (r = .err .valueTooLong ↔ k.length ≤ 16128 ∧ 65280 < v.length) ∧
    (r = .err .cannotFit ↔ k.length ≤ 16128 ∧ v.length ≤ 65280 ∧ cfg.maxShardSize.toNat < k.length + 1 + v.length) ∧
    ((∃ e, r = .err e) → ∀ x, t'.get cfg x = t.get cfg x) := by
  have key := kv_call h hc
  unfold kvError at key
  rw [hop] at key
  dsimp only at key
  split at key
  · rename_i e
    split at e
    · simp only [Option.some.injEq] at e; subst e
      obtain ⟨rfl, e2⟩ := key
      refine ⟨by simp; omega, by simp; omega, by simp; omega, fun _ x => congrFun e2 x⟩
    · split at e
      · simp only [Option.some.injEq] at e; subst e
        obtain ⟨rfl, e2⟩ := key
        refine ⟨by simp; omega, by simp; omega, by simp; omega, fun _ x => congrFun e2 x⟩
      · split at e
        · simp only [Option.some.injEq] at e; subst e
          obtain ⟨rfl, e2⟩ := key
          refine ⟨by simp; omega, by simp; omega, by simp; omega, fun _ x => congrFun e2 x⟩
        · simp at e
  · rename_i e
    obtain ⟨rfl, _⟩ := key
    split at e
    · simp at e
    · split at e
      · simp at e
      · split at e
        · simp at e
        · exact ⟨by simp; omega, by simp; omega, by simp; omega, by simp⟩

/-- A call with an oversized value, in a store holding `a = b`. -/
example : ∃ es t t', Reachable demoCfg es t ∧ t.userGet demoCfg [97] = some [98] ∧
    Calls demoCfg t (.kv [97] (.set (List.replicate 65281 0))) (.err .valueTooLong) t' := by
  obtain ⟨es, t0, h1, h2, m, h0, rfl⟩ := demo_ab
  have e : ∀ v : Bytes, 65280 < v.length → (Call.kv [97] (.set v)).prog demoCfg = .err .valueTooLong := by
    intro v hv
    show (Prog.bind (Prog.bind (ensureSizes [97] v) _) _) = _
    unfold ensureSizes MAX_VALUE_SIZE
    rw [if_neg (by decide), if_pos hv]
    rfl
  refine ⟨es, t0, t0, h1, h2, .err .valueTooLong, ?_, rfl⟩
  rw [e _ (by rw [List.length_replicate]; omega)]
  exact .refl _ _

end Candy.Props
