import Verif.Proofs.QueueMore
import Verif.Spec.World
/-!
# The raw map represents the ideal store
-/
namespace Candy
open Spec

/-- The raw map represents list `lk` as `s`. -/
def ListAbs (cfg : Cfg) (m : Map) (lk : Bytes) (s : LState) : Prop :=
  ∃ μ L, LRep cfg m lk μ L ∧ vis L = s.items ∧ (s.clean = true → Exact μ L) ∧ Used μ s.used

/-- Bound on the indices used by a queue. -/
def QUsed (q : Deque) (n u : Nat) : Prop :=
  ∀ h t, q.range = some (h, t) → FIRST ≤ h + u ∧ t ≤ FIRST + u ∧ n ≤ u

/-- The raw map represents queue `qk` as `s`. -/
def QueueAbs (cfg : Cfg) (m : Map) (qk : Bytes) (s : QState) : Prop :=
  ∃ n, QRep cfg m qk s.dq n ∧ (s.clean = true → (s.dq.range ≠ none → n = s.dq.elems.length) ∧ GF m qk s.dq) ∧ QUsed s.dq n s.used

/-- The raw map represents the ideal store `w`. -/
structure MAbs (cfg : Cfg) (m : Map) (w : World) : Prop where
  kv : ∀ k, m (userKey k) = w.kv k
  typed : ∀ k, m (typedKey k) = w.typed k
  lists : ∀ lk s, w.lists lk = some s → ListAbs cfg m lk s
  queues : ∀ qk s, w.queues qk = some s → QueueAbs cfg m qk s

/-! ## Frames -/

theorem LRep.congr {cfg m lk μ L} (h : LRep cfg m lk μ L) {m' : Map} (hc : ∀ k, LFoot cfg lk k → m' k = m k) : LRep cfg m' lk μ L :=
  ⟨h.items.congr (fun _ => hc _ (LFoot.item _ _ _)) (fun _ => hc _ (LFoot.chain _ _ _)), by rw [hc _ (LFoot.list _ _)]; exact h.record,
    h.nil, h.tail_lt, h.cnt, h.span, h.bnd, h.fit⟩

theorem ListAbs.congr {cfg m lk s} (h : ListAbs cfg m lk s) {m' : Map} (hc : ∀ k, LFoot cfg lk k → m' k = m k) : ListAbs cfg m' lk s := by
  obtain ⟨μ, L, h1, h2⟩ := h
  exact ⟨μ, L, h1.congr hc, h2⟩

theorem QRep.congr {cfg m qk q n} (h : QRep cfg m qk q n) {m' : Map} (hc : ∀ k, QFoot qk k → m' k = m k) : QRep cfg m' qk q n :=
  ⟨h.wf, by rw [hc _ (QFoot.queue _)]; exact h.record, h.tail_lt, h.cnt,
    fun a b hr i h1 h2 => by rw [hc _ (QFoot.item _ _)]; exact h.item a b hr i h1 h2, h.fit⟩

theorem QueueAbs.congr {cfg m qk s} (h : QueueAbs cfg m qk s) {m' : Map} (hc : ∀ k, QFoot qk k → m' k = m k) : QueueAbs cfg m' qk s := by
  obtain ⟨n, h1, h2, h3⟩ := h
  exact ⟨n, h1.congr hc, fun c => ⟨(h2 c).1, fun i hi => by rw [hc _ (QFoot.item _ _)]; exact (h2 c).2 i hi⟩, h3⟩

theorem typedKey_eq (k : Bytes) : typedKey k = k ++ [2] := rfl
theorem typedKey_inj {a b : Bytes} (h : typedKey a = typedKey b) : a = b := (append_single_inj h).1

/-- The last byte of a key. -/
theorem ne_of_ns {a b : Bytes} {x y : UInt8} (h : x ≠ y) : a ++ [x] ≠ b ++ [y] := fun e => h (append_single_inj e).2

theorem user_notL {cfg lk k} : ¬ LFoot cfg lk (userKey k) := by
  rintro (h | ⟨ik, h⟩ | ⟨i, h⟩)
  · exact ne_of_ns (by decide) h
  · rw [itemKey_eq] at h; exact ne_of_ns (by decide) h
  · rw [chainKey_eq] at h; exact ne_of_ns (by decide) h

theorem typed_notL {cfg lk k} : ¬ LFoot cfg lk (typedKey k) := by
  rintro (h | ⟨ik, h⟩ | ⟨i, h⟩)
  · exact ne_of_ns (by decide) h
  · rw [itemKey_eq] at h; exact ne_of_ns (by decide) h
  · rw [chainKey_eq] at h; exact ne_of_ns (by decide) h

theorem user_notQ {qk k} : ¬ QFoot qk (userKey k) := by
  rintro (h | ⟨i, h⟩)
  · exact ne_of_ns (by decide) h
  · exact ne_of_ns (by decide) h

theorem typed_notQ {qk k} : ¬ QFoot qk (typedKey k) := by
  rintro (h | ⟨i, h⟩)
  · exact ne_of_ns (by decide) h
  · exact ne_of_ns (by decide) h

theorem foot_LQ {cfg lk qk k} (h1 : LFoot cfg lk k) (h2 : QFoot qk k) : False := by
  rcases h1 with h1 | ⟨ik, h1⟩ | ⟨i, h1⟩ <;> rcases h2 with h2 | ⟨j, h2⟩ <;> rw [h1] at h2 <;>
    first
    | exact ne_of_ns (by decide) h2
    | (rw [itemKey_eq] at h2; exact ne_of_ns (by decide) h2)
    | (rw [chainKey_eq] at h2; exact ne_of_ns (by decide) h2)

theorem foot_LL {cfg a b k} (h1 : LFoot cfg a k) (h2 : LFoot cfg b k) (hne : a ≠ b) (hph : cfg.listPh a ≠ cfg.listPh b) : False := by
  rcases h1 with h1 | ⟨ik, h1⟩ | ⟨i, h1⟩ <;> rcases h2 with h2 | ⟨j, h2⟩ | ⟨j, h2⟩ <;> rw [h1] at h2
  · exact hne (listKey_inj h2)
  · exact listKey_ne_item _ _ _ h2
  · exact listKey_ne_chain _ _ _ h2
  · exact listKey_ne_item _ _ _ h2.symm
  · exact hph (itemKey_inj h2).1
  · exact itemKey_ne_chain _ _ _ _ h2
  · exact listKey_ne_chain _ _ _ h2.symm
  · exact itemKey_ne_chain _ _ _ _ h2.symm
  · rw [chainKey_eq, chainKey_eq] at h2
    have h3 := (append_single_inj h2).1
    exact hph (enc64_ph_inj (List.append_inj h3 (by simp)).1)

theorem foot_QQ {a b k} (h1 : QFoot a k) (h2 : QFoot b k) (hne : a ≠ b) : False := by
  rcases h1 with h1 | ⟨i, h1⟩ <;> rcases h2 with h2 | ⟨j, h2⟩ <;> rw [h1] at h2
  · exact hne (queueKey_inj h2)
  · exact queueKey_ne_qitem _ _ _ h2
  · exact queueKey_ne_qitem _ _ _ h2.symm
  · rw [qitemKey_eq, qitemKey_eq] at h2
    have h3 := (append_single_inj h2).1
    exact hne (List.append_inj' h3 (by simp)).1

/-- A call that changed only one key-value pair. -/
theorem MAbs.setKv {cfg m w} (h : MAbs cfg m w) (k : Bytes) (x : Option Bytes) :
    MAbs cfg (m.upd (userKey k) x) { w with kv := w.kv.upd k x } := by
  refine ⟨?_, ?_, ?_, ?_⟩
  · intro k'
    by_cases e : k' = k
    · subst e; simp
    · rw [Map.upd_other _ _ (fun h => e (userKey_inj h))]; dsimp only; rw [Map.upd_other _ _ e]; exact h.kv k'
  · intro k'
    rw [Map.upd_other _ _ (by rw [typedKey_eq, userKey_eq]; exact ne_of_ns (by decide))]; exact h.typed k'
  · intro lk s hs
    exact (h.lists lk s hs).congr (fun k' hk' => Map.upd_other _ _ (by rintro rfl; exact user_notL hk'))
  · intro qk s hs
    exact (h.queues qk s hs).congr (fun k' hk' => Map.upd_other _ _ (by rintro rfl; exact user_notQ hk'))

theorem MAbs.setTyped {cfg m w} (h : MAbs cfg m w) (k : Bytes) (x : Option Bytes) :
    MAbs cfg (m.upd (typedKey k) x) { w with typed := w.typed.upd k x } := by
  refine ⟨?_, ?_, ?_, ?_⟩
  · intro k'
    rw [Map.upd_other _ _ (by rw [typedKey_eq, userKey_eq]; exact ne_of_ns (by decide))]; exact h.kv k'
  · intro k'
    by_cases e : k' = k
    · subst e; simp
    · rw [Map.upd_other _ _ (fun h => e (typedKey_inj h))]; dsimp only; rw [Map.upd_other _ _ e]; exact h.typed k'
  · intro lk s hs
    exact (h.lists lk s hs).congr (fun k' hk' => Map.upd_other _ _ (by rintro rfl; exact typed_notL hk'))
  · intro qk s hs
    exact (h.queues qk s hs).congr (fun k' hk' => Map.upd_other _ _ (by rintro rfl; exact typed_notQ hk'))

/-- A call that changed only one list. -/
theorem MAbs.setList {cfg m w m'} (h : MAbs cfg m w) {lk : Bytes} {x : Option LState}
    (hs : SameOutside (LFoot cfg lk) m m') (hl : ∀ s, x = some s → ListAbs cfg m' lk s) :
    MAbs cfg m' { w with lists := useList cfg w.lists lk x } := by
  refine ⟨?_, ?_, ?_, ?_⟩
  · intro k; rw [hs _ user_notL]; exact h.kv k
  · intro k; rw [hs _ typed_notL]; exact h.typed k
  · intro lk' s e'
    simp only [useList] at e'
    split at e'
    · rename_i e; subst e; exact hl s e'
    · rename_i e
      split at e'
      · simp at e'
      · rename_i eh
        exact (h.lists lk' s e').congr (fun k hk => hs k (fun hk' => foot_LL hk hk' e eh))
  · intro qk s e'
    exact (h.queues qk s e').congr (fun k hk => hs k (fun hk' => foot_LQ hk' hk))

/-- A call that changed only one queue. -/
theorem MAbs.setQueue {cfg m w m'} (h : MAbs cfg m w) {qk : Bytes} {x : Option QState}
    (hs : SameOutside (QFoot qk) m m') (hl : ∀ s, x = some s → QueueAbs cfg m' qk s) :
    MAbs cfg m' { w with queues := setAt w.queues qk x } := by
  refine ⟨?_, ?_, ?_, ?_⟩
  · intro k; rw [hs _ user_notQ]; exact h.kv k
  · intro k; rw [hs _ typed_notQ]; exact h.typed k
  · intro lk s e'
    exact (h.lists lk s e').congr (fun k hk => hs k (fun hk' => foot_LQ hk hk'))
  · intro qk' s e'
    simp only [setAt] at e'
    split at e'
    · rename_i e; subst e; exact hl s e'
    · rename_i e
      exact (h.queues qk' s e').congr (fun k hk => hs k (fun hk' => foot_QQ hk hk' e))

/-- The empty map represents the new store. -/
theorem MAbs.new (cfg) : MAbs cfg Map.empty World.new := by
  refine ⟨fun _ => rfl, fun _ => rfl, fun lk s hs => ?_, fun qk s hs => ?_⟩
  · simp only [World.new, Option.some.injEq] at hs
    subst hs
    refine ⟨none, [], ⟨⟨List.Pairwise.nil, by simp, by simp, by simp, by simp [Map.empty], by simp [Map.empty], by simp, by simp⟩, rfl,
      fun _ => rfl, by simp, by simp, by simp, by simp, by simp⟩, rfl, fun _ _ e => by simp at e, fun _ e => by simp at e⟩
  · simp only [World.new, Option.some.injEq] at hs
    subst hs
    exact ⟨0, QRep.gone rfl 0, fun _ => ⟨fun h => absurd rfl h, fun i _ => rfl⟩, fun _ _ e => by simp [QState.new, Deque.empty] at e⟩

/-! ## Postconditions of calls -/

theorem wp_tag {cfg I} {α : Type} {f : α → Resp} {p : Prog α} {m Q} (h : wp cfg I p m (fun m' r => match r with
      | .ok a => I m' ∧ Q m' (.ok (f a))
      | .err e => Q m' (.err e)
      | .panic => Q m' .panic
      | .exhausted => Q m' .exhausted)) : wp cfg I (p.tag f) m Q := by
  refine wp_bind'.2 (h.conseq ?_)
  intro m' r hr
  cases r <;> exact hr

end Candy
