import Verif.Proofs.Once
import Verif.Spec.Conc
import Verif.Proofs.History
import Verif.Proofs.CrashCall
import Verif.Proofs.ListCrash
/-!
# Atomic calls are linearizable

First for threads that work on an abstract map (`AState`), one raw operation at a time. The concrete executions (`ConcRun` here,
`FineRun` in `Verif.Proofs.FineSim`) are mapped to these.
-/
namespace Candy
open Spec

theorem setN_same {β : Type} (f : Nat → β) (i : Nat) (x : β) : setN f i x i = x := by simp [setN]
theorem setN_other {β : Type} (f : Nat → β) {i j : Nat} (x : β) (h : j ≠ i) : setN f i x j = f j := by simp [setN, h]

theorem dropLocks_self (locks : Nat → Option Nat) (i l : Nat) : dropLocks locks i l ≠ some i := by
  unfold dropLocks; split
  · simp
  · assumption

theorem dropLocks_other (locks : Nat → Option Nat) {i j l : Nat} (h : j ≠ i) : dropLocks locks i l = some j ↔ locks l = some j := by
  unfold dropLocks; split
  · rename_i e; rw [e]; simp [Ne.symm h]
  · rfl

/-- Agreement on a set of keys. -/
def AgreeOn (P : Bytes → Prop) (m n : Map) : Prop := ∀ k, P k → m k = n k

theorem ByHash.agree {cfg : Cfg} {m n : Map} {ph : PH} {suf : Bytes} {l : List KV} (h : ByHash cfg m ph suf l)
    (ha : ∀ k, endsWith k suf = true → n k = m k) : ByHash cfg n ph suf l :=
  ⟨h.suffix, fun hs kv hkv => by rw [ha _ (h.suffix kv hkv)]; exact h.sound hs kv hkv,
    fun hs k v hm hp he => h.complete hs k v (by rw [← ha k he]; exact hm) hp he, h.sigs, h.distinct⟩

/-- A step inside the critical section depends only on the keys of the section. -/
theorem Prog.InSec.frame {cfg : Cfg} {P : Bytes → Prop} {α : Type} {p p' : Prog α} {m m' n : Map} (hp : p.InSec P) (hl : p.onLock = false)
    (h : AStep cfg m p m' p') (ha : AgreeOn P n m) :
    p'.InSec P ∧ SameOutside P m m' ∧ ∃ n', AStep cfg n p n' p' ∧ AgreeOn P n' m' ∧ SameOutside P n n' := by
  cases h with
  | get k c => exact ⟨hp.2 _, .refl _ _, n, by rw [← ha k hp.1]; exact .get _ _ _, ha, .refl _ _⟩
  | insErr k v mode c e hs => exact ⟨trivial, .refl _ _, n, .insErr _ _ _ _ _ _ hs, ha, .refl _ _⟩
  | ins k v mode c hs =>
    refine ⟨hp.2 _, (SameOutside.refl _ _).upd hp.1, n.upd k (insertAt (n k) v mode).1, ?_, ?_, (SameOutside.refl _ _).upd hp.1⟩
    · rw [← ha k hp.1]; exact .ins _ _ _ _ _ hs
    · intro k' hk'
      rw [← ha k hp.1]
      by_cases e : k' = k
      · subst e; rw [Map.upd_same, Map.upd_same]
      · rw [Map.upd_other _ _ e, Map.upd_other _ _ e]; exact ha k' hk'
  | rem k c =>
    refine ⟨hp.2 _, (SameOutside.refl _ _).upd hp.1, n.upd k none, ?_, ?_, (SameOutside.refl _ _).upd hp.1⟩
    · rw [← ha k hp.1]; exact .rem _ _ _
    · intro k' hk'
      by_cases e : k' = k
      · subst e; rw [Map.upd_same, Map.upd_same]
      · rw [Map.upd_other _ _ e, Map.upd_other _ _ e]; exact ha k' hk'
  | byHash ph suf c l hl' =>
    exact ⟨hp.2 l hl'.suffix, .refl _ _, n, .byHash _ _ _ _ _ (hl'.agree (fun k hk => ha k (hp.1 k hk))), ha, .refl _ _⟩
  | lock => simp [Prog.onLock] at hl
  | unlock => simp [Prog.onLock] at hl

/-- The raw operation of a key-value call depends only on its key, and then the result is known. -/
theorem Prog.OneOp.frame {cfg : Cfg} {P : Bytes → Prop} {α : Type} {p p' : Prog α} {m m' n : Map} (hp : p.OneOp P)
    (h : AStep cfg m p m' p') (ha : AgreeOn P n m) :
    (∃ r, p'.result = some r ∧ r ≠ .exhausted) ∧ SameOutside P m m' ∧ ∃ n', AStep cfg n p n' p' ∧ AgreeOn P n' m' ∧ SameOutside P n n' := by
  cases h with
  | get k c => exact ⟨hp.2 _, .refl _ _, n, by rw [← ha k hp.1]; exact .get _ _ _, ha, .refl _ _⟩
  | insErr k v mode c e hs => exact ⟨⟨_, rfl, by simp⟩, .refl _ _, n, .insErr _ _ _ _ _ _ hs, ha, .refl _ _⟩
  | ins k v mode c hs =>
    refine ⟨hp.2 _, (SameOutside.refl _ _).upd hp.1, n.upd k (insertAt (n k) v mode).1, ?_, ?_, (SameOutside.refl _ _).upd hp.1⟩
    · rw [← ha k hp.1]; exact .ins _ _ _ _ _ hs
    · intro k' hk'
      rw [← ha k hp.1]
      by_cases e : k' = k
      · subst e; rw [Map.upd_same, Map.upd_same]
      · rw [Map.upd_other _ _ e, Map.upd_other _ _ e]; exact ha k' hk'
  | rem k c =>
    refine ⟨hp.2 _, (SameOutside.refl _ _).upd hp.1, n.upd k none, ?_, ?_, (SameOutside.refl _ _).upd hp.1⟩
    · rw [← ha k hp.1]; exact .rem _ _ _
    · intro k' hk'
      by_cases e : k' = k
      · subst e; rw [Map.upd_same, Map.upd_same]
      · rw [Map.upd_other _ _ e, Map.upd_other _ _ e]; exact ha k' hk'
  | byHash ph suf c l hl' => exact hp.elim
  | lock => exact hp.elim
  | unlock => exact hp.elim

/-- Calls on different locks work on different keys. -/
theorem foot_disjoint {cfg : Cfg} {c1 c2 : Call} {k : Bytes} (h1 : c1.onKv = false) (h2 : c2.onKv = false)
    (hl : c1.lockOf cfg ≠ c2.lockOf cfg) (hk1 : c1.Foot cfg k) (hk2 : c2.Foot cfg k) : False := by
  cases c1 with
  | kv => simp [Call.onKv] at h1
  | typed => simp [Call.onKv] at h1
  | list a _ => cases c2 with
    | kv => simp [Call.onKv] at h2
    | typed => simp [Call.onKv] at h2
    | list b _ =>
      have hp : cfg.listPh a ≠ cfg.listPh b := fun e => hl (by show cfg.lockIdx _ = cfg.lockIdx _; rw [e])
      exact foot_LL hk1 hk2 (fun e => hp (by rw [e])) hp
    | queue b _ => exact foot_LQ hk1 hk2
  | queue a _ => cases c2 with
    | kv => simp [Call.onKv] at h2
    | typed => simp [Call.onKv] at h2
    | list b _ => exact foot_LQ hk2 hk1
    | queue b _ => exact foot_QQ hk1 hk2 (fun e => hl (by show cfg.queueLock _ = cfg.queueLock _; rw [e]))

/-- Key-value calls work on different keys from lists and queues. -/
theorem foot_kv {cfg : Cfg} {c1 c2 : Call} {k : Bytes} (h1 : c1.onKv = true) (h2 : c2.onKv = false)
    (hk1 : c1.Foot cfg k) (hk2 : c2.Foot cfg k) : False := by
  cases c1 with
  | kv x _ => cases c2 with
    | kv => simp [Call.onKv] at h2
    | typed => simp [Call.onKv] at h2
    | list b _ => cases (show k = userKey x from hk1); exact user_notL hk2
    | queue b _ => cases (show k = userKey x from hk1); exact user_notQ hk2
  | typed x _ => cases c2 with
    | kv => simp [Call.onKv] at h2
    | typed => simp [Call.onKv] at h2
    | list b _ => cases (show k = typedKey x from hk1); exact typed_notL hk2
    | queue b _ => cases (show k = typedKey x from hk1); exact typed_notQ hk2
  | list => simp [Call.onKv] at h1
  | queue => simp [Call.onKv] at h1

/-- What the call has done so far, wherever its own keys are as they were in `M`: its own keys are now as in `m`. -/
def SelfExec (cfg : Cfg) (c : Call) (p : Prog Resp) (M m : Map) : Prop :=
  ∀ n, AgreeOn (c.Foot cfg) n M → ∃ n', AExec cfg n (c.prog cfg) n' p ∧ AgreeOn (c.Foot cfg) n' m ∧ SameOutside (c.Foot cfg) n n'

/-- Either no key of `W` is changed, or this was the last raw operation. -/
theorem Prog.Once.step {cfg : Cfg} {W : Bytes → Prop} {α : Type} {p p' : Prog α} {m m' : Map} (h : p.Once W) (hl : p.onLock = false) (hst : AStep cfg m p m' p') :
    (p'.Once W ∧ ∀ k, W k → m' k = m k) ∨ p'.Ends := by
  cases hst with
  | get k c => exact .inl ⟨h _, fun _ _ => rfl⟩
  | insErr k v mode c e hs => exact .inr (.inr ⟨_, rfl, by simp⟩)
  | ins k v mode c hs =>
    rcases h with h | h
    · exact .inr (h.2 _)
    · exact .inl ⟨h.2 _, fun k' hk' => Map.upd_other _ _ (fun e => h.1 (e ▸ hk'))⟩
  | rem k c =>
    rcases h with h | h
    · exact .inr (h.2 _)
    · exact .inl ⟨h.2 _, fun k' hk' => Map.upd_other _ _ (fun e => h.1 (e ▸ hk'))⟩
  | byHash ph suf c l hl' => exact .inl ⟨h l hl'.suffix, fun _ _ => rfl⟩
  | lock => simp [Prog.onLock] at hl
  | unlock => simp [Prog.onLock] at hl

/-- A thread has called and not done anything; is in its critical section; or its call has taken effect (it may still have to drop the lock). `M` is the map as changed by
the calls that have taken effect. The items of the lists in `K` may be read by threads that do not hold the lock. -/
def TInv (cfg : Cfg) (K : Bytes → Prop) (locks : Nat → Option Nat) (m M : Map) (i : Nat) : Option (Call × Prog Resp) → Phase → Prop
  | none, ph => ph = .out ∧ ∀ l, locks l ≠ some i
  | some (c, p), ph =>
    (p = c.prog cfg ∧ ph = .called c ∧ SFits cfg K c ∧ ∀ l, locks l ≠ some i) ∨
    (ph = .called c ∧ c.onKv = false ∧ (∀ l, locks l = some i ↔ l = c.lockOf cfg) ∧ p.InSec (c.Foot cfg) ∧ (p.Once (ItemOf (HashOf cfg K)) ∨ Compacts cfg K c) ∧ SelfExec cfg c p M m) ∨
    (∃ q r, (p = q ∨ p = .unlock q) ∧ q.result = some r ∧ ph = .effect c r)

/-- The abstract map, the holder of each lock, and the call in progress of each thread. -/
structure AState where
  map : Map
  locks : Nat → Option Nat
  thr : Nat → Option (Call × Prog Resp)

/-- Concurrent executions on the abstract map. -/
inductive AConcRun (cfg : Cfg) : AState → List CEvent → AState → Prop
  | nil (s : AState) : AConcRun cfg s [] s
  | inv {s s' : AState} {tr : List CEvent} (i : Nat) (c : Call) (h : s.thr i = none)
      (rest : AConcRun cfg { s with thr := setN s.thr i (some (c, c.prog cfg)) } tr s') : AConcRun cfg s (.inv i c :: tr) s'
  | raw {s s' : AState} {tr : List CEvent} {i : Nat} {c : Call} {p p' : Prog Resp} {m' : Map} (h : s.thr i = some (c, p))
      (hl : p.onLock = false) (hst : AStep cfg s.map p m' p')
      (rest : AConcRun cfg { s with map := m', thr := setN s.thr i (some (c, p')) } tr s') : AConcRun cfg s tr s'
  | lock {s s' : AState} {tr : List CEvent} {i l : Nat} {c : Call} {p : Prog Resp} (h : s.thr i = some (c, .lock l p))
      (hf : s.locks l = none)
      (rest : AConcRun cfg { s with locks := setN s.locks l (some i), thr := setN s.thr i (some (c, p)) } tr s') : AConcRun cfg s tr s'
  | unlock {s s' : AState} {tr : List CEvent} {i : Nat} {c : Call} {p : Prog Resp} (h : s.thr i = some (c, .unlock p))
      (rest : AConcRun cfg { s with locks := dropLocks s.locks i, thr := setN s.thr i (some (c, p)) } tr s') : AConcRun cfg s tr s'
  | ret {s s' : AState} {tr : List CEvent} {i : Nat} {c : Call} {p : Prog Resp} {r : Res Resp} (h : s.thr i = some (c, p))
      (hr : p.result = some r) (hne : r ≠ .exhausted)
      (rest : AConcRun cfg { s with locks := dropLocks s.locks i, thr := setN s.thr i none } tr s') : AConcRun cfg s (.ret i c r :: tr) s'

/-- Thread `i` is in its critical section and its call has not taken effect. -/
def HoldsLock (cfg : Cfg) (s : AState) (ph : Nat → Phase) (i : Nat) (c : Call) : Prop := ph i = .called c ∧ s.locks (c.lockOf cfg) = some i

structure CInv (cfg : Cfg) (K : Bytes → Prop) (s : AState) (ph : Nat → Phase) (M : Map) (w : World) : Prop where
  abs : MAbs cfg M w
  thr : ∀ i, TInv cfg K s.locks (s.map) M i (s.thr i) (ph i)
  agree : ∀ k, (∀ i c, HoldsLock cfg s ph i c → ¬ c.Foot cfg k) → s.map k = M k
  agreeW : ∀ k, ItemOf (HashOf cfg K) k → (∀ i c, HoldsLock cfg s ph i c → Compacts cfg K c → ¬ c.Foot cfg k) → s.map k = M k

/-- What is known about a thread in its critical section. -/
theorem TInv.sec {cfg K locks m M i ph c} {x : Option (Call × Prog Resp)} (h : TInv cfg K locks m M i x ph) (hp : ph = .called c) (hl : locks (c.lockOf cfg) = some i) :
    ∃ p, x = some (c, p) ∧ c.onKv = false ∧ (∀ l, locks l = some i ↔ l = c.lockOf cfg) ∧ p.InSec (c.Foot cfg) ∧ (p.Once (ItemOf (HashOf cfg K)) ∨ Compacts cfg K c) ∧ SelfExec cfg c p M m := by
  subst hp
  cases x with
  | none => cases h.1
  | some cp =>
    obtain ⟨c', p⟩ := cp
    rcases h with h | h | ⟨q, r, h⟩
    · exact absurd hl (h.2.2.2 _)
    · obtain ⟨h1, h2⟩ := h
      injection h1 with h1
      subst h1
      exact ⟨p, rfl, h2⟩
    · cases h.2.2

theorem HoldsLock.sec {cfg K s ph M w i c} (h : CInv cfg K s ph M w) (hh : HoldsLock cfg s ph i c) : c.onKv = false := by
  obtain ⟨_, _, h1, _⟩ := (h.thr i).sec hh.1 hh.2
  exact h1

theorem SelfExec.congr {cfg c p} {M m M' m' : Map} (h : SelfExec cfg c p M m) (hM : AgreeOn (c.Foot cfg) M' M) (hm : AgreeOn (c.Foot cfg) m m') :
    SelfExec cfg c p M' m' := by
  intro n hn
  obtain ⟨n', h1, h2, h3⟩ := h n (fun k hk => (hn k hk).trans (hM k hk))
  exact ⟨n', h1, fun k hk => (h2 k hk).trans (hm k hk), h3⟩

/-- Another thread is not affected by changes outside its keys. -/
theorem TInv.congr {cfg K locks locks' m m' M M' i ph} {x : Option (Call × Prog Resp)} (h : TInv cfg K locks m M i x ph)
    (hl : ∀ l, locks' l = some i ↔ locks l = some i)
    (hk : ∀ c, ph = .called c → c.onKv = false → locks (c.lockOf cfg) = some i → ∀ k, c.Foot cfg k → m' k = m k ∧ M' k = M k) :
    TInv cfg K locks' m' M' i x ph := by
  cases x with
  | none => exact ⟨h.1, fun l hh => h.2 l ((hl l).1 hh)⟩
  | some cp =>
    obtain ⟨c, p⟩ := cp
    rcases h with h | h | h
    · exact Or.inl ⟨h.1, h.2.1, h.2.2.1, fun l hh => h.2.2.2 l ((hl l).1 hh)⟩
    · have hc := hk c h.1 h.2.1 ((h.2.2.1 _).2 rfl)
      exact Or.inr (Or.inl ⟨h.1, h.2.1, fun l => (hl l).trans (h.2.2.1 l), h.2.2.2.1, h.2.2.2.2.1,
        h.2.2.2.2.2.congr (fun k hk => (hc k hk).2) (fun k hk => (hc k hk).1.symm)⟩)
    · exact Or.inr (Or.inr h)

theorem AExec.snoc {cfg : Cfg} {α : Type} {m m' m'' : Map} {p p' p'' : Prog α} (h : AExec cfg m p m' p') (h' : AStep cfg m' p' m'' p'') :
    AExec cfg m p m'' p'' := h.trans (.step h' (.refl _ _))

theorem result_noAStep {cfg : Cfg} {α : Type} {m m' : Map} {p p' : Prog α} {r} (hr : p.result = some r) (h : AStep cfg m p m' p') : False := by
  cases h <;> simp [Prog.result] at hr

/-- The keys of threads in their critical sections are disjoint. -/
theorem HoldsLock.disjoint {cfg s} {ph : Nat → Phase} {i j : Nat} {c c' : Call} (h : s.locks (c.lockOf cfg) = some i) (h' : HoldsLock cfg s ph j c') (hn : j ≠ i) (hs : c.onKv = false) (hs' : c'.onKv = false)
    {k : Bytes} (hk : c.Foot cfg k) (hk' : c'.Foot cfg k) : False := by
  refine foot_disjoint hs hs' (fun e => hn ?_) hk hk'
  have h2 := h'.2
  rw [← e, h, Option.some.injEq] at h2
  exact h2.symm

/-- The call of a thread in its critical section takes effect. `s0` is the state before its last step, which leads to the program `p`. -/
theorem CInv.commit {cfg K s0 ph M w i c} {m : Map} {p q : Prog Resp} {r : Res Resp} (h : CInv cfg K s0 ph M w) (hph : ph i = .called c)
    (hsec : c.onKv = false) (hlk : ∀ l, s0.locks l = some i ↔ l = c.lockOf cfg) (hout : SameOutside (c.Foot cfg) s0.map m) (hx : SelfExec cfg c p M m)
    (hq : p = q ∨ p = .unlock q) (hr : q.result = some r) (hne : r ≠ .exhausted) {s : AState} (hm : s.map = m) (hl : ∀ j l, j ≠ i → (s.locks l = some j ↔ s0.locks l = some j))
    (ht : ∀ j, j ≠ i → s.thr j = s0.thr j) (hti : ∃ p', s.thr i = some (c, p') ∧ (p' = q ∨ p' = .unlock q)) :
    ∃ M' w', w.step cfg c r w' ∧ CInv cfg K s (setN ph i (.effect c r)) M' w' := by
  obtain ⟨M', h1, h2, h3⟩ := hx M (fun _ _ => rfl)
  have hx' : AExec cfg M (c.prog cfg) M' q := by
    rcases hq with rfl | rfl
    · exact h1
    · exact h1.snoc (.unlock _ _)
  obtain ⟨w', hw, habs⟩ := call_refines c h.abs hx' hr hne
  have hdis : ∀ j c', HoldsLock cfg s0 ph j c' → j ≠ i → ∀ k, c.Foot cfg k → c'.Foot cfg k → False := fun j c' hh hn k hk hk' =>
    HoldsLock.disjoint ((hlk _).2 rfl) hh hn hsec (hh.sec h) hk hk'
  refine ⟨M', w', hw, habs, ?_, ?_, ?_⟩
  · intro j
    by_cases e : j = i
    · subst e
      obtain ⟨p', hp', hq'⟩ := hti
      rw [hp', setN_same]
      exact Or.inr (Or.inr ⟨q, r, hq', hr, rfl⟩)
    · rw [setN_other _ _ e, ht j e, hm]
      refine (h.thr j).congr (fun l => hl j l e) (fun c' hp' hs' hl' k hk => ?_)
      have hn : ¬ c.Foot cfg k := fun hf => hdis j c' ⟨hp', hl'⟩ e k hf hk
      exact ⟨hout k hn, h3 k hn⟩
  · intro k hk
    rw [hm]
    by_cases hf : c.Foot cfg k
    · exact (h2 k hf).symm
    · rw [h3 k hf, hout k hf]
      refine h.agree k (fun j c' hh hf' => ?_)
      by_cases e : j = i
      · subst e
        have := hh.1
        rw [hph] at this
        injection this with this
        exact hf (this ▸ hf')
      · exact hk j c' ⟨by rw [setN_other _ _ e]; exact hh.1, (hl j _ e).2 hh.2⟩ hf'
  · intro k hk hno
    rw [hm]
    by_cases hf : c.Foot cfg k
    · exact (h2 k hf).symm
    · rw [h3 k hf, hout k hf]
      refine h.agreeW k hk (fun j c' hh hc' hf' => ?_)
      by_cases e : j = i
      · subst e
        have := hh.1
        rw [hph] at this
        injection this with this
        exact hf (this ▸ hf')
      · exact hno j c' ⟨by rw [setN_other _ _ e]; exact hh.1, (hl j _ e).2 hh.2⟩ hc' hf'

/-- A step that does not change the map, nor what has taken effect on it. -/
theorem CInv.up {cfg K s s' ph ph' M w w'} (h : CInv cfg K s ph M w) (habs : MAbs cfg M w') (ht : ∀ i, TInv cfg K s'.locks (s'.map) M i (s'.thr i) (ph' i)) (hm : s'.map = s.map)
    (hup : ∀ i c, HoldsLock cfg s ph i c → HoldsLock cfg s' ph' i c) : CInv cfg K s' ph' M w' :=
  ⟨habs, ht, fun k hk => by rw [hm]; exact h.agree k (fun i c hh => hk i c (hup i c hh)),
    fun k hW hk => by rw [hm]; exact h.agreeW k hW (fun i c hh => hk i c (hup i c hh))⟩

/-- The calls begun in a history. -/
def CEvent.begun : CEvent → Option Call
  | .inv _ c => some c
  | .ret .. => none

/-- Reading an item without the lock: the answer is as on the map of the calls that have taken effect, even inside a compaction. -/
theorem CInv.readItem {cfg K s ph M w c lk ik} {cont : Option Bytes → Prog Resp} {r : Res Resp} (h : CInv cfg K s ph M w) (hc : c = .list lk (.get ik)) (hK : K lk)
    (hk0 : c.prog cfg = .get (itemKey (cfg.listPh lk) ik) cont) (hsuf : ∀ v i j, (cont (some (v ++ enc64 i))).result = (cont (some (v ++ enc64 j))).result)
    (hr : (cont (s.map (itemKey (cfg.listPh lk) ik))).result = some r) (hne : r ≠ .exhausted) : ∃ w', w.step cfg c r w' ∧ MAbs cfg M w' := by
  suffices hg : w.lists lk = none ∨ (cont (M (itemKey (cfg.listPh lk) ik))).result = some r by
    rcases hg with hg | hg
    · subst hc
      exact ⟨_, ⟨none, by rw [hg]; rfl, rfl⟩, h.abs.setList (.refl _ _) (fun _ e => by cases e)⟩
    · exact call_refines c h.abs (m' := M) (p := cont (M (itemKey (cfg.listPh lk) ik))) (by rw [hk0]; exact .step (.get _ _ _) (.refl _ _)) hg hne
  by_cases hh : ∃ i c', HoldsLock cfg s ph i c' ∧ Compacts cfg K c' ∧ c'.Foot cfg (itemKey (cfg.listPh lk) ik)
  · obtain ⟨i, c', hh, hcomp, hf⟩ := hh
    obtain ⟨p, _, _, _, _, _, hx⟩ := (h.thr i).sec hh.1 hh.2
    obtain ⟨lk', par, rfl, hone⟩ := hcomp
    have hph : cfg.listPh lk = cfg.listPh lk' := by
      have := lfoot_item (R := fun ph => ph = cfg.listPh lk) hf ⟨_, _, rfl, rfl⟩
      exact this.symm
    have := hone lk hK hph
    subst this
    cases hs : w.lists lk with
    | none => exact .inl rfl
    | some st =>
      right
      obtain ⟨n', g1, g2, g3⟩ := hx M (fun _ _ => rfl)
      have hla := h.abs.lists lk st hs
      have hit := listCompact_crash hla g1 ik
      rw [← g2 _ hf] at hr
      cases hm : M (itemKey (cfg.listPh lk) ik) with
      | none => rw [hit.1 hm] at hr; exact hr
      | some b =>
        obtain ⟨μ, L, hrep, _⟩ := hla
        obtain ⟨e, he, hek⟩ := hrep.items.only _ _ hm
        have hv := hrep.items.item e he
        rw [hek, hm] at hv
        injection hv with hv
        subst hv
        obtain ⟨j, hj⟩ := hit.2 _ _ hm
        rw [hj] at hr
        rw [hsuf _ _ j]; exact hr
  · right
    rw [← h.agreeW _ ⟨_, _, ⟨lk, hK, rfl⟩, rfl⟩ (fun i c' h1 h2 h3 => hh ⟨i, c', h1, h2, h3⟩)]
    exact hr

/-- Concurrent calls that fit are linearizable. -/
theorem AConcRun.linearizes {cfg : Cfg} {K : Bytes → Prop} {s s' : AState} {tr : List CEvent} (h : AConcRun cfg s tr s') :
    ∀ ph M w, CInv cfg K s ph M w → (∀ i c, CEvent.inv i c ∈ tr → SFits cfg K c) →
      ∃ ops ph' M' w', LinTo ph tr ops ph' ∧ SpecRun cfg w (ops.map (fun o => .call o.1 o.2)) w' ∧ CInv cfg K s' ph' M' w' := by
  induction h with
  | nil s => intro ph M w hi _; exact ⟨[], ph, M, w, .nil _, .nil _, hi⟩
  | @inv s s' tr i c h rest ih =>
    intro ph M w hi hat
    have hti := hi.thr i
    rw [h] at hti
    have hi2 : CInv cfg K { s with thr := setN s.thr i (some (c, c.prog cfg)) } (setN ph i (.called c)) M w := by
      refine hi.up hi.abs (fun j => ?_) rfl (fun j c' hh => ?_)
      · by_cases e : j = i
        · subst e
          show TInv cfg K _ _ M j (setN s.thr j _ j) (setN ph j _ j)
          rw [setN_same, setN_same]
          exact Or.inl ⟨rfl, rfl, hat j c List.mem_cons_self, hti.2⟩
        · show TInv cfg K _ _ M j (setN s.thr i _ j) (setN ph i _ j)
          rw [setN_other _ _ e, setN_other _ _ e]; exact hi.thr j
      · by_cases e : j = i
        · subst e; rw [hh.1] at hti; cases hti.1
        · exact ⟨by rw [setN_other _ _ e]; exact hh.1, hh.2⟩
    obtain ⟨ops, ph', M', w', h1, h2, h3⟩ := ih _ M w hi2 (fun j c' hm => hat j c' (List.mem_cons_of_mem _ hm))
    exact ⟨ops, ph', M', w', .inv i c hti.1 h1, h2, h3⟩
  | @raw s s' tr i c p p' m' h hl hst rest ih =>
    intro ph M w hi hat
    have hti := hi.thr i
    rw [h] at hti
    rcases hti with ⟨rfl, hph, hfit, hnl⟩ | ⟨hph, hsec, hlk, hins, honce, hx⟩ | ⟨q, r, hq, hr, _⟩
    · rcases fits_shape hfit with ⟨hkv, hone⟩ | ⟨_, q, hq, _⟩ | ⟨lk, ik, cont, hc, hK, hk0, hsuf, hres⟩
      · -- a key-value call
        have hag : AgreeOn (c.Foot cfg) M (s.map) := fun k hk =>
          (hi.agree k (fun j c' hh hf => foot_kv hkv (hh.sec hi) hk hf)).symm
        obtain ⟨⟨r, hr, hne⟩, hout, M', hst', hag', hout'⟩ := hone.frame hst hag
        obtain ⟨w', hw, habs⟩ := call_refines c hi.abs (AExec.step hst' (.refl _ _)) hr hne
        have hi2 : CInv cfg K { s with map := m', thr := setN s.thr i (some (c, p')) } (setN ph i (.effect c r)) M' w' := by
          have hup : ∀ j c', HoldsLock cfg s ph j c' → HoldsLock cfg { s with map := m', thr := setN s.thr i (some (c, p')) } (setN ph i (.effect c r)) j c' := by
            intro j c' hh
            by_cases e : j = i
            · subst e; exact absurd hh.2 (hnl _)
            · exact ⟨by rw [setN_other _ _ e]; exact hh.1, hh.2⟩
          refine ⟨habs, fun j => ?_, fun k hk => ?_, fun k hk hno => ?_⟩
          · by_cases e : j = i
            · subst e
              show TInv cfg K _ _ M' j (setN s.thr j _ j) (setN ph j _ j)
              rw [setN_same, setN_same]
              exact Or.inr (Or.inr ⟨_, r, .inl rfl, hr, rfl⟩)
            · show TInv cfg K _ _ M' j (setN s.thr i _ j) (setN ph i _ j)
              rw [setN_other _ _ e, setN_other _ _ e]
              refine (hi.thr j).congr (fun _ => Iff.rfl) (fun c' _ hs' _ k hk => ?_)
              have hn : ¬ c.Foot cfg k := fun hf => foot_kv hkv hs' hf hk
              exact ⟨hout k hn, hout' k hn⟩
          · show m' k = M' k
            by_cases hf : c.Foot cfg k
            · exact (hag' k hf).symm
            · rw [hout k hf, hout' k hf]
              exact hi.agree k (fun j c' hh => hk j c' (hup j c' hh))
          · show m' k = M' k
            by_cases hf : c.Foot cfg k
            · exact (hag' k hf).symm
            · rw [hout k hf, hout' k hf]; exact hi.agreeW k hk (fun j c' hh => hno j c' (hup j c' hh))
        obtain ⟨ops, ph', M2, w2, h1, h2, h3⟩ := ih _ M' w' hi2 hat
        exact ⟨(c, r) :: ops, ph', M2, w2, .effect i c r hph hne h1, .call hw h2, h3⟩
      · rw [hq] at hl; simp [Prog.onLock] at hl
      · -- reading an item without the lock
        have hst2 := hst
        rw [hk0] at hst2
        cases hst2
        obtain ⟨r, hr, hne⟩ := hres (s.map (itemKey (cfg.listPh lk) ik))
        obtain ⟨w', hw, habs⟩ := hi.readItem hc hK hk0 hsuf hr hne
        have hi2 : CInv cfg K { s with map := s.map, thr := setN s.thr i (some (c, cont (s.map (itemKey (cfg.listPh lk) ik)))) } (setN ph i (.effect c r)) M w' := by
          refine hi.up habs (fun j => ?_) rfl (fun j c' hh => ?_)
          · by_cases e : j = i
            · subst e
              show TInv cfg K _ _ M j (setN s.thr j _ j) (setN ph j _ j)
              rw [setN_same, setN_same]
              exact Or.inr (Or.inr ⟨_, r, .inl rfl, hr, rfl⟩)
            · show TInv cfg K _ _ M j (setN s.thr i _ j) (setN ph i _ j)
              rw [setN_other _ _ e, setN_other _ _ e]
              exact hi.thr j
          · by_cases e : j = i
            · subst e; exact absurd hh.2 (hnl _)
            · exact ⟨by rw [setN_other _ _ e]; exact hh.1, hh.2⟩
        obtain ⟨ops, ph', M2, w2, h1, h2, h3⟩ := ih _ M w' hi2 hat
        exact ⟨(c, r) :: ops, ph', M2, w2, .effect i c r hph hne h1, .call hw h2, h3⟩
    · -- inside a critical section
      have hfr := fun n hn => hins.frame hl hst (n := n) hn
      obtain ⟨hins', hout, _⟩ := hfr (s.map) (fun _ _ => rfl)
      have hx' : SelfExec cfg c p' M m' := by
        intro n hn
        obtain ⟨n1, a1, a2, a3⟩ := hx n hn
        obtain ⟨_, _, n2, b1, b2, b3⟩ := hfr n1 a2
        exact ⟨n2, a1.snoc b1, b2, a3.trans b3⟩
      have hcase : ((p'.Once (ItemOf (HashOf cfg K)) ∨ Compacts cfg K c) ∧ ∀ k, ItemOf (HashOf cfg K) k → (Compacts cfg K c → ¬ c.Foot cfg k) → m' k = s.map k) ∨ p'.Ends := by
        rcases honce with honce | hcomp
        · rcases honce.step hl hst with ⟨honce', hsame⟩ | hends
          · exact .inl ⟨.inl honce', fun k hk _ => hsame k hk⟩
          · exact .inr hends
        · exact .inl ⟨.inr hcomp, fun k _ hn => hout k (hn hcomp)⟩
      rcases hcase with ⟨honce', hsame⟩ | hends
      · have hi2 : CInv cfg K { s with map := m', thr := setN s.thr i (some (c, p')) } ph M w := by
          refine ⟨hi.abs, fun j => ?_, fun k hk => ?_, fun k hk hno => (hsame k hk (hno i c ⟨hph, (hlk _).2 rfl⟩)).trans (hi.agreeW k hk hno)⟩
          · by_cases e : j = i
            · subst e
              show TInv cfg K _ _ M j (setN s.thr j _ j) (ph j)
              rw [setN_same]
              exact Or.inr (Or.inl ⟨hph, hsec, hlk, hins', honce', hx'⟩)
            · show TInv cfg K _ _ M j (setN s.thr i _ j) (ph j)
              rw [setN_other _ _ e]
              refine (hi.thr j).congr (fun _ => Iff.rfl) (fun c' hp' hs' hl' k hk => ⟨hout k (fun hf => ?_), rfl⟩)
              exact HoldsLock.disjoint ((hlk _).2 rfl) ⟨hp', hl'⟩ e hsec hs' hf hk
          · show m' k = M k
            have hnf : ¬ c.Foot cfg k := hk i c ⟨hph, (hlk _).2 rfl⟩
            rw [hout k hnf]
            exact hi.agree k hk
        exact ih _ M w hi2 hat
      · -- the last raw operation
        have hres : ∃ q r, (p' = q ∨ p' = .unlock q) ∧ q.result = some r ∧ r ≠ .exhausted := by
          rcases hends with ⟨q, r, e1, e2, e3⟩ | ⟨r, e2, e3⟩
          · exact ⟨q, r, .inr e1, e2, e3⟩
          · exact ⟨p', r, .inl rfl, e2, e3⟩
        obtain ⟨q, r, hq, hr, hne⟩ := hres
        obtain ⟨M', w', hw, hi2⟩ := hi.commit hph hsec hlk hout hx' hq hr hne (s := { s with map := m', thr := setN s.thr i (some (c, p')) }) rfl (fun _ _ _ => Iff.rfl)
          (fun j e => setN_other _ _ e) ⟨p', setN_same _ _ _, hq⟩
        obtain ⟨ops, ph', M2, w2, h1, h2, h3⟩ := ih _ M' w' hi2 hat
        exact ⟨(c, r) :: ops, ph', M2, w2, .effect i c r hph hne h1, .call hw h2, h3⟩
    · rcases hq with rfl | rfl
      · exact (result_noAStep hr hst).elim
      · simp [Prog.onLock] at hl
  | @lock s s' tr i l c p h hf rest ih =>
    intro ph M w hi hat
    have hti := hi.thr i
    rw [h] at hti
    rcases hti with ⟨hp, hph, hfit, hnl⟩ | ⟨_, _, _, hins, _⟩ | ⟨q, r, hq, hr, _⟩
    · rcases fits_shape hfit with ⟨_, hone⟩ | ⟨hsec, q, hq, hins, honce⟩ | ⟨_, _, cont, _, _, hk0, _⟩
      · rw [← hp] at hone; exact hone.elim
      · rw [← hp] at hq
        simp only [Prog.lock.injEq] at hq
        obtain ⟨rfl, rfl⟩ := hq
        have hi2 : CInv cfg K { s with locks := setN s.locks (c.lockOf cfg) (some i), thr := setN s.thr i (some (c, p)) } ph M w := by
          refine hi.up hi.abs (fun j => ?_) rfl (fun j c' hh => ?_)
          · by_cases e : j = i
            · subst e
              show TInv cfg K _ _ M j (setN s.thr j _ j) (ph j)
              rw [setN_same]
              refine Or.inr (Or.inl ⟨hph, hsec, fun l => ?_, hins, honce, fun n hn => ⟨n, ?_, fun k hk => (hn k hk).trans ?_, .refl _ _⟩⟩)
              · show setN s.locks _ _ l = some j ↔ _
                by_cases e : l = c.lockOf cfg
                · rw [e, setN_same]; simp
                · rw [setN_other _ _ e]; simp [e, hnl l]
              · rw [← hp]; exact .step (.lock _ _ _) (.refl _ _)
              · symm
                refine hi.agree k (fun j' c' hh hf' => ?_)
                refine foot_disjoint (hh.sec hi) hsec (fun e => ?_) hf' hk
                have := hh.2
                rw [e, hf] at this
                cases this
            · show TInv cfg K _ _ M j (setN s.thr i _ j) (ph j)
              rw [setN_other _ _ e]
              refine (hi.thr j).congr (fun l => ?_) (fun _ _ _ _ _ _ => ⟨rfl, rfl⟩)
              show setN s.locks _ _ l = some j ↔ _
              by_cases e' : l = c.lockOf cfg
              · rw [e', setN_same, hf]; simp [Ne.symm e]
              · rw [setN_other _ _ e']
          · by_cases e : j = i
            · subst e; exact absurd hh.2 (hnl _)
            · refine ⟨hh.1, ?_⟩
              show setN s.locks _ _ _ = _
              rw [setN_other]
              · exact hh.2
              · intro e'
                have := hh.2
                rw [e', hf] at this; cases this
        exact ih _ M w hi2 hat
      · rw [← hp] at hk0; cases hk0
    · exact hins.elim
    · rcases hq with rfl | hq
      · simp [Prog.result] at hr
      · cases hq
  | @unlock s s' tr i c p h rest ih =>
    intro ph M w hi hat
    have hti := hi.thr i
    rw [h] at hti
    rcases hti with ⟨hp, _, hfit, _⟩ | ⟨hph, hsec, hlk, ⟨r, hr, hne⟩, _, hx⟩ | ⟨q, r, hq, hr, hph⟩
    · rcases fits_shape hfit with ⟨_, hone⟩ | ⟨_, q, hq, _⟩ | ⟨_, _, cont, _, _, hk0, _⟩
      · rw [← hp] at hone; exact hone.elim
      · rw [← hp] at hq; simp at hq
      · rw [← hp] at hk0; cases hk0
    · obtain ⟨M', w', hw, hi2⟩ := hi.commit hph hsec hlk (.refl _ _) hx (Or.inr rfl) hr hne (s := { s with locks := dropLocks s.locks i, thr := setN s.thr i (some (c, p)) }) rfl
        (fun j l e => dropLocks_other _ e) (fun j e => setN_other _ _ e) ⟨p, setN_same _ _ _, .inl rfl⟩
      obtain ⟨ops, ph', M2, w2, h1, h2, h3⟩ := ih _ M' w' hi2 hat
      exact ⟨(c, r) :: ops, ph', M2, w2, .effect i c r hph hne h1, .call hw h2, h3⟩
    · -- only the lock was left
      have e : p = q := by
        rcases hq with rfl | hq
        · simp [Prog.result] at hr
        · injection hq
      subst e
      have hi2 : CInv cfg K { s with locks := dropLocks s.locks i, thr := setN s.thr i (some (c, p)) } ph M w := by
        refine hi.up hi.abs (fun j => ?_) rfl (fun j c' hh => ?_)
        · by_cases e : j = i
          · subst e
            show TInv cfg K _ _ M j (setN s.thr j _ j) (ph j)
            rw [setN_same]
            exact Or.inr (Or.inr ⟨p, r, .inl rfl, hr, hph⟩)
          · show TInv cfg K _ _ M j (setN s.thr i _ j) (ph j)
            rw [setN_other _ _ e]
            exact (hi.thr j).congr (fun l => dropLocks_other _ e) (fun _ _ _ _ _ _ => ⟨rfl, rfl⟩)
        · by_cases e : j = i
          · subst e
            have := hh.1
            rw [hph] at this; cases this
          · exact ⟨hh.1, (dropLocks_other _ e).2 hh.2⟩
      exact ih _ M w hi2 hat
  | @ret s s' tr i c p r h hr hne rest ih =>
    intro ph M w hi hat
    have hti := hi.thr i
    rw [h] at hti
    -- after the call has taken effect
    have fin : ∀ ph M w, ph i = .effect c r → CInv cfg K s ph M w →
        CInv cfg K { s with locks := dropLocks s.locks i, thr := setN s.thr i none } (setN ph i .out) M w := by
      intro ph M w hph h0
      refine h0.up h0.abs (fun j => ?_) rfl (fun j c' hh => ?_)
      · by_cases e : j = i
        · subst e
          show TInv cfg K _ _ M j (setN s.thr j _ j) (setN ph j _ j)
          rw [setN_same, setN_same]
          exact ⟨rfl, dropLocks_self _ _⟩
        · show TInv cfg K _ _ M j (setN s.thr i _ j) (setN ph i _ j)
          rw [setN_other _ _ e, setN_other _ _ e]
          exact (h0.thr j).congr (fun l => dropLocks_other _ e) (fun _ _ _ _ _ _ => ⟨rfl, rfl⟩)
      · by_cases e : j = i
        · subst e
          have := hh.1
          rw [hph] at this; cases this
        · exact ⟨by rw [setN_other _ _ e]; exact hh.1, (dropLocks_other _ e).2 hh.2⟩
    have hat' : ∀ j c', CEvent.inv j c' ∈ tr → SFits cfg K c' := fun j c' hm => hat j c' (List.mem_cons_of_mem _ hm)
    rcases hti with ⟨hp, hph, hfit, hnl⟩ | ⟨hph, hsec, hlk, hins, _, hx⟩ | ⟨q, r', hq, hr', hph⟩
    · -- refused without a raw operation
      have hx : AExec cfg M (c.prog cfg) M p := by rw [← hp]; exact .refl _ _
      obtain ⟨w', hw, habs⟩ := call_refines c hi.abs hx hr hne
      have hi1 : CInv cfg K s (setN ph i (.effect c r)) M w' := by
        refine hi.up habs (fun j => ?_) rfl (fun j c' hh => ?_)
        · by_cases e : j = i
          · subst e
            rw [h, setN_same]
            exact Or.inr (Or.inr ⟨p, r, .inl rfl, hr, rfl⟩)
          · rw [setN_other _ _ e]; exact hi.thr j
        · by_cases e : j = i
          · subst e; exact absurd hh.2 (hnl _)
          · exact ⟨by rw [setN_other _ _ e]; exact hh.1, hh.2⟩
      obtain ⟨ops, ph', M2, w2, h1, h2, h3⟩ := ih _ M w' (fin _ M w' (setN_same _ _ _) hi1) hat'
      exact ⟨(c, r) :: ops, ph', M2, w2, .effect i c r hph hne (.ret i c r (setN_same _ _ _) h1), .call hw h2, h3⟩
    · obtain ⟨M', w', hw, hi2⟩ := hi.commit hph hsec hlk (.refl _ _) hx (Or.inl rfl) hr hne (s := s) rfl (fun _ _ _ => Iff.rfl) (fun _ _ => rfl) ⟨p, h, .inl rfl⟩
      obtain ⟨ops, ph', M2, w2, h1, h2, h3⟩ := ih _ M' w' (fin _ M' w' (setN_same _ _ _) hi2) hat'
      exact ⟨(c, r) :: ops, ph', M2, w2, .effect i c r hph hne (.ret i c r (setN_same _ _ _) h1), .call hw h2, h3⟩
    · rcases hq with rfl | rfl
      · rw [hr] at hr'
        cases hr'
        obtain ⟨ops, ph', M2, w2, h1, h2, h3⟩ := ih _ M w (fin ph M w hph hi) hat'
        exact ⟨ops, ph', M2, w2, .ret i c r hph h1, h2, h3⟩
      · simp [Prog.result] at hr

theorem Spec.LinTo.lin {ph ph' : Nat → Phase} {tr : List CEvent} {ops : List (Call × Res Resp)} (h : LinTo ph tr ops ph') : Lin ph tr ops := by
  induction h with
  | nil ph => exact .nil ph
  | inv i c h _ ih => exact .inv i c h ih
  | effect i c r h hne _ ih => exact .effect i c r h hne ih
  | ret i c r h _ ih => exact .ret i c r h ih

/-- Finitely many threads are in a call. -/
theorem Spec.LinTo.finite {ph ph' : Nat → Phase} {tr : List CEvent} {ops : List (Call × Res Resp)} (h : LinTo ph tr ops ph') :
    (∃ L : List Nat, L.Nodup ∧ ∀ i, ph i ≠ .out → i ∈ L) → ∃ L : List Nat, L.Nodup ∧ ∀ i, ph' i ≠ .out → i ∈ L := by
  have grow : ∀ (ph : Nat → Phase) (i : Nat) (x : Phase), (∃ L : List Nat, L.Nodup ∧ ∀ j, ph j ≠ .out → j ∈ L) → ∃ L : List Nat, L.Nodup ∧ ∀ j, setN ph i x j ≠ .out → j ∈ L := by
    rintro ph i x ⟨L, h1, h2⟩
    by_cases hi : i ∈ L
    · refine ⟨L, h1, fun j hj => ?_⟩
      by_cases e : j = i
      · rw [e]; exact hi
      · rw [setN_other _ _ e] at hj; exact h2 j hj
    · refine ⟨i :: L, List.nodup_cons.2 ⟨hi, h1⟩, fun j hj => ?_⟩
      by_cases e : j = i
      · rw [e]; exact List.mem_cons_self
      · rw [setN_other _ _ e] at hj; exact List.mem_cons_of_mem _ (h2 j hj)
  induction h with
  | nil ph => exact id
  | inv i c h _ ih => exact fun hL => ih (grow _ _ _ hL)
  | effect i c r h _ _ ih => exact fun hL => ih (grow _ _ _ hL)
  | ret i c r h _ ih => exact fun hL => ih (grow _ _ _ hL)

/-- The call a thread has begun, if it has not taken effect. -/
def Spec.Phase.pending : Phase → Option Call
  | .called c => some c
  | _ => none

theorem Spec.Phase.pending_iff {x : Phase} {c : Call} : x.pending = some c ↔ x = .called c := by
  cases x with
  | out => simp [Phase.pending]
  | called d => simp [Phase.pending]
  | effect d r => simp [Phase.pending]

/-- The pending calls of some threads. -/
def pendOf (ph : Nat → Phase) (L : List Nat) : List (Nat × Call) := L.filterMap (fun i => (ph i).pending.map (fun c => (i, c)))

theorem mem_pendOf {ph : Nat → Phase} {L : List Nat} {i : Nat} {c : Call} : (i, c) ∈ pendOf ph L ↔ i ∈ L ∧ ph i = .called c := by
  unfold pendOf
  rw [List.mem_filterMap]
  constructor
  · rintro ⟨j, hj, e⟩
    cases hp : (ph j).pending with
    | none => rw [hp] at e; cases e
    | some d =>
      rw [hp] at e
      injection e with e
      injection e with e1 e2
      subst e1 e2
      exact ⟨hj, Phase.pending_iff.1 hp⟩
  · rintro ⟨h1, h2⟩
    exact ⟨i, h1, by rw [Phase.pending_iff.2 h2]; rfl⟩

theorem pendOf_nodup {ph : Nat → Phase} {L : List Nat} (h : L.Nodup) : ((pendOf ph L).map Prod.fst).Nodup := by
  induction L with
  | nil => exact List.nodup_nil
  | cons i L ih =>
    have h' := List.nodup_cons.1 h
    unfold pendOf
    cases hp : (ph i).pending with
    | none => rw [List.filterMap_cons_none (by rw [hp]; rfl)]; exact ih h'.2
    | some c =>
      rw [List.filterMap_cons_some (b := (i, c)) (by rw [hp]; rfl), List.map_cons]
      refine List.nodup_cons.2 ⟨fun hm => ?_, ih h'.2⟩
      obtain ⟨⟨j, d⟩, hm, e⟩ := List.mem_map.1 hm
      have e : j = i := e
      exact h'.1 (e ▸ (mem_pendOf.1 hm).1)

theorem SpecRun.append {cfg w es w' es' w''} (h : SpecRun cfg w es w') (h' : SpecRun cfg w' es' w'') : SpecRun cfg w (es ++ es') w'' := by
  induction h with
  | nil => exact h'
  | call h _ ih => exact .call h (ih h')
  | merge _ ih => exact .merge (ih h')
  | clear _ ih => exact .clear (ih h')
  | reopen _ ih => exact .reopen (ih h')
  | crash h _ ih => exact .crash h (ih h')

/-- The process dies: the pending calls are cut off. -/
theorem CInv.crash {cfg : Cfg} {K : Bytes → Prop} {s : AState} {ph : Nat → Phase} {M : Map} {w : World} (h : CInv cfg K s ph M w) : ∀ (L : List Nat), L.Nodup → ∀ (N : Map) (u : World), MAbs cfg N u →
    (∀ i ∈ L, ∀ c, HoldsLock cfg s ph i c → AgreeOn (c.Foot cfg) N M) →
    (∀ k, (∀ i ∈ L, ∀ c, HoldsLock cfg s ph i c → ¬ c.Foot cfg k) → s.map k = N k) →
    ∃ u', SpecRun cfg u ((pendOf ph L).map (fun x => .crash (some x.2))) u' ∧ MAbs cfg s.map u' := by
  intro L
  induction L with
  | nil =>
    intro _ N u hu _ hk
    have : s.map = N := funext fun k => hk k (fun i hi => by cases hi)
    exact ⟨u, .nil _, by rw [this]; exact hu⟩
  | cons i L ih =>
    intro hnd N u hu hag hk
    have hnd' := List.nodup_cons.1 hnd
    have hti := h.thr i
    -- a thread not in a critical section
    have skip : (∀ c, ¬ HoldsLock cfg s ph i c) → ∀ u1, MAbs cfg N u1 → ∃ u', SpecRun cfg u1 ((pendOf ph L).map (fun x => .crash (some x.2))) u' ∧ MAbs cfg s.map u' := by
      intro hnl u1 hu1
      refine ih hnd'.2 N u1 hu1 (fun j hj => hag j (List.mem_cons_of_mem _ hj)) (fun k hk' => hk k (fun j hj c hh => ?_))
      rcases List.mem_cons.1 hj with rfl | hj
      · exact absurd hh (hnl c)
      · exact hk' j hj c hh
    have cut : ∀ {c : Call}, ph i = .called c → (pendOf ph (i :: L)).map (fun x : Nat × Call => Event.crash (some x.2)) = .crash (some c) :: (pendOf ph L).map (fun x => .crash (some x.2)) := by
      intro c e
      show ((i :: L).filterMap _).map _ = _
      rw [List.filterMap_cons_some (b := (i, c)) (by rw [Phase.pending_iff.2 e]; rfl), List.map_cons]
      rfl
    have keep : (ph i).pending = none → pendOf ph (i :: L) = pendOf ph L := by
      intro e
      show (i :: L).filterMap _ = _
      rw [List.filterMap_cons_none (by rw [e]; rfl)]
      rfl
    cases hthr : s.thr i with
    | none =>
      rw [hthr] at hti
      rw [keep (by rw [hti.1]; rfl)]
      exact skip (fun c hh => hti.2 _ hh.2) u hu
    | some cp =>
      obtain ⟨c, p⟩ := cp
      rw [hthr] at hti
      rcases hti with ⟨_, hph, _, hnl⟩ | ⟨hph, hsec, hlk, _, _, hx⟩ | ⟨_, r, _, _, hph⟩
      · rw [cut hph]
        obtain ⟨u1, h1, h2⟩ := call_crash c hu (.refl _ _)
        obtain ⟨u', h3, h4⟩ := skip (fun c' hh => hnl _ hh.2) u1 h2
        exact ⟨u', .crash h1 h3, h4⟩
      · rw [cut hph]
        have hhl : HoldsLock cfg s ph i c := ⟨hph, (hlk _).2 rfl⟩
        obtain ⟨N', g1, g2, g3⟩ := hx N (hag i List.mem_cons_self c hhl)
        obtain ⟨u1, h1, h2⟩ := call_crash c hu g1
        have hdis : ∀ j ∈ L, ∀ c', HoldsLock cfg s ph j c' → ∀ k, c'.Foot cfg k → ¬ c.Foot cfg k := by
          intro j hj c' hh k hf hf'
          exact HoldsLock.disjoint ((hlk _).2 rfl) hh (fun e => hnd'.1 (e ▸ hj)) hsec (hh.sec h) hf' hf
        suffices hg : ∃ u', SpecRun cfg u1 ((pendOf ph L).map (fun x => .crash (some x.2))) u' ∧ MAbs cfg s.map u' by
          obtain ⟨u', h3, h4⟩ := hg
          exact ⟨u', .crash h1 h3, h4⟩
        refine ih hnd'.2 N' u1 h2 (fun j hj c' hh k hf => ?_) (fun k hk' => ?_)
        · rw [g3 k (hdis j hj c' hh k hf)]
          exact hag j (List.mem_cons_of_mem _ hj) c' hh k hf
        · by_cases hf : c.Foot cfg k
          · exact (g2 k hf).symm
          · rw [g3 k hf]
            refine hk k (fun j hj c' hh => ?_)
            rcases List.mem_cons.1 hj with rfl | hj
            · have := hh.1
              rw [hph] at this
              injection this with this
              rw [← this]; exact hf
            · exact hk' j hj c' hh
      · rw [keep (by rw [hph]; rfl)]
        exact skip (fun c' hh => by have := hh.1; rw [hph] at this; cases this) u hu

/-- The lists read with `get_from_list`. -/
def readBy (tr : List CEvent) (lk : Bytes) : Prop := ∃ i ik, CEvent.inv i (.list lk (.get ik)) ∈ tr

theorem Serial.fits {cfg : Cfg} {tr : List CEvent} (h : Serial cfg tr) (i : Nat) (c : Call) (hm : CEvent.inv i c ∈ tr) : SFits cfg (readBy tr) c := by
  have key : ∀ lk op lk', CEvent.inv i (.list lk op) ∈ tr → readBy tr lk' → cfg.listPh lk' = cfg.listPh lk → op ≠ .discard ∧ ∀ par, op = .compact par → lk = lk' := by
    rintro lk op lk' hm ⟨j, ik, hj⟩ e
    rcases h j _ hj with hb | ⟨lk2, ik2, e2, hno⟩
    · simp [Call.atomic] at hb
    · injection e2 with e2 _
      subst e2
      exact hno i lk op hm e.symm
  rcases h i c hm with ha | ⟨lk, ik, rfl, _⟩
  · refine .inl ⟨ha, ?_⟩
    rintro lk op rfl ⟨lk', hr, e⟩
    exact ⟨(key lk op lk' hm hr e).1, fun par hp lk2 hr2 e2 => ((key lk op lk2 hm hr2 e2).2 par hp).symm⟩
  · exact .inr ⟨lk, ik, rfl, i, ik, hm⟩

theorem Serial.of_atomic {cfg : Cfg} {tr : List CEvent} (h : ∀ i c, CEvent.inv i c ∈ tr → c.atomic = true) : Serial cfg tr := fun i c hm => .inl (h i c hm)

/-- From a quiet state to the death of the process. -/
theorem AConcRun.died {cfg : Cfg} {m : Map} {s : AState} {tr : List CEvent} (h : AConcRun cfg ⟨m, fun _ => none, fun _ => none⟩ tr s) {w : World}
    (hw : MAbs cfg m w) (hat : Serial cfg tr) :
    ∃ ops pend w', LinearizesTo tr ops pend ∧ SpecRun cfg w (ops.map (fun o => .call o.1 o.2) ++ pend.map (fun x => .crash (some x.2))) w' ∧ MAbs cfg s.map w' := by
  have hi : CInv cfg (readBy tr) ⟨m, fun _ => none, fun _ => none⟩ (fun _ => .out) m w := ⟨hw, fun i => ⟨rfl, fun l => by simp⟩, fun k _ => rfl, fun k _ _ => rfl⟩
  obtain ⟨ops, ph', M', w1, h1, h2, h3⟩ := h.linearizes _ _ w hi hat.fits
  obtain ⟨L, hL, hL'⟩ := h1.finite ⟨[], List.nodup_nil, fun i hi => absurd rfl hi⟩
  suffices hg : ∃ w', SpecRun cfg w1 ((pendOf ph' L).map (fun x => .crash (some x.2))) w' ∧ MAbs cfg s.map w' by
    obtain ⟨w', h4, h5⟩ := hg
    exact ⟨ops, pendOf ph' L, w', ⟨ph', h1, pendOf_nodup hL, fun i c => ⟨fun hm => (mem_pendOf.1 hm).2, fun e => mem_pendOf.2 ⟨hL' i (by rw [e]; simp), e⟩⟩⟩, SpecRun.append h2 h4, h5⟩
  refine h3.crash L hL M' w1 h3.abs (fun _ _ _ _ _ _ => rfl) (fun k hk => h3.agree k (fun i c hh => ?_))
  · by_cases hm : i ∈ L
    · exact hk i hm c hh
    · have hout : ph' i = .out := Classical.byContradiction (fun hne => hm (hL' i hne))
      have := hh.1
      rw [hout] at this; cases this

/-- From a quiet state to a quiet state. -/
theorem AConcRun.idle {cfg : Cfg} {m : Map} {s : AState} {tr : List CEvent} (h : AConcRun cfg ⟨m, fun _ => none, fun _ => none⟩ tr s) {w : World}
    (hw : MAbs cfg m w) (hat : Serial cfg tr) :
    ∃ ops w', Linearizes tr ops ∧ SpecRun cfg w (ops.map (fun o => .call o.1 o.2)) w' ∧ ((∀ i, s.thr i = none) → MAbs cfg s.map w') := by
  have hi : CInv cfg (readBy tr) ⟨m, fun _ => none, fun _ => none⟩ (fun _ => .out) m w := ⟨hw, fun i => ⟨rfl, fun l => by simp⟩, fun k _ => rfl, fun k _ _ => rfl⟩
  obtain ⟨ops, ph', M', w', h1, h2, h3⟩ := h.linearizes _ _ w hi hat.fits
  refine ⟨ops, w', h1.lin, h2, fun hq => ?_⟩
  have : s.map = M' := funext fun k => h3.agree k (fun i c hh => by obtain ⟨p, hp, _⟩ := (h3.thr i).sec hh.1 hh.2; rw [hq] at hp; cases hp)
  rw [this]; exact h3.abs

end Candy
