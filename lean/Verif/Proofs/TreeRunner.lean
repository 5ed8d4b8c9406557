import Verif.Proofs.Budget
/-!
# Running calls on concrete stores

An evaluator for histories on a concrete shard tree. A run of the evaluator (checked by the kernel) yields a history of the store. Used for
the concrete cases beside the theorems, and for counterexamples to properties the store does not have.
-/
namespace Candy
open Spec

/-- Run a program on a tree, without background steps; counts the bytes inserted. -/
def Prog.execT (cfg : Cfg) {α : Type} : Prog α → Nat → Tree → Option (Nat × Tree × Res α)
  | .ret a, n, t => some (n, t, .ok a)
  | .err e, n, t => some (n, t, .err e)
  | .panic, n, t => some (n, t, .panic)
  | .exhausted, n, t => some (n, t, .exhausted)
  | .get k c, n, t => (c (t.get cfg k)).execT cfg n t
  | .ins k v mode c, n, t =>
    match sizeErr cfg k v with
    | some e => some (n + (k.length + v.length), t, .err e)
    | none => match t.insert cfg (cfg.ph k) k v mode 40 with
      | .ok (t', st) => (c st).execT cfg (n + (k.length + v.length)) t'
      | _ => none
  | .rem k c, n, t => (c (t.remove cfg k).2).execT cfg n (t.remove cfg k).1
  | .byHash ph suf c, n, t => (c ((t.getByHash ph).filter (fun kv => endsWith kv.1 suf))).execT cfg n t
  | .lock _ c, n, t => c.execT cfg n t
  | .unlock c, n, t => c.execT cfg n t

theorem Prog.execT_sound {cfg : Cfg} {α : Type} (p : Prog α) : ∀ (n : Nat) (t : Tree) {n' t' r}, p.execT cfg n t = some (n', t', r) →
    ∃ p', CExecB cfg n t p n' t' p' ∧ p'.result = some r := by
  induction p with
  | ret a => intro n t n' t' r h; cases h; exact ⟨_, .refl _ _ _, rfl⟩
  | err e => intro n t n' t' r h; cases h; exact ⟨_, .refl _ _ _, rfl⟩
  | panic => intro n t n' t' r h; cases h; exact ⟨_, .refl _ _ _, rfl⟩
  | exhausted => intro n t n' t' r h; cases h; exact ⟨_, .refl _ _ _, rfl⟩
  | get k c ih => intro n t n' t' r h; obtain ⟨p', h1, h2⟩ := ih _ _ _ h; exact ⟨p', .step (.get _ _ _) h1, h2⟩
  | ins k v mode c ih =>
    intro n t n' t' r h
    unfold Prog.execT at h
    cases hs : sizeErr cfg k v with
    | some e => rw [hs] at h; cases h; exact ⟨.err e, .step (.insErr _ _ _ _ _ _ hs) (.refl _ _ _), rfl⟩
    | none =>
      rw [hs] at h
      dsimp only at h
      cases hi : t.insert cfg (cfg.ph k) k v mode 40 with
      | ok x =>
        obtain ⟨t1, st⟩ := x
        rw [hi] at h
        obtain ⟨p', h1, h2⟩ := ih st _ _ h
        exact ⟨p', .step (.ins _ _ _ _ _ _ _ _ hs hi) h1, h2⟩
      | panic => rw [hi] at h; cases h
      | diverge => rw [hi] at h; cases h
      | deadlock => rw [hi] at h; cases h
  | rem k c ih => intro n t n' t' r h; obtain ⟨p', h1, h2⟩ := ih _ _ _ h; exact ⟨p', .step (.rem _ _ _) h1, h2⟩
  | byHash ph suf c ih => intro n t n' t' r h; obtain ⟨p', h1, h2⟩ := ih _ _ _ h; exact ⟨p', .step (.byHash _ _ _ _) h1, h2⟩
  | lock i c ih => intro n t n' t' r h; obtain ⟨p', h1, h2⟩ := ih _ _ h; exact ⟨p', .step (.lock _ _ _) h1, h2⟩
  | unlock c ih => intro n t n' t' r h; obtain ⟨p', h1, h2⟩ := ih _ _ h; exact ⟨p', .step (.unlock _ _) h1, h2⟩

/-- Commands of a script. -/
inductive Cmd where
  | call (c : Call)
  | bg (sel : Nat)

/-- Run a script. -/
def runT (cfg : Cfg) : List Cmd → Nat → Tree → Option (Nat × Tree × List Event)
  | [], n, t => some (n, t, [])
  | .call c :: cs, n, t => match (c.prog cfg).execT cfg n t with
    | none => none
    | some (_, _, .exhausted) => none
    | some (n', t', r) => match runT cfg cs n' t' with
      | none => none
      | some (n'', t'', es) => some (n'', t'', .call c r :: es)
  | .bg sel :: cs, n, t => match t.bgStep cfg sel with
    | none => none
    | some t' => runT cfg cs n t'

theorem runT_sound {cfg : Cfg} : ∀ (cs : List Cmd) (n : Nat) (t : Tree) {n' t' es}, runT cfg cs n t = some (n', t', es) → RunB cfg n t es n' t'
  | [], n, t, n', t', es, h => by cases h; exact .nil _ _
  | .call c :: cs, n, t, n', t', es, h => by
    unfold runT at h
    cases he : (c.prog cfg).execT cfg n t with
    | none => rw [he] at h; cases h
    | some x =>
      obtain ⟨n1, t1, r⟩ := x
      rw [he] at h
      obtain ⟨p, h1, h2⟩ := Prog.execT_sound _ _ _ he
      have key : ∀ (hr : r ≠ .exhausted), (match runT cfg cs n1 t1 with | none => none | some (n'', t'', es) => some (n'', t'', Event.call c r :: es)) =
          some (n', t', es) → RunB cfg n t es n' t' := by
        intro hr h
        cases hq : runT cfg cs n1 t1 with
        | none => rw [hq] at h; cases h
        | some y =>
          obtain ⟨n2, t2, es2⟩ := y
          rw [hq] at h
          cases h
          exact .call h1 h2 hr (runT_sound cs _ _ hq)
      cases r with
      | exhausted => cases h
      | ok a => exact key (by simp) h
      | err a => exact key (by simp) h
      | panic => exact key (by simp) h
  | .bg sel :: cs, n, t, n', t', es, h => by
    unfold runT at h
    cases he : t.bgStep cfg sel with
    | none => rw [he] at h; cases h
    | some t1 => rw [he] at h; exact .bg sel he (runT_sound cs _ _ h)

/-- A script on a new store, and a check of the result. -/
def checkT (cfg : Cfg) (cs : List Cmd) (chk : Tree → Bool) : Bool :=
  match Tree.create cfg with
  | none => false
  | some t0 => match runT cfg cs 0 t0 with
    | none => false
    | some (n, t, _) => decide (n < 4294967296) && chk t

theorem checkT_sound {cfg : Cfg} {cs : List Cmd} {chk : Tree → Bool} (h : checkT cfg cs chk = true) :
    ∃ es t, Reachable cfg es t ∧ chk t = true := by
  unfold checkT at h
  cases hc : Tree.create cfg with
  | none => rw [hc] at h; cases h
  | some t0 =>
    rw [hc] at h
    dsimp only at h
    cases hr : runT cfg cs 0 t0 with
    | none => rw [hr] at h; cases h
    | some x =>
      obtain ⟨n, t, es⟩ := x
      rw [hr] at h
      simp only [Bool.and_eq_true, decide_eq_true_eq] at h
      exact ⟨es, t, Reachable.of_budget hc (runT_sound cs _ _ hr) h.1, h.2⟩

/-- A store on which two scripts are run one after the other. -/
def checkT2 (cfg : Cfg) (cs cs' : List Cmd) (chk : Tree → Tree → Bool) : Bool :=
  match Tree.create cfg with
  | none => false
  | some t0 => match runT cfg cs 0 t0 with
    | none => false
    | some (n, t, _) => match runT cfg cs' n t with
      | none => false
      | some (n', t', _) => decide (n' < 4294967296) && chk t t'

theorem checkT2_sound {cfg : Cfg} {cs cs' : List Cmd} {chk : Tree → Tree → Bool} (h : checkT2 cfg cs cs' chk = true) :
    ∃ es t es' t', Reachable cfg es t ∧ Run cfg t es' t' ∧ chk t t' = true ∧ ∃ t0 n n', Tree.create cfg = some t0 ∧ runT cfg cs 0 t0 = some (n, t, es) ∧
      runT cfg cs' n t = some (n', t', es') := by
  unfold checkT2 at h
  cases hc : Tree.create cfg with
  | none => rw [hc] at h; cases h
  | some t0 =>
    rw [hc] at h
    dsimp only at h
    cases hr : runT cfg cs 0 t0 with
    | none => rw [hr] at h; cases h
    | some x =>
      obtain ⟨n, t, es⟩ := x
      rw [hr] at h
      dsimp only at h
      cases hr' : runT cfg cs' n t with
      | none => rw [hr'] at h; cases h
      | some x =>
        obtain ⟨n', t', es'⟩ := x
        rw [hr'] at h
        simp only [Bool.and_eq_true, decide_eq_true_eq] at h
        have h1 := runT_sound cs _ _ hr
        have h2 := runT_sound cs' _ _ hr'
        have hreach := Reachable.of_budget hc h1 (Nat.lt_of_le_of_lt h2.mono h.1)
        obtain ⟨w, _, hs, _⟩ := hreach.world
        have hpot : t.pot ≤ n := RunB.pot_le hc h1 (Nat.lt_of_le_of_lt h2.mono h.1)
        exact ⟨es, t, es', t', hreach, h2.toRun hs hpot h.1, h.2, t0, n, n', rfl, hr, hr'⟩

end Candy
