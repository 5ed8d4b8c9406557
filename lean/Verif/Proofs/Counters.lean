import Verif.Spec.Activity
/-!
# Activity counters: what one call adds
-/
namespace Candy
open Spec

theorem MFile.getCount_spec (f : MFile) (row : Nat) (key : Bytes) (ls : List Nat) :
    f.getCount row key ls = match f.getLoop row key ls with | some _ => ⟨1, 0, 0, 0⟩ | none => ⟨0, 1, 0, 0⟩ := by
  induction ls with
  | nil => rfl
  | cons i is ih =>
    simp only [MFile.getCount, MFile.getLoop]
    split
    · rfl
    · exact ih

theorem Shard.getCount_spec (s : Shard) (ph : PH) (key : Bytes) :
    s.getCount ph key = match s.get ph key with | some _ => ⟨1, 0, 0, 0⟩ | none => ⟨0, 1, 0, 0⟩ := MFile.getCount_spec _ _ _ _

/-- What an insertion that ended with the given status adds to the counters. -/
def Adds (val : Bytes) (mode : Mode) : InsStatus → Counters → Prop
  | .added, n => n.pos = 0 ∧ n.neg = 0 ∧ n.upd = 0 ∧ n.coll ≤ 1 ∧ (mode = .set ∨ mode = .getOrCreate)
  | .replaced old, n => n = ⟨0, 0, if val ≠ old then 1 else 0, 0⟩ ∧ mode ≠ .getOrCreate
  | .keyDoesNotExist, n => n = .zero ∧ ∃ e, mode = .replace e
  | .splitNeeded, n => n = .zero
  | .alreadyExists _, n => (mode = .getOrCreate ∧ n = ⟨1, 0, 0, 0⟩) ∨ (n = .zero ∧ ∃ e, mode = .replace e)

theorem MFile.tryReplaceCount_spec (f : MFile) (row : Nat) (key val : Bytes) (mode : Mode) (ls : List Nat) :
    match (f.tryReplace row key val mode ls).2 with
    | .keyDoesNotExist => True
    | .notReplaced v => Adds val mode (.alreadyExists v) (f.tryReplaceCount row key val mode ls)
    | .replaced v => Adds val mode (.replaced v) (f.tryReplaceCount row key val mode ls) := by
  induction ls with
  | nil => trivial
  | cons i is ih =>
    simp only [MFile.tryReplace, MFile.tryReplaceCount]
    by_cases hk : key ≠ (f.readKV (f.slot row i).desc).1
    · rw [if_pos hk, if_pos hk]; exact ih
    · rw [if_neg hk, if_neg hk]
      have hu : Adds val .set (.replaced (f.readKV (f.slot row i).desc).2)
          (if val ≠ (f.readKV (f.slot row i).desc).2 then ⟨0, 0, 1, 0⟩ else .zero) := by
        refine ⟨?_, by simp⟩
        by_cases hv : val ≠ (f.readKV (f.slot row i).desc).2
        · rw [if_pos hv, if_pos hv]
        · rw [if_neg hv, if_neg hv]; rfl
      cases mode with
      | set => exact hu
      | getOrCreate => exact Or.inl ⟨rfl, rfl⟩
      | replace e =>
        cases e with
        | none => exact ⟨hu.1, by simp⟩
        | some e =>
          dsimp only
          by_cases he : e ≠ (f.readKV (f.slot row i).desc).2
          · rw [if_pos he, if_pos he]; exact Or.inr ⟨rfl, _, rfl⟩
          · rw [if_neg he, if_neg he]; exact ⟨hu.1, by simp⟩

theorem Shard.insertCount_spec (cfg : Cfg) (s : Shard) (ph : PH) (key val : Bytes) (mode : Mode) :
    Adds val mode (s.insert cfg ph key val mode).2 (s.insertCount cfg ph key val mode) := by
  unfold Shard.insert Shard.insertCount Shard.insertPlan
  dsimp only
  split
  · exact rfl
  · have h := (s.active ph.rowSel).tryReplaceCount_spec ph.rowSel key val mode (lookups ((s.active ph.rowSel).slot ph.rowSel) ph.sig 0)
    cases hr : ((s.active ph.rowSel).tryReplace ph.rowSel key val mode (lookups ((s.active ph.rowSel).slot ph.rowSel) ph.sig 0)).2 with
    | notReplaced v => rw [hr] at h; exact h
    | replaced v => rw [hr] at h; exact h
    | keyDoesNotExist =>
      have hput : ∀ b : Bool, (if b then 0 else 1) ≤ 1 := fun b => by cases b <;> simp
      cases mode with
      | replace e => exact ⟨rfl, _, rfl⟩
      | set =>
        cases hl : lookup ((s.active ph.rowSel).slot ph.rowSel) INVALID_SIG 0 with
        | none => exact rfl
        | some i => exact ⟨rfl, rfl, rfl, hput _, Or.inl rfl⟩
      | getOrCreate =>
        cases hl : lookup ((s.active ph.rowSel).slot ph.rowSel) INVALID_SIG 0 with
        | none => exact rfl
        | some i => exact ⟨rfl, rfl, rfl, hput _, Or.inr rfl⟩

theorem Counters.zero_add (n : Counters) : Counters.zero.add n = n := by
  cases n; simp [Counters.add, Counters.zero]

theorem Tree.insertCount_spec (cfg : Cfg) (ph : PH) (key val : Bytes) (mode : Mode) (n : Nat) (t t' : Tree) (st : InsStatus)
    (h : t.insert cfg ph key val mode n = .ok (t', st)) : st ≠ .splitNeeded ∧ Adds val mode st (t.insertCount cfg ph key val mode n) := by
  induction n generalizing t t' with
  | zero => simp [Tree.insert] at h
  | succ n ih =>
    cases t with
    | leaf s =>
      have hs := s.insertCount_spec cfg ph key val mode
      rw [Tree.insert] at h
      rw [Tree.insertCount]
      cases hi : s.insert cfg ph key val mode with
      | mk s' st' =>
        rw [hi] at h hs
        have fin : st' ≠ .splitNeeded → (Out.ok (Tree.leaf s', st') = Out.ok (t', st)) →
            st ≠ .splitNeeded ∧ Adds val mode st (s.insertCount cfg ph key val mode) := by
          intro h1 h2
          simp only [Out.ok.injEq, Prod.mk.injEq] at h2
          obtain ⟨_, rfl⟩ := h2
          exact ⟨h1, hs⟩
        cases st' with
        | added => exact fin (by simp) h
        | replaced => exact fin (by simp) h
        | keyDoesNotExist => exact fin (by simp) h
        | alreadyExists => exact fin (by simp) h
        | splitNeeded =>
          dsimp only at h ⊢
          have hz : s.insertCount cfg ph key val mode = .zero := hs
          cases hsp : s'.split cfg with
          | none => rw [hsp] at h; simp at h
          | some bt =>
            obtain ⟨b, t⟩ := bt
            rw [hsp] at h
            dsimp only at h ⊢
            rw [hz, Counters.zero_add]
            exact ih _ _ h
    | vertex b t =>
      rw [Tree.insert] at h
      rw [Tree.insertCount]
      split
      · rename_i hlt
        rw [if_pos hlt] at h
        cases hr : Tree.insert cfg ph key val mode n b with
        | ok r =>
          rw [hr] at h
          simp only [Out.bind, Out.ok.injEq, Prod.mk.injEq] at h
          exact ih b r.1 (by rw [hr, ← h.2])
        | _ => rw [hr] at h; simp [Out.bind] at h
      · rename_i hlt
        rw [if_neg hlt] at h
        cases hr : Tree.insert cfg ph key val mode n t with
        | ok r =>
          rw [hr] at h
          simp only [Out.bind, Out.ok.injEq, Prod.mk.injEq] at h
          exact ih t r.1 (by rw [hr, ← h.2])
        | _ => rw [hr] at h; simp [Out.bind] at h

/-- One if the call has returned an answer of the given kind. -/
def answers (kind : KvOp → Resp → Bool) (c : Call) (r : Res Resp) : Nat :=
  if SEvent.is kind (.call (.ret 0 c r)) then 1 else 0

/-- The increments of a call are those its answer tells. -/
def CountTells (c : Call) (r : Res Resp) (m : Counters) : Prop :=
  m.pos = answers isHit c r ∧ m.neg = answers isMiss c r ∧ m.upd = answers isUpdate c r ∧ m.coll ≤ answers isCreation c r

theorem tells_err (c : Call) (e : Err) : CountTells c (.err e) .zero := ⟨rfl, rfl, rfl, Nat.zero_le _⟩

theorem get_step {cfg : Cfg} {c : Call} {op : KvOp} {t t' : Tree} {K : Bytes} {f : Option Bytes → Prog Resp} {p' : Prog Resp} {m : Counters}
    (g : Option Bytes → Resp) (hc : kvOf c = some op) (hf : ∀ o, f o = .ret (g o)) (hh : ∀ o, isHit op (g o) = o.isSome) (hm : ∀ o, isMiss op (g o) = o.isNone)
    (hu : ∀ o, isUpdate op (g o) = false)
    (h : CountStep cfg t (.get K f) t' p' m) : ∃ r, p'.result = some r ∧ CountTells c r m := by
  cases h
  refine ⟨.ok (g (t.get cfg K)), by rw [hf]; rfl, ?_⟩
  have hg := (t.find (cfg.ph K).shardSel).getCount_spec (cfg.ph K) K
  have e : (t.find (cfg.ph K).shardSel).get (cfg.ph K) K = t.get cfg K := rfl
  rw [e] at hg
  unfold CountTells answers
  simp only [SEvent.is, hc, hh, hm, hu]
  rw [hg]
  cases t.get cfg K <;> simp

theorem rem_step {cfg : Cfg} {c : Call} {op : KvOp} {t t' : Tree} {K : Bytes} {f : Option Bytes → Prog Resp} {p' : Prog Resp} {m : Counters}
    (g : Option Bytes → Resp) (hc : kvOf c = some op) (hf : ∀ o, f o = .ret (g o)) (hh : ∀ o, isHit op (g o) = false) (hm : ∀ o, isMiss op (g o) = false)
    (hu : ∀ o, isUpdate op (g o) = false)
    (h : CountStep cfg t (.rem K f) t' p' m) : ∃ r, p'.result = some r ∧ CountTells c r m := by
  cases h
  refine ⟨.ok (g (t.remove cfg K).2), by rw [hf]; rfl, ?_⟩
  unfold CountTells answers
  simp only [SEvent.is, hc, hh, hm, hu]
  exact ⟨rfl, rfl, rfl, Nat.zero_le _⟩

theorem ins_step {cfg : Cfg} {c : Call} {t t' : Tree} {K v : Bytes} {mode : Mode} {f : InsStatus → Prog Resp} {p' : Prog Resp} {m : Counters}
    (hf : ∀ st n, st ≠ .splitNeeded → Adds v mode st n → ∃ r, (f st).result = some r ∧ CountTells c r n)
    (h : CountStep cfg t (.ins K v mode f) t' p' m) : ∃ r, p'.result = some r ∧ CountTells c r m := by
  cases h with
  | insErr _ _ _ _ e _ => exact ⟨.err e, rfl, tells_err c e⟩
  | ins _ _ _ _ _ st n hs h =>
    obtain ⟨h1, h2⟩ := Tree.insertCount_spec cfg _ _ _ _ _ _ _ _ h
    exact hf st _ h1 h2

theorem set_step {c : Call} {v : Bytes} (hc : kvOf c = some (.set v)) {f : InsStatus → Prog Resp}
    (h1 : f .added = .ret (.setStatus .createdNew)) (h2 : ∀ o, f (.replaced o) = .ret (.setStatus (.prevValue o))) :
    ∀ st n, st ≠ .splitNeeded → Adds v .set st n → ∃ r, (f st).result = some r ∧ CountTells c r n := by
  intro st n hn ha
  cases st with
  | added =>
    obtain ⟨a1, a2, a3, a4, _⟩ := ha
    refine ⟨_, by rw [h1]; rfl, ?_⟩
    unfold CountTells answers
    simp only [SEvent.is, hc, isHit, isMiss, isUpdate, isCreation]
    exact ⟨a1, a2, a3, a4⟩
  | replaced o =>
    obtain ⟨rfl, _⟩ := ha
    refine ⟨_, by rw [h2]; rfl, ?_⟩
    unfold CountTells answers
    simp only [SEvent.is, hc, isHit, isMiss, isUpdate, isCreation]
    by_cases hv : v = o <;> simp [hv]
  | keyDoesNotExist => obtain ⟨_, e, he⟩ := ha; cases he
  | splitNeeded => exact absurd rfl hn
  | alreadyExists o =>
    rcases ha with ⟨he, _⟩ | ⟨_, e, he⟩ <;> cases he

theorem replace_step {c : Call} {v : Bytes} {e : Option Bytes} (hc : kvOf c = some (.replace v e)) {f : InsStatus → Prog Resp}
    (h1 : f .keyDoesNotExist = .ret (.replaceStatus .doesNotExist)) (h2 : ∀ o, f (.replaced o) = .ret (.replaceStatus (.prevValue o)))
    (h3 : ∀ o, f (.alreadyExists o) = .ret (.replaceStatus (.wrongValue o))) :
    ∀ st n, st ≠ .splitNeeded → Adds v (.replace e) st n → ∃ r, (f st).result = some r ∧ CountTells c r n := by
  intro st n hn ha
  cases st with
  | added => obtain ⟨_, _, _, _, h⟩ := ha; rcases h with h | h <;> cases h
  | replaced o =>
    obtain ⟨rfl, _⟩ := ha
    refine ⟨_, by rw [h2]; rfl, ?_⟩
    unfold CountTells answers
    simp only [SEvent.is, hc, isHit, isMiss, isUpdate, isCreation]
    by_cases hv : v = o <;> simp [hv]
  | keyDoesNotExist =>
    obtain ⟨rfl, _⟩ := ha
    refine ⟨_, by rw [h1]; rfl, ?_⟩
    unfold CountTells answers
    simp only [SEvent.is, hc, isHit, isMiss, isUpdate, isCreation]
    exact ⟨rfl, rfl, rfl, Nat.zero_le _⟩
  | splitNeeded => exact absurd rfl hn
  | alreadyExists o =>
    rcases ha with ⟨he, _⟩ | ⟨rfl, _⟩
    · cases he
    · refine ⟨_, by rw [h3]; rfl, ?_⟩
      unfold CountTells answers
      simp only [SEvent.is, hc, isHit, isMiss, isUpdate, isCreation]
      exact ⟨rfl, rfl, rfl, Nat.zero_le _⟩

theorem goc_step {c : Call} {v : Bytes} (hc : kvOf c = some (.getOrCreate v)) {f : InsStatus → Prog Resp}
    (h1 : f .added = .ret (.gocStatus (.createdNew v))) (h2 : ∀ o, f (.alreadyExists o) = .ret (.gocStatus (.existingValue o))) :
    ∀ st n, st ≠ .splitNeeded → Adds v .getOrCreate st n → ∃ r, (f st).result = some r ∧ CountTells c r n := by
  intro st n hn ha
  cases st with
  | added =>
    obtain ⟨a1, a2, a3, a4, _⟩ := ha
    refine ⟨_, by rw [h1]; rfl, ?_⟩
    unfold CountTells answers
    simp only [SEvent.is, hc, isHit, isMiss, isUpdate, isCreation]
    exact ⟨a1, a2, a3, a4⟩
  | replaced o => exact absurd rfl ha.2
  | keyDoesNotExist => obtain ⟨_, e, he⟩ := ha; cases he
  | splitNeeded => exact absurd rfl hn
  | alreadyExists o =>
    rcases ha with ⟨_, rfl⟩ | ⟨_, e, he⟩
    · refine ⟨_, by rw [h2]; rfl, ?_⟩
      unfold CountTells answers
      simp only [SEvent.is, hc, isHit, isMiss, isUpdate, isCreation]
      exact ⟨rfl, rfl, rfl, Nat.zero_le _⟩
    · cases he

/-- The checks of `ensure_sizes` come first. -/
theorem ensure_step {cfg : Cfg} {c : Call} {k v : Bytes} {t t' : Tree} {P : Unit → Prog Resp} {p' : Prog Resp} {m : Counters}
    (hP : CountStep cfg t (P ()) t' p' m → ∃ r, p'.result = some r ∧ CountTells c r m)
    (h : CountStep cfg t ((ensureSizes k v).bind P) t' p' m) : ∃ r, p'.result = some r ∧ CountTells c r m := by
  unfold ensureSizes at h
  split at h
  · cases h
  · split at h
    · cases h
    · exact hP h

/-- The key-value calls make one raw operation, and its increments are those the answer tells. -/
theorem kv_step {cfg : Cfg} {c : Call} {t t' : Tree} {p' : Prog Resp} {m : Counters} (hc : (kvOf c).isSome) (h : CountStep cfg t (c.prog cfg) t' p' m) :
    ∃ r, p'.result = some r ∧ CountTells c r m := by
  cases c with
  | list => cases hc
  | queue => cases hc
  | typed k op =>
    cases op with
    | get => exact get_step .val rfl (fun _ => rfl) (fun _ => rfl) (fun _ => rfl) (fun _ => rfl) h
    | contains => exact get_step (fun o => .flag o.isSome) rfl (fun _ => rfl) (fun _ => rfl) (fun o => by cases o <;> rfl) (fun _ => rfl) h
    | remove => exact rem_step .val rfl (fun _ => rfl) (fun _ => rfl) (fun _ => rfl) (fun _ => rfl) h
    | set v => exact ins_step (set_step rfl rfl (fun _ => rfl)) h
    | replace v e => exact ins_step (replace_step rfl rfl (fun _ => rfl) (fun _ => rfl)) h
    | getOrCreate v => exact ins_step (goc_step rfl rfl (fun _ => rfl)) h
  | kv k op =>
    cases op with
    | get => exact get_step .val rfl (fun _ => rfl) (fun _ => rfl) (fun _ => rfl) (fun _ => rfl) h
    | contains => exact get_step (fun o => .flag o.isSome) rfl (fun _ => rfl) (fun _ => rfl) (fun o => by cases o <;> rfl) (fun _ => rfl) h
    | remove => exact rem_step .val rfl (fun _ => rfl) (fun _ => rfl) (fun _ => rfl) (fun _ => rfl) h
    | set v =>
      have e : (Call.kv k (.set v)).prog cfg = (ensureSizes k v).bind (fun _ => (setRaw (userKey k) v).tag .setStatus) := by
        show ((ensureSizes k v).bind (fun _ => setRaw (userKey k) v)).tag .setStatus = _
        unfold ensureSizes
        split
        · rfl
        · split <;> rfl
      rw [e] at h
      exact ensure_step (fun h => ins_step (set_step rfl rfl (fun _ => rfl)) h) h
    | replace v e =>
      have e : (Call.kv k (.replace v e)).prog cfg = (ensureSizes k v).bind (fun _ => (replaceRaw (userKey k) v e).tag .replaceStatus) := by
        show ((ensureSizes k v).bind (fun _ => replaceRaw (userKey k) v e)).tag .replaceStatus = _
        unfold ensureSizes
        split
        · rfl
        · split <;> rfl
      rw [e] at h
      exact ensure_step (fun h => ins_step (replace_step rfl rfl (fun _ => rfl) (fun _ => rfl)) h) h
    | getOrCreate v =>
      have e : (Call.kv k (.getOrCreate v)).prog cfg = (ensureSizes k v).bind (fun _ => (gocRaw (userKey k) v).tag .gocStatus) := by
        show ((ensureSizes k v).bind (fun _ => gocRaw (userKey k) v)).tag .gocStatus = _
        unfold ensureSizes
        split
        · rfl
        · split <;> rfl
      rw [e] at h
      exact ensure_step (fun h => ins_step (goc_step rfl rfl (fun _ => rfl)) h) h

/-- A program of a key-value call that has a result before it begins has not been answered. -/
theorem kv_begin {cfg : Cfg} {c : Call} {r : Res Resp} (hc : (kvOf c).isSome) (h : (c.prog cfg).result = some r) (kind : KvOp → Resp → Bool) : answers kind c r = 0 := by
  have key : ∀ (k v : Bytes) (P : Unit → Prog Resp), (∀ r, (P ()).result ≠ some r) → ((ensureSizes k v).bind P).result = some r → ∃ e, r = .err e := by
    intro k v P hP h
    unfold ensureSizes at h
    split at h
    · exact ⟨_, (Option.some.inj h).symm⟩
    · split at h
      · exact ⟨_, (Option.some.inj h).symm⟩
      · exact absurd h (hP r)
  have fin : (∃ e, r = .err e) → answers kind c r = 0 := by rintro ⟨e, rfl⟩; rfl
  cases c with
  | list => cases hc
  | queue => cases hc
  | typed k op => cases op <;> cases h
  | kv k op =>
    cases op with
    | get => cases h
    | contains => cases h
    | remove => cases h
    | set v =>
      refine fin (key k v (fun _ => (setRaw (userKey k) v).tag .setStatus) (fun r h => by cases h) ?_)
      rw [← h]
      show _ = (((ensureSizes k v).bind (fun _ => setRaw (userKey k) v)).tag .setStatus).result
      unfold ensureSizes
      split
      · rfl
      · split <;> rfl
    | replace v e =>
      refine fin (key k v (fun _ => (replaceRaw (userKey k) v e).tag .replaceStatus) (fun r h => by cases h) ?_)
      rw [← h]
      show _ = (((ensureSizes k v).bind (fun _ => replaceRaw (userKey k) v e)).tag .replaceStatus).result
      unfold ensureSizes
      split
      · rfl
      · split <;> rfl
    | getOrCreate v =>
      refine fin (key k v (fun _ => (gocRaw (userKey k) v).tag .gocStatus) (fun r h => by cases h) ?_)
      rw [← h]
      show _ = (((ensureSizes k v).bind (fun _ => gocRaw (userKey k) v)).tag .gocStatus).result
      unfold ensureSizes
      split
      · rfl
      · split <;> rfl

/-- The key-value calls take no lock of the `keyed_locks` table. -/
theorem kv_onLock {cfg : Cfg} {c : Call} (hc : (kvOf c).isSome) : (c.prog cfg).onLock = false := by
  have key : ∀ (k v : Bytes) (P : Unit → Prog Resp), (P ()).onLock = false → ((ensureSizes k v).bind P).onLock = false := by
    intro k v P hP
    unfold ensureSizes
    split
    · rfl
    · split
      · rfl
      · exact hP
  cases c with
  | list => cases hc
  | queue => cases hc
  | typed k op => cases op <;> rfl
  | kv k op =>
    cases op with
    | get => rfl
    | contains => rfl
    | remove => rfl
    | set v =>
      rw [← key k v (fun _ => (setRaw (userKey k) v).tag .setStatus) rfl]
      show (((ensureSizes k v).bind (fun _ => setRaw (userKey k) v)).tag .setStatus).onLock = _
      unfold ensureSizes
      split
      · rfl
      · split <;> rfl
    | replace v e =>
      rw [← key k v (fun _ => (replaceRaw (userKey k) v e).tag .replaceStatus) rfl]
      show (((ensureSizes k v).bind (fun _ => replaceRaw (userKey k) v e)).tag .replaceStatus).onLock = _
      unfold ensureSizes
      split
      · rfl
      · split <;> rfl
    | getOrCreate v =>
      rw [← key k v (fun _ => (gocRaw (userKey k) v).tag .gocStatus) rfl]
      show (((ensureSizes k v).bind (fun _ => gocRaw (userKey k) v)).tag .gocStatus).onLock = _
      unfold ensureSizes
      split
      · rfl
      · split <;> rfl

theorem kv_nolock {cfg : Cfg} {c : Call} {l : Nat} {p : Prog Resp} (hc : (kvOf c).isSome) : c.prog cfg ≠ .lock l p := by
  intro e
  have := kv_onLock (cfg := cfg) hc
  rw [e] at this
  cases this

theorem kv_nounlock {cfg : Cfg} {c : Call} {p : Prog Resp} (hc : (kvOf c).isSome) : c.prog cfg ≠ .unlock p := by
  intro e
  have := kv_onLock (cfg := cfg) hc
  rw [e] at this
  cases this

end Candy
