import Verif.Proofs.Shape
import Verif.Spec.Parts
/-!
# Every call consists of atomic parts
-/
namespace Candy
open Spec

/-- Permitted remaining parts of a call with its answer. -/
abbrev Rest := List (Call × Res Resp) → Res Resp → Prop

/-- What remains of a program, in the middle of a part (with what remains of the program of the part) or between two parts, can be explained by parts. -/
def Plan (cfg : Cfg) (q : Bytes → Bool) : Prog Resp → Option (Call × Prog Resp) → Rest → Prop
  | .ret a, none, D => D [] (.ok a)
  | .err e, none, D => D [] (.err e)
  | .panic, none, D => D [] .panic
  | .exhausted, none, _ => True
  | .get k c, none, D => ∀ x, Shape cfg k x → Plan cfg q (c x) none D
  | .ins .., none, _ => False
  | .rem .., none, _ => False
  | .byHash ph suf c, none, D => ∀ m l, (Shape cfg).Of m → ByHash cfg m ph suf l → Plan cfg q (c l) none D ∨
      ∃ lk ik v b, q lk = true ∧ m (itemKey (cfg.listPh lk) ik) = some (v ++ b) ∧ b.length = 8 ∧
        (∃ rest r, D ((.list lk (.get ik), .ok (.val (some v))) :: rest) r) ∧
        Plan cfg q (c l) none (fun ps r => D ((.list lk (.get ik), .ok (.val (some v))) :: ps) r)
  | .lock l p, none, D => Plan cfg q p none D ∨
      ∃ c' p', c'.prog cfg = .lock l p' ∧ (∃ r' rest r, D ((c', r') :: rest) r) ∧ Plan cfg q p (some (c', p')) D
  | .unlock p, none, D => Plan cfg q p none D
  | .ret a, some (c', p'), D => p' = .ret a ∧ D [(c', .ok a)] (.ok a)
  | .err e, some (c', p'), D => p' = .err e ∧ D [(c', .err e)] (.err e)
  | .panic, some (c', p'), D => p' = .panic ∧ D [(c', .panic)] .panic
  | .exhausted, some (_, _), _ => True
  | .get k c, some (c', p'), D => ∃ cx, p' = .get k cx ∧ ∀ x, Shape cfg k x → Plan cfg q (c x) (some (c', cx x)) D
  | .ins k v mode c, some (c', p'), D => ∃ cx, p' = .ins k v mode cx ∧ (∀ e, D [(c', .err e)] (.err e)) ∧
      ∀ x, Shape cfg k x → Plan cfg q (c (insertAt x v mode).2) (some (c', cx (insertAt x v mode).2)) D
  | .rem k c, some (c', p'), D => ∃ cx, p' = .rem k cx ∧ ∀ x, Shape cfg k x → Plan cfg q (c x) (some (c', cx x)) D
  | .byHash ph suf c, some (c', p'), D => ∃ cx, p' = .byHash ph suf cx ∧ ∀ m l, (Shape cfg).Of m → ByHash cfg m ph suf l → Plan cfg q (c l) (some (c', cx l)) D
  | .lock l p, some (c', p'), D => ∃ px, p' = .lock l px ∧ Plan cfg q p (some (c', px)) D
  | .unlock p, some (c', p'), D => ∃ x r, p' = .unlock x ∧ x.result = some r ∧ r ≠ .exhausted ∧ Plan cfg q p none (fun ps r' => D ((c', r) :: ps) r')

section
variable {cfg : Cfg} {q : Bytes → Bool} {D : Rest} {c' : Call}

/-- A critical section and the call of the public API with the same critical section. -/
theorem plan_sec {P : Bytes → Prop} {α : Type} {Q : α → Prop} {f g : α → Prog Resp} {body : Prog α} (hl : body.Local P anyRes) (ht : body.Types cfg (Shape cfg) True Q)
    (he : ∀ e, D [(c', .err e)] (.err e)) (hp : D [(c', .panic)] .panic)
    (hf : ∀ a, Q a → ∃ r, (g a).result = some r ∧ r ≠ .exhausted ∧ Plan cfg q (f a) none (fun ps r' => D ((c', r) :: ps) r')) :
    Plan cfg q (body.bind (fun a => .unlock (f a))) (some (c', body.bind (fun a => .unlock (g a)))) D := by
  induction body with
  | ret a =>
    obtain ⟨r, h1, h2, h3⟩ := hf a ht
    exact ⟨_, r, rfl, h1, h2, h3⟩
  | err e => exact ⟨rfl, he e⟩
  | panic => exact ⟨rfl, hp⟩
  | exhausted => trivial
  | get k c ih => exact ⟨_, rfl, fun x hx => ih x (hl.2 x) (ht x hx)⟩
  | ins k v mode c ih => exact ⟨_, rfl, he, fun x hx => ih _ (hl.2 _) (ht x hx).2⟩
  | rem k c ih => exact ⟨_, rfl, fun x hx => ih x (hl.2 x) (ht.2 x hx)⟩
  | byHash ph suf c ih => exact ⟨_, rfl, fun m l hm hb => ih l (hl.2 l hb.suffix) (ht m l hm hb)⟩
  | lock => exact hl.elim
  | unlock => exact hl.elim

theorem withLock_bind {α β : Type} (l : Nat) (body : Prog α) (f : α → Prog β) : (Prog.withLock l body).bind f = .lock l (body.bind (fun a => .unlock (f a))) := by
  show Prog.lock l ((body.bind (fun a => Prog.unlock (.ret a))).bind f) = _
  rw [Prog.bind_assoc]
  rfl

/-- A call continues with a part. -/
theorem plan_part {P : Bytes → Prop} {α : Type} {Q : α → Prop} {f g : α → Prog Resp} {body : Prog α} {l : Nat} (hc : c'.prog cfg = (Prog.withLock l body).bind g)
    (hl : body.Local P anyRes) (ht : body.Types cfg (Shape cfg) True Q)
    (he : ∀ e, D [(c', .err e)] (.err e)) (hp : D [(c', .panic)] .panic)
    (hf : ∀ a, Q a → ∃ r, (g a).result = some r ∧ r ≠ .exhausted ∧ Plan cfg q (f a) none (fun ps r' => D ((c', r) :: ps) r')) :
    Plan cfg q ((Prog.withLock l body).bind f) none D := by
  rw [withLock_bind]
  rw [withLock_bind] at hc
  exact .inr ⟨c', _, hc, ⟨_, _, _, hp⟩, plan_sec hl ht he hp hf⟩

/-- Reading the record of a list or queue is no part. -/
theorem plan_peekRecord {k : Bytes} {l : Nat} {f : Option Bytes → Prog Resp} (hf : ∀ x, Shape cfg k x → Plan cfg q (f x) none D) :
    Plan cfg q ((Prog.withLock l (Prog.getRaw k)).bind f) none D := by
  rw [withLock_bind]
  exact .inl (fun x hx => hf x hx)

theorem inSec_self {P : Bytes → Prop} {p : Prog Resp} (h : p.InSec P) (hD : ∀ r, D [(c', r)] r) : Plan cfg q p (some (c', p)) D := by
  induction p with
  | ret a => exact ⟨rfl, hD _⟩
  | err e => exact ⟨rfl, hD _⟩
  | panic => exact ⟨rfl, hD _⟩
  | exhausted => trivial
  | get k c ih => exact ⟨_, rfl, fun x _ => ih x (h.2 x)⟩
  | ins k v mode c ih => exact ⟨_, rfl, fun _ => hD _, fun x _ => ih _ (h.2 _)⟩
  | rem k c ih => exact ⟨_, rfl, fun x _ => ih x (h.2 x)⟩
  | byHash ph suf c ih => exact ⟨_, rfl, fun m l _ hb => ih l (h.2 l hb.suffix)⟩
  | lock => exact h.elim
  | unlock p _ =>
    obtain ⟨r, h1, h2⟩ := h
    refine ⟨_, r, rfl, h1, h2, ?_⟩
    cases p <;> simp only [Prog.result, Option.some.injEq, reduceCtorEq] at h1 <;> subst h1
    · exact hD _
    · exact hD _
    · exact hD _
    · trivial

theorem result_self {p : Prog Resp} {r : Res Resp} (h : p.result = some r) (hD : ∀ r, D [(c', r)] r) : Plan cfg q p (some (c', p)) D := by
  cases p <;> simp only [Prog.result, Option.some.injEq, reduceCtorEq] at h
  · exact ⟨rfl, hD _⟩
  · exact ⟨rfl, hD _⟩
  · exact ⟨rfl, hD _⟩
  · trivial

theorem oneOp_self {P : Bytes → Prop} {p : Prog Resp} (h : p.OneOp P) (hD : ∀ r, D [(c', r)] r) : Plan cfg q p (some (c', p)) D := by
  cases p with
  | ret a => exact ⟨rfl, hD _⟩
  | err e => exact ⟨rfl, hD _⟩
  | panic => exact ⟨rfl, hD _⟩
  | exhausted => trivial
  | get k c => exact ⟨_, rfl, fun x _ => let ⟨_, hr, _⟩ := h.2 x; result_self hr hD⟩
  | ins k v mode c => exact ⟨_, rfl, fun _ => hD _, fun x _ => let ⟨_, hr, _⟩ := h.2 _; result_self hr hD⟩
  | rem k c => exact ⟨_, rfl, fun x _ => let ⟨_, hr, _⟩ := h.2 x; result_self hr hD⟩
  | byHash => exact h.elim
  | lock => exact h.elim
  | unlock => exact h.elim

/-- An atomic call is its own only part. -/
theorem plan_atomic {c : Call} (h : c.atomic = true) (hD : ∀ r, D [(c, r)] r) : Plan cfg q (c.prog cfg) (some (c, c.prog cfg)) D := by
  rcases atomic_shape cfg c h with ⟨_, h1⟩ | ⟨_, p, hp, h1⟩
  · exact oneOp_self h1 hD
  · rw [hp]; exact ⟨_, rfl, inSec_self h1 hD⟩

theorem plan_get {lk ik : Bytes} (hD : ∀ r, D [(.list lk (.get ik), r)] r) :
    Plan cfg q ((Call.list lk (.get ik)).prog cfg) (some (.list lk (.get ik), (Call.list lk (.get ik)).prog cfg)) D := by
  refine ⟨_, rfl, fun x _ => ?_⟩
  cases x with
  | none => exact ⟨rfl, hD _⟩
  | some b =>
    by_cases hb : b.length < 8
    · refine result_self (r := .panic) ?_ hD
      show (((splitVal b).bind (fun x => .ret (some x.1))).bind (fun a => .ret (Resp.val a))).result = _
      unfold splitVal
      rw [if_pos hb]; rfl
    · refine result_self (r := .ok (.val (some (b.take (b.length - 8))))) ?_ hD
      show (((splitVal b).bind (fun x => .ret (some x.1))).bind (fun a => .ret (Resp.val a))).result = _
      unfold splitVal
      rw [if_neg hb]; rfl

theorem getAtIndexT_bind {lph : PH} {i : Nat} {f : Option KV → Prog Resp} : (getAtIndexT lph i).bind f = .get (chainKey lph i) (fun x => match x with
    | none => f none
    | some b => if b.length ≠ 8 then .panic else .byHash (BitVec.ofNat 64 (dec64 b)) (itemSuffix lph) (fun l => match l.find? (fun kv => endsWith kv.2 (enc64 i)) with
      | none => f none
      | some kv => f (some (kv.1.take (kv.1.length - 9), kv.2.take (kv.2.length - 8))))) := by
  refine congrArg (Prog.get _) (funext fun x => ?_)
  cases x with
  | none => rfl
  | some b =>
    show (((if b.length ≠ 8 then Prog.panic else _ : Prog _).bind _).bind f) = _
    by_cases hb : b.length ≠ 8
    · dsimp only
      rw [if_pos hb, if_pos hb]; rfl
    · dsimp only
      rw [if_neg hb, if_neg hb]
      refine congrArg (Prog.byHash _ _) (funext fun l => ?_)
      dsimp only
      cases l.find? (fun kv => endsWith kv.2 (enc64 i)) <;> rfl

theorem Plan.mono {p : Prog Resp} {x : Option (Call × Prog Resp)} {D' : Rest} (h : Plan cfg q p x D) (hD : ∀ ps r, D ps r → D' ps r) : Plan cfg q p x D' := by
  induction p generalizing x D D' with
  | ret a => cases x with
    | none => exact hD _ _ h
    | some x => exact ⟨h.1, hD _ _ h.2⟩
  | err a => cases x with
    | none => exact hD _ _ h
    | some x => exact ⟨h.1, hD _ _ h.2⟩
  | panic => cases x with
    | none => exact hD _ _ h
    | some x => exact ⟨h.1, hD _ _ h.2⟩
  | exhausted => cases x <;> trivial
  | get k c ih => cases x with
    | none => exact fun x hx => ih x (h x hx) hD
    | some x =>
      obtain ⟨cx, h1, h2⟩ := h
      exact ⟨cx, h1, fun x hx => ih x (h2 x hx) hD⟩
  | ins k v mode c ih => cases x with
    | none => exact h.elim
    | some x =>
      obtain ⟨cx, h1, h2, h3⟩ := h
      exact ⟨cx, h1, fun e => hD _ _ (h2 e), fun x hx => ih _ (h3 x hx) hD⟩
  | rem k c ih => cases x with
    | none => exact h.elim
    | some x =>
      obtain ⟨cx, h1, h2⟩ := h
      exact ⟨cx, h1, fun x hx => ih x (h2 x hx) hD⟩
  | byHash ph suf c ih => cases x with
    | none =>
      intro m l hm hb
      rcases h m l hm hb with h | ⟨lk, ik, v, b, h1, h2, h3, ⟨rest, r, h4⟩, h5⟩
      · exact .inl (ih l h hD)
      · exact .inr ⟨lk, ik, v, b, h1, h2, h3, ⟨rest, r, hD _ _ h4⟩, ih l h5 (fun ps r hh => hD _ _ hh)⟩
    | some x =>
      obtain ⟨cx, h1, h2⟩ := h
      exact ⟨cx, h1, fun m l hm hb => ih l (h2 m l hm hb) hD⟩
  | lock l p ih => cases x with
    | none =>
      rcases h with h | ⟨c', p', h1, ⟨r', rest, r, h2⟩, h3⟩
      · exact .inl (ih h hD)
      · exact .inr ⟨c', p', h1, ⟨r', rest, r, hD _ _ h2⟩, ih h3 hD⟩
    | some x =>
      obtain ⟨px, h1, h2⟩ := h
      exact ⟨px, h1, ih h2 hD⟩
  | unlock p ih => cases x with
    | none => exact ih h hD
    | some x =>
      obtain ⟨y, r, h1, h2, h3, h4⟩ := h
      exact ⟨y, r, h1, h2, h3, ih h4 (fun ps r hh => hD _ _ hh)⟩

/-- Reading an item at an index. -/
theorem plan_atIndex {lk : Bytes} {i : Nat} {f : Option KV → Prog Resp} (h0 : Plan cfg q (f none) none D)
    (h1 : ∀ kv, (∃ rest r, D (looked q lk kv ++ rest) r) ∧ Plan cfg q (f (some kv)) none (fun ps r => D (looked q lk kv ++ ps) r)) :
    Plan cfg q ((getAtIndexT (cfg.listPh lk) i).bind f) none D := by
  rw [getAtIndexT_bind]
  intro x hx
  cases x with
  | none => exact h0
  | some b =>
    obtain ⟨k', rfl⟩ := shape_chain.1 hx
    dsimp only
    rw [if_neg (by simp), phOf_enc]
    intro m l hm hb
    dsimp only
    cases hf : l.find? (fun kv => endsWith kv.2 (enc64 i)) with
    | none => exact .inl h0
    | some kv =>
      obtain ⟨ik, hik⟩ := endsWith_item.1 (hb.suffix kv (List.mem_of_find?_eq_some hf))
      have hend := List.find?_some hf
      obtain ⟨u, hu⟩ := endsWith_iff.1 hend
      have hmem := hb.sound (cfg.ph_sig_ne k') kv (List.mem_of_find?_eq_some hf)
      obtain ⟨kk, vv⟩ := kv
      dsimp only at hik hu hmem
      subst hik hu
      have ek : (itemKey (cfg.listPh lk) ik).take ((itemKey (cfg.listPh lk) ik).length - 9) = ik := by
        have : (itemSuffix (cfg.listPh lk)).length = 9 := by simp [itemSuffix, ITEM_NS]
        simp [itemKey, this]
      have ev : (u ++ enc64 i).take ((u ++ enc64 i).length - 8) = u := by simp
      dsimp only
      rw [ek, ev]
      obtain ⟨h2, h3⟩ := h1 (ik, u)
      by_cases hq : q lk = true
      · have el : looked q lk (ik, u) = [(.list lk (.get ik), .ok (.val (some u)))] := by simp [looked, hq]
        rw [el] at h2 h3
        simp only [List.singleton_append] at h2 h3
        exact .inr ⟨lk, ik, u, enc64 i, hq, hmem, by simp, h2, h3⟩
      · have el : looked q lk (ik, u) = [] := by simp [looked, hq]
        rw [el] at h3
        simp only [List.nil_append] at h3
        exact .inl h3

/-! ### The calls that are not atomic -/

/-- Removing an item is a part of promoting and popping. -/
theorem plan_remove {lk ik : Bytes} {f : Option Bytes → Prog Resp} (hfail : ∀ r : Res Resp, r.Failed → D [(.list lk (.remove ik), r)] r)
    (hf : ∀ a, Plan cfg q (f a) none (fun ps r' => D ((.list lk (.remove ik), .ok (.val a)) :: ps) r')) :
    Plan cfg q ((removeFromList cfg lk ik).bind f) none D := by
  have ht : (removeFromListBody cfg lk ik).Types cfg (Shape cfg) True anyRes := types_removeFromListBody trivial
  refine plan_part (c' := .list lk (.remove ik)) (g := fun a => .ret (.val a)) rfl local_removeFromListBody ht (fun _ => hfail _ trivial) (hfail _ trivial) (fun a _ => ?_)
  exact ⟨_, rfl, by simp, hf a⟩

theorem plan_promoting {lk ik v : Bytes} : Plan cfg q ((Call.list lk (.setPromoting ik v)).prog cfg) none (Does q (.list lk (.setPromoting ik v))) := by
  show Plan cfg q (((removeFromList cfg lk ik).bind _).bind _) none _
  rw [Prog.bind_assoc]
  refine plan_remove (fun r hr => .inr ⟨hr, rfl⟩) (fun a => ?_)
  show Plan cfg q (((insertToList cfg lk ik v .set).bind _).bind _) none _
  rw [Prog.bind_assoc]
  have ht : (insertToListBody cfg lk ik v .set).Types cfg (Shape cfg) True (insFits .set) := types_insertToListBody
  refine plan_part (c' := .list lk (.set ik v)) (Q := insFits .set) (g := fun a => Prog.bind (match a with
      | .created _ => return .createdNew
      | .replaced v => return .prevValue v
      | _ => .panic) (fun a => .ret (.setStatus a))) ?_ local_insertToListBody ht (fun e => .inl ⟨_, rfl⟩) (.inl ⟨_, rfl⟩) (fun a ha => ?_)
  · show ((insertToList cfg lk ik v .set).bind _).bind _ = _
    rw [Prog.bind_assoc]
    rfl
  · cases a with
    | created u => exact ⟨_, rfl, by simp, .inl ⟨_, rfl⟩⟩
    | replaced u => exact ⟨_, rfl, by simp, .inl ⟨_, rfl⟩⟩
    | doesNotExist => exact ha.elim
    | wrongValue => exact ha.elim
    | existingValue => exact ha.elim

theorem plan_listRange {lk : Bytes} {f : Option (Nat × Nat) → Prog Resp} (hf : ∀ o, Plan cfg q (f o) none D) : Plan cfg q ((listRange cfg lk).bind f) none D := by
  unfold listRange
  show Plan cfg q (((Prog.withLock _ _).bind _).bind _) none _
  rw [Prog.bind_assoc]
  refine plan_peekRecord (fun x hx => ?_)
  cases x with
  | none => exact hf none
  | some b =>
    have : decMeta b = _ := if_pos (shape_list.1 hx)
    dsimp only
    rw [this]
    exact hf _

theorem pops_inhabited (lk : Bytes) (kv : KV) : ∃ rest r, Pops q lk (looked q lk kv ++ rest) r := ⟨_, _, .got kv []⟩

theorem plan_popIdx {lk : Bytes} : ∀ is, Plan cfg q ((popIdx cfg lk is).bind (fun a => .ret (.item a))) none (Pops q lk)
  | [] => .nothing
  | i :: is => by
    show Plan cfg q (((getAtIndexT (cfg.listPh lk) i).bind _).bind _) none _
    rw [Prog.bind_assoc]
    refine plan_atIndex (plan_popIdx is) (fun kv => ⟨pops_inhabited lk kv, ?_⟩)
    show Plan cfg q (((removeFromList cfg lk kv.1).bind _).bind _) none _
    rw [Prog.bind_assoc]
    refine plan_remove (fun r hr => .failed kv hr) (fun a => ?_)
    cases a with
    | some u => exact .got kv u
    | none => exact (plan_popIdx is).mono (fun ps r h => .lost kv h)

theorem plan_pop {lk : Bytes} {fwd : Bool} : Plan cfg q ((Call.list lk (.pop fwd)).prog cfg) none (Does q (.list lk (.pop fwd))) := by
  show Plan cfg q (((listRange cfg lk).bind _).bind _) none _
  rw [Prog.bind_assoc]
  refine plan_listRange (fun o => ?_)
  cases o with
  | none => exact Pops.nothing
  | some x => exact plan_popIdx _

theorem plan_collectIdx {lk : Bytes} : ∀ is (acc : List KV), Plan cfg q ((collectIdx (cfg.listPh lk) is).bind (fun l => .ret (.items (acc ++ l)))) none
    (fun ps r => ∃ l, r = .ok (.items (acc ++ l)) ∧ ps = l.flatMap (looked q lk))
  | [], acc => ⟨[], rfl, rfl⟩
  | i :: is, acc => by
    show Plan cfg q (((getAtIndexT (cfg.listPh lk) i).bind _).bind _) none _
    rw [Prog.bind_assoc]
    refine plan_atIndex (plan_collectIdx is acc) (fun kv => ⟨⟨[], _, [kv], rfl, by simp⟩, ?_⟩)
    show Plan cfg q (((collectIdx (cfg.listPh lk) is).bind _).bind _) none _
    rw [Prog.bind_assoc]
    have := plan_collectIdx (lk := lk) is (acc ++ [kv])
    simp only [List.append_assoc, List.singleton_append] at this
    refine this.mono ?_
    rintro ps r ⟨l, rfl, rfl⟩
    exact ⟨kv :: l, rfl, by simp⟩

theorem plan_iter {lk : Bytes} {fwd : Bool} : Plan cfg q ((Call.list lk (.iter fwd)).prog cfg) none (Does q (.list lk (.iter fwd))) := by
  show Plan cfg q (((listRange cfg lk).bind _).bind _) none _
  rw [Prog.bind_assoc]
  refine plan_listRange (fun o => ?_)
  cases o with
  | none => exact ⟨[], rfl, rfl⟩
  | some x => exact plan_collectIdx _ []

theorem plan_firstIdx {lk : Bytes} : ∀ is, Plan cfg q ((firstIdx (cfg.listPh lk) is).bind (fun a => .ret (.item a))) none
    (fun ps r => ∃ o : Option KV, r = .ok (.item o) ∧ ps = o.toList.flatMap (looked q lk))
  | [] => ⟨none, rfl, rfl⟩
  | i :: is => by
    show Plan cfg q (((getAtIndexT (cfg.listPh lk) i).bind _).bind _) none _
    rw [Prog.bind_assoc]
    exact plan_atIndex (plan_firstIdx is) (fun kv => ⟨⟨[], _, some kv, rfl, by simp⟩, some kv, rfl, by simp⟩)

theorem plan_peek {lk : Bytes} {fwd : Bool} : Plan cfg q ((Call.list lk (.peek fwd)).prog cfg) none (Does q (.list lk (.peek fwd))) := by
  show Plan cfg q (((listRange cfg lk).bind _).bind _) none _
  rw [Prog.bind_assoc]
  refine plan_listRange (fun o => ?_)
  cases o with
  | none => exact ⟨none, rfl, rfl⟩
  | some x => exact plan_firstIdx _

theorem plan_getUnseen {lk ik : Bytes} (h : ¬ q lk = true) : Plan cfg q ((Call.list lk (.get ik)).prog cfg) none (Does q (.list lk (.get ik))) := by
  intro x hx
  cases x with
  | none =>
    show Does q _ [] _
    simp only [Does, if_neg h]; exact ⟨trivial, _, rfl⟩
  | some b =>
    show Plan cfg q (((splitVal b).bind (fun x => .ret (some x.1))).bind (fun a => .ret (Resp.val a))) none _
    have : splitVal b = _ := if_neg (Nat.not_lt.2 (shape_item.1 hx))
    rw [this]
    show Does q _ [] _
    simp only [Does, if_neg h]; exact ⟨trivial, _, rfl⟩

theorem plan_len {lk : Bytes} : Plan cfg q ((Call.list lk .len).prog cfg) none (Does q (.list lk .len)) := by
  intro x hx
  cases x with
  | none => exact ⟨rfl, _, rfl⟩
  | some b =>
    show Plan cfg q (((decMeta b).bind (fun l => .ret l.num)).bind (fun a => .ret (Resp.num a))) none _
    have : decMeta b = _ := if_pos (shape_list.1 hx)
    rw [this]
    exact ⟨rfl, _, rfl⟩

/-! ### Queues -/

def qRangeOf : Option Meta → Nat × Nat
  | none => (FIRST_IDX, FIRST_IDX)
  | some x => (x.head, x.tail)

theorem plan_fetch {qk : Bytes} {f : Option Meta → Prog Resp} (hD : ∀ o, ∃ rest r, D ((.queue qk .range, .ok (.range (qRangeOf o))) :: rest) r)
    (hf : ∀ o, Plan cfg q (f o) none (fun ps r => D ((.queue qk .range, .ok (.range (qRangeOf o))) :: ps) r)) : Plan cfg q ((fetchQueue cfg qk).bind f) none D := by
  have hc : (Call.queue qk .range).prog cfg = ((fetchQueue cfg qk).bind (fun o => match o with
      | none => .ret (FIRST_IDX, FIRST_IDX)
      | some x => .ret (x.head, x.tail))).bind (fun a => .ret (.range a)) := rfl
  rw [Prog.bind_assoc] at hc
  have e : ∀ g : Option Meta → Prog Resp, (fetchQueue cfg qk).bind g = .lock (cfg.queueLock qk) (.get (queueKey qk) (fun o => .unlock (Prog.bind (match o with
      | none => .ret none
      | some b => (decMeta b).bind (fun x => .ret (some x))) g))) := by
    intro g
    show ((Prog.withLock _ _).bind _).bind g = _
    rw [Prog.bind_assoc, withLock_bind]
    rfl
  rw [e] at hc ⊢
  obtain ⟨rest, r, h0⟩ := hD none
  refine .inr ⟨_, _, hc, ⟨_, rest, r, h0⟩, _, rfl, fun x hx => ?_⟩
  cases x with
  | none => exact ⟨_, .ok (.range (qRangeOf none)), rfl, rfl, by simp, hf none⟩
  | some b =>
    have hb : decMeta b = _ := if_pos (shape_queue.1 hx)
    dsimp only
    rw [hb]
    exact ⟨_, .ok (.range (qRangeOf (some _))), rfl, rfl, by simp, hf (some _)⟩

theorem found_of_sublist {fwd : Bool} {h t : Nat} {l : List (Nat × Bytes)} (hs : (l.map Prod.fst).Sublist (idxs fwd h t)) : Found fwd h t l := by
  refine ⟨fun e he => mem_idxs.1 (hs.subset (List.mem_map_of_mem he)), ?_⟩
  have hp : (idxs fwd h t).Pairwise (fun a b => if fwd then a < b else b < a) := by
    unfold idxs
    cases fwd with
    | true => simp only [if_true]; exact List.pairwise_lt_range'
    | false =>
      simp only [Bool.false_eq_true, if_false]
      rw [List.pairwise_reverse]
      exact List.pairwise_lt_range'
  exact (List.pairwise_map.1 (hp.sublist hs))

theorem plan_collectQ {qk : Bytes} : ∀ is (acc : List (Nat × Bytes)) {k : List (Nat × Bytes) → Prog Resp} {D : Rest},
    (∀ l, (l.map Prod.fst).Sublist is → Plan cfg q (k (acc ++ l)) none D) → Plan cfg q ((collectQ qk is).bind (fun l => k (acc ++ l))) none D
  | [], acc, k, D, h => h [] (List.Sublist.slnil)
  | i :: is, acc, k, D, h => by
    intro x _
    cases x with
    | none => exact plan_collectQ is acc (fun l hl => h l (hl.cons i))
    | some v =>
      show Plan cfg q (((collectQ qk is).bind _).bind _) none _
      rw [Prog.bind_assoc]
      have := plan_collectQ (qk := qk) is (acc ++ [(i, v)]) (k := k) (D := D) (fun l hl => by
        rw [List.append_assoc]; exact h ((i, v) :: l) (hl.cons_cons i))
      simp only [List.append_assoc, List.singleton_append] at this
      exact this

theorem found_nil {fwd : Bool} {h t : Nat} : Found fwd h t [] := ⟨(fun e he => by cases he), List.Pairwise.nil⟩

theorem plan_iterQ {qk : Bytes} {fwd : Bool} : Plan cfg q ((Call.queue qk (.iter fwd)).prog cfg) none (Does q (.queue qk (.iter fwd))) := by
  show Plan cfg q (((fetchQueue cfg qk).bind _).bind _) none _
  rw [Prog.bind_assoc]
  refine plan_fetch (fun o => ⟨[], _, _, _, [], rfl, found_nil, rfl⟩) (fun o => ?_)
  cases o with
  | none => exact ⟨_, _, [], rfl, found_nil, rfl⟩
  | some x => exact plan_collectQ _ [] (k := fun l => .ret (.elems l)) (fun l hl => ⟨_, _, l, rfl, found_of_sublist hl, rfl⟩)

theorem plan_getBig {qk : Bytes} : Plan cfg q ((Call.queue qk .getBig).prog cfg) none (Does q (.queue qk .getBig)) := by
  show Plan cfg q (((((fetchQueue cfg qk).bind _)).bind _).bind _) none _
  rw [Prog.bind_assoc, Prog.bind_assoc]
  refine plan_fetch (fun o => ⟨[], _, _, _, [], rfl, found_nil, rfl⟩) (fun o => ?_)
  have fin : ∀ l : List (Nat × Bytes), Prog.bind (if l = [] then pure none else pure (some (l.map Prod.snd).flatten)) (fun a => Prog.ret (Resp.val a)) =
      .ret (.val (if l = [] then none else some (l.map Prod.snd).flatten)) := by
    intro l; split <;> rfl
  cases o with
  | none => exact ⟨_, _, [], rfl, found_nil, rfl⟩
  | some x =>
    refine plan_collectQ _ [] (k := fun l => Prog.bind (if l = [] then pure none else pure (some (l.map Prod.snd).flatten)) (fun a => Prog.ret (Resp.val a))) (fun l hl => ?_)
    rw [fin]
    exact ⟨_, _, l, rfl, found_of_sublist hl, rfl⟩

theorem plan_firstQ {qk : Bytes} : ∀ is {k : Option (Nat × Bytes) → Prog Resp} {D : Rest},
    (∀ o : Option (Nat × Bytes), (o.toList.map Prod.fst).Sublist is → Plan cfg q (k o) none D) → Plan cfg q ((firstQ qk is).bind k) none D
  | [], k, D, h => h none (List.Sublist.slnil)
  | i :: is, k, D, h => by
    intro x _
    cases x with
    | none => exact plan_firstQ is (fun o ho => h o (ho.cons i))
    | some v => exact h (some (i, v)) ((List.nil_sublist is).cons_cons i)

theorem plan_peekQ {qk : Bytes} {fwd : Bool} : Plan cfg q ((Call.queue qk (.peek fwd)).prog cfg) none (Does q (.queue qk (.peek fwd))) := by
  show Plan cfg q (((fetchQueue cfg qk).bind _).bind _) none _
  rw [Prog.bind_assoc]
  refine plan_fetch (fun o => ⟨[], _, _, _, none, rfl, found_nil, rfl⟩) (fun o => ?_)
  cases o with
  | none => exact ⟨_, _, none, rfl, found_nil, rfl⟩
  | some x => exact plan_firstQ _ (fun o ho => ⟨_, _, o, rfl, found_of_sublist ho, rfl⟩)

theorem plan_setBig {qk v : Bytes} : Plan cfg q ((Call.queue qk (.setBig v)).prog cfg) none (Does q (.queue qk (.setBig v))) := by
  show Plan cfg q (((discardQueue cfg qk).bind _).bind _) none _
  rw [Prog.bind_assoc]
  have ht : (discardQueueBody qk).Types cfg (Shape cfg) True anyRes := types_discardQueueBody
  refine plan_part (c' := .queue qk .discard) (g := fun a => .ret (.flag a)) rfl local_discardQueueBody ht (fun _ => .inr (.inr ⟨trivial, rfl⟩)) (.inr (.inr ⟨trivial, rfl⟩)) (fun b _ => ?_)
  refine ⟨_, rfl, by simp, ?_⟩
  show Plan cfg q (((extendQueue cfg qk (chunks MAX_VALUE_SIZE v)).bind _).bind _) none _
  rw [Prog.bind_assoc]
  have ht : (extendQueueBody qk (chunks MAX_VALUE_SIZE v)).Types cfg (Shape cfg) True anyRes := types_extendQueueBody
  refine plan_part (c' := .queue qk (.extend (chunks MAX_VALUE_SIZE v))) (g := fun a => .ret (.range a)) rfl local_extendQueueBody ht
    (fun _ => .inr (.inl ⟨trivial, b, rfl⟩)) (.inr (.inl ⟨trivial, b, rfl⟩)) (fun a _ => ?_)
  exact ⟨_, rfl, by simp, .inl ⟨b, _, rfl, rfl⟩⟩

/-- Every call consists of parts. -/
theorem plan_call (c : Call) : Plan cfg q (c.prog cfg) none (Does q c) ∨ (Plan cfg q (c.prog cfg) (some (c, c.prog cfg)) (Does q c) ∧ MayDo q c [] c) := by
  have self : (∀ ps r, Does q c ps r = (ps = [(c, r)])) → c.atomic = true → Plan cfg q (c.prog cfg) none (Does q c) ∨ (Plan cfg q (c.prog cfg) (some (c, c.prog cfg)) (Does q c) ∧ MayDo q c [] c) :=
    fun h ha => .inr ⟨plan_atomic ha (fun r => by rw [h]), .panic, [], .panic, by rw [h]; rfl⟩
  cases c with
  | kv k op => exact self (fun _ _ => rfl) rfl
  | typed k op => exact self (fun _ _ => rfl) rfl
  | list lk op =>
    cases op with
    | set => exact self (fun _ _ => rfl) rfl
    | replace => exact self (fun _ _ => rfl) rfl
    | getOrCreate => exact self (fun _ _ => rfl) rfl
    | remove => exact self (fun _ _ => rfl) rfl
    | compact => exact self (fun _ _ => rfl) rfl
    | discard => exact self (fun _ _ => rfl) rfl
    | setPromoting => exact .inl plan_promoting
    | get ik =>
      by_cases h : q lk = true
      · have hD : ∀ r, Does q (.list lk (.get ik)) [(.list lk (.get ik), r)] r := fun r => by simp only [Does, if_pos h]
        exact .inr ⟨plan_get hD, .panic, [], .panic, hD _⟩
      · exact .inl (plan_getUnseen h)
    | iter => exact .inl plan_iter
    | peek => exact .inl plan_peek
    | pop => exact .inl plan_pop
    | len => exact .inl plan_len
  | queue qk op =>
    cases op with
    | push => exact self (fun _ _ => rfl) rfl
    | pop => exact self (fun _ _ => rfl) rfl
    | remove => exact self (fun _ _ => rfl) rfl
    | discard => exact self (fun _ _ => rfl) rfl
    | extend => exact self (fun _ _ => rfl) rfl
    | len => exact self (fun _ _ => rfl) rfl
    | range => exact self (fun _ _ => rfl) rfl
    | removeBig => exact self (fun _ _ => rfl) rfl
    | iter => exact .inl plan_iterQ
    | peek => exact .inl plan_peekQ
    | getBig => exact .inl plan_getBig
    | setBig => exact .inl plan_setBig

end
end Candy
