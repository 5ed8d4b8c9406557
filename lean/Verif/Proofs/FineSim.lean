import Verif.Proofs.FineBal
/-!
# Fine-grained executions are executions on the abstract map
-/
namespace Candy
open Spec

theorem AConcRun.append {cfg : Cfg} {A B C : AState} {tr tr' : List CEvent} (h : AConcRun cfg A tr B) (h' : AConcRun cfg B tr' C) :
    AConcRun cfg A (tr ++ tr') C := by
  induction h with
  | nil s => exact h'
  | inv i c h _ ih => exact .inv i c h (ih h')
  | raw h hl hst _ ih => exact .raw h hl hst (ih h')
  | lock h hf _ ih => exact .lock h hf (ih h')
  | unlock h _ ih => exact .unlock h (ih h')
  | ret h hr hne _ ih => exact .ret h hr hne (ih h')

/-- Who is at work. -/
inductive Actors (cfg : Cfg) (t : Tree) (bg : Nat → Option (Nat × MProg Unit)) (thr : Nat → Option (Call × Prog Resp × Flight)) : Who → Actor → Nat → Prop
  | thr {i : Nat} {c : Call} {p : Prog Resp} {sd : Side} {m : MProg (Ans × Option Nat)} {op : ROp} (h : thr i = some (c, p, .run sd m)) (ho : p.rop = some op) :
      Actors cfg t bg thr (.inl i) (op.actor cfg (t.find (op.ph cfg).shardSel).lo (t.find (op.ph cfg).shardSel).hi sd) (op.ph cfg).shardSel
  | bg {sel r : Nat} {m : MProg Unit} (hsel : sel < END_OF_SHARDS) (h : bg (t.find sel).lo = some (r, m)) :
      Actors cfg t bg thr (.inr (t.find sel).lo) (bgActor cfg (t.find sel).lo (t.find sel).hi r) sel

/-- The size checks have passed. -/
def OpOK (cfg : Cfg) (op : ROp) : Prop := ∀ k v mode, op = .ins k v mode → sizeErr cfg k v = none

/-- The program on the abstract map: it goes on as soon as the operation has taken effect. -/
def Prog.after {α : Type} (p : Prog α) : Option Ans → Prog α
  | none => p
  | some a => p.resume a

/-- A thread in flight and the same thread on the abstract map. -/
def TSim (cfg : Cfg) (t : Tree) (pen : Option Reg) (led : Nat → Side → Bool → Int) : Option (Call × Prog Resp × Flight) → Option (Call × Prog Resp) → Prop
  | none, x => x = none
  | some (c, p, .idle), x => x = some (c, p)
  | some (c, p, .node), x => x = some (c, p) ∧ ∃ op, p.rop = some op ∧ OpOK cfg op
  | some (c, p, .files), x => x = some (c, p) ∧ ∃ op, p.rop = some op ∧ OpOK cfg op
  | some (c, p, .split _), x => x = some (c, p) ∧ ∃ op, p.rop = some op ∧ OpOK cfg op
  | some (c, p, .run sd m), x => ∃ op cm, p.rop = some op ∧ OpOK cfg op ∧ cm.cm ≠ some (.st .splitNeeded) ∧
      x = some (c, p.after cm.cm) ∧ cm.led = led (t.find (op.ph cfg).shardSel).lo sd ∧
      Safe (op.actor cfg (t.find (op.ph cfg).shardSel).lo (t.find (op.ph cfg).shardSel).hi sd) (TFin cfg op) m cm pen (t.find (op.ph cfg).shardSel)
  | some (c, p, .rel a _), x => ∃ op, p.rop = some op ∧ OpOK cfg op ∧
      ((a ≠ .st .splitNeeded ∧ x = some (c, p.resume a)) ∨ (a = .st .splitNeeded ∧ x = some (c, p)))
  | some (c, p, .out a _), x => ∃ op, p.rop = some op ∧ OpOK cfg op ∧
      ((a ≠ .st .splitNeeded ∧ x = some (c, p.resume a)) ∨ (a = .st .splitNeeded ∧ x = some (c, p)))

/-- A row of a background compaction. -/
def BgSafe (cfg : Cfg) (sh : Shard) (r : Nat) (m : MProg Unit) (pen : Option Reg) (led : Nat → Side → Bool → Int) : Prop :=
  Safe (bgActor cfg sh.lo sh.hi r) (fun _ g s' => g = Gh.zero ∧ (s'.file .tgt).compactedUpTo = r + 1) m ⟨none, led sh.lo .tgt⟩ pen sh

/-- Shards whose span is empty (no key leads to them). -/
def Unspanned (cfg : Cfg) (ex : Bool) (t : Tree) : Prop := ∀ s ∈ t.leaves, s.lo = s.hi → s.Inv cfg ∧ s.AcctInv ex

theorem Tree.mem_modify {t : Tree} {sel : Nat} {f : Shard → Shard} {s : Shard} (h : s ∈ (t.modify sel f).leaves) : s ∈ t.leaves ∨ s = f (t.find sel) := by
  induction t with
  | leaf x => exact .inr (List.mem_singleton.1 h)
  | vertex b t ih1 ih2 =>
    rw [Tree.modify_vertex] at h
    rw [Tree.find_vertex, Tree.leaves_vertex]
    by_cases e : sel < b.hi
    · rw [if_pos e, Tree.leaves_vertex] at h
      rw [if_pos e]
      rcases List.mem_append.1 h with h | h
      · rcases ih1 h with h | h
        · exact .inl (List.mem_append.2 (.inl h))
        · exact .inr h
      · exact .inl (List.mem_append.2 (.inr h))
    · rw [if_neg e, Tree.leaves_vertex] at h
      rw [if_neg e]
      rcases List.mem_append.1 h with h | h
      · exact .inl (List.mem_append.2 (.inl h))
      · rcases ih2 h with h | h
        · exact .inl (List.mem_append.2 (.inr h))
        · exact .inr h

theorem Tree.mem_splitAt {cfg : Cfg} {t : Tree} {sel : Nat} {t' : Tree} {s : Shard} (ht : t.splitAt cfg sel = some t') (h : s ∈ t'.leaves) :
    s ∈ t.leaves ∨ ∃ b u, (t.find sel).split cfg = some (b, u) ∧ (s = b ∨ s = u) := by
  induction t generalizing t' with
  | leaf x =>
    have ht : (x.split cfg).map (fun p => Tree.vertex (.leaf p.1) (.leaf p.2)) = some t' := ht
    cases hp : x.split cfg with
    | none => rw [hp] at ht; cases ht
    | some p =>
      rw [hp] at ht
      have ht : some (Tree.vertex (.leaf p.1) (.leaf p.2)) = some t' := ht
      injection ht with ht
      subst ht
      rw [Tree.leaves_vertex, Tree.leaves_leaf, Tree.leaves_leaf] at h
      refine .inr ⟨p.1, p.2, hp, ?_⟩
      rcases List.mem_append.1 h with h | h
      · exact .inl (List.mem_singleton.1 h)
      · exact .inr (List.mem_singleton.1 h)
  | vertex b t ih1 ih2 =>
    have ht : (if sel < b.hi then (b.splitAt cfg sel).map (fun b' => Tree.vertex b' t) else (t.splitAt cfg sel).map (fun t' => Tree.vertex b t')) = some t' := ht
    rw [Tree.find_vertex, Tree.leaves_vertex]
    by_cases e : sel < b.hi
    · rw [if_pos e] at ht ⊢
      cases hp : b.splitAt cfg sel with
      | none => rw [hp] at ht; cases ht
      | some b' =>
        rw [hp] at ht
        have ht : some (Tree.vertex b' t) = some t' := ht
        injection ht with ht
        subst ht
        rw [Tree.leaves_vertex] at h
        rcases List.mem_append.1 h with h | h
        · rcases ih1 hp h with h | h
          · exact .inl (List.mem_append.2 (.inl h))
          · exact .inr h
        · exact .inl (List.mem_append.2 (.inr h))
    · rw [if_neg e] at ht ⊢
      cases hp : t.splitAt cfg sel with
      | none => rw [hp] at ht; cases ht
      | some b' =>
        rw [hp] at ht
        have ht : some (Tree.vertex b b') = some t' := ht
        injection ht with ht
        subst ht
        rw [Tree.leaves_vertex] at h
        rcases List.mem_append.1 h with h | h
        · exact .inl (List.mem_append.2 (.inl h))
        · rcases ih2 hp h with h | h
          · exact .inl (List.mem_append.2 (.inr h))
          · exact .inr h

theorem Unspanned.modify {cfg : Cfg} {ex : Bool} {t : Tree} {sel : Nat} {f : Shard → Shard} (h : Unspanned cfg ex t) (hs : (f (t.find sel)).lo < (f (t.find sel)).hi) :
    Unspanned cfg ex (t.modify sel f) := by
  intro s hm e
  rcases Tree.mem_modify hm with h1 | rfl
  · exact h s h1 e
  · omega

/-- A shard of the tree with a span is the one its keys lead to. -/
theorem Tree.Shape.find_leaf {lo hi : Nat} {t : Tree} (h : Tree.Shape lo hi t) {s : Shard} (hm : s ∈ t.leaves) (hs : s.lo < s.hi) :
    lo ≤ s.lo ∧ s.hi ≤ hi ∧ t.find s.lo = s := by
  induction h with
  | leaf hlo hhi hle =>
    cases List.mem_singleton.1 hm
    exact ⟨Nat.le_of_eq hlo.symm, Nat.le_of_eq hhi, rfl⟩
  | @vertex lo hi b t hle hb ht ih1 ih2 =>
    rw [Tree.leaves_vertex] at hm
    rw [Tree.find_vertex, hb.hi_eq]
    have hmid := midOf_bounds hle
    rcases List.mem_append.1 hm with hm | hm
    · obtain ⟨h1, h2, h3⟩ := ih1 hm
      rw [if_pos (Nat.lt_of_lt_of_le hs h2)]
      exact ⟨h1, Nat.le_trans h2 hmid.2, h3⟩
    · obtain ⟨h1, h2, h3⟩ := ih2 hm
      rw [if_neg (Nat.not_lt.2 h1)]
      exact ⟨Nat.le_trans hmid.1 h1, h2, h3⟩

structure Sim (cfg : Cfg) (ex : Bool) (S : FState) (A : AState) (pen : Who → Option Reg) (led : Ledger) : Prop where
  core : Core cfg S.tree (Actors cfg S.tree S.bg S.thr) pen
  map : A.map = S.tree.get cfg
  locks : A.locks = S.locks
  thr : ∀ i, TSim cfg S.tree (pen (.inl i)) (led (.inl i)) (S.thr i) (A.thr i)
  bgt : ∀ sel r m, sel < END_OF_SHARDS → S.bg (S.tree.find sel).lo = some (r, m) → BgSafe cfg (S.tree.find sel) r m (pen (.inr (S.tree.find sel).lo)) (led (.inr (S.tree.find sel).lo))
  bgl : ∀ l, S.bg l ≠ none → ∃ sel, sel < END_OF_SHARDS ∧ (S.tree.find sel).lo = l
  bal : Bal ex S.tree (Actors cfg S.tree S.bg S.thr) led
  empt : Unspanned cfg ex S.tree

/-- The thread holds a row lock. -/
def onRun : Option (Call × Prog Resp × Flight) → Bool
  | some (_, _, .run _ _) => true
  | _ => false

theorem onRun_run {c : Call} {p : Prog Resp} {sd : Side} {m : MProg (Ans × Option Nat)} : onRun (some (c, p, .run sd m)) = true := rfl

/-- Only a thread that holds a row lock depends on the files. -/
theorem TSim.congr {cfg : Cfg} {t t' : Tree} {pen pen' : Option Reg} {led led' : Nat → Side → Bool → Int} {x : Option (Call × Prog Resp × Flight)} {y : Option (Call × Prog Resp)}
    (h : TSim cfg t pen led x y)
    (hf : ∀ c p sd m op, x = some (c, p, .run sd m) → p.rop = some op → ∀ fin cm,
      Safe (op.actor cfg (t.find (op.ph cfg).shardSel).lo (t.find (op.ph cfg).shardSel).hi sd) fin m cm pen (t.find (op.ph cfg).shardSel) →
      Safe (op.actor cfg (t'.find (op.ph cfg).shardSel).lo (t'.find (op.ph cfg).shardSel).hi sd) fin m cm pen' (t'.find (op.ph cfg).shardSel) ∧
      led' (t'.find (op.ph cfg).shardSel).lo sd = led (t.find (op.ph cfg).shardSel).lo sd) :
    TSim cfg t' pen' led' x y := by
  cases x with
  | none => exact h
  | some x =>
    obtain ⟨c, p, fl⟩ := x
    cases fl with
    | run sd m =>
      obtain ⟨op, cm, h1, h2, h3, h4, h5, h6⟩ := h
      have := hf c p sd m op rfl h1 _ _ h6
      exact ⟨op, cm, h1, h2, h3, h4, h5.trans this.2.symm, this.1⟩
    | idle => exact h
    | node => exact h
    | files => exact h
    | split d => exact h
    | rel a sc => exact h
    | out a sc => exact h

/-- A thread moves on without touching the files. -/
theorem Sim.quietStep {cfg : Cfg} {S S' : FState} {A A' : AState} {ex : Bool} {pen : Who → Option Reg} {led : Ledger} (h : Sim cfg ex S A pen led) (i : Nat)
    (ht : S'.tree = S.tree) (hb : S'.bg = S.bg) (hth : ∀ j, j ≠ i → S'.thr j = S.thr j)
    (hm : A'.map = A.map) (hl : A'.locks = S'.locks) (hA : ∀ j, j ≠ i → A'.thr j = A.thr j)
    (hnr : onRun (S'.thr i) = false) (hi : TSim cfg S.tree (pen (.inl i)) (led (.inl i)) (S'.thr i) (A'.thr i))
    (hz : ∀ X sel, Actors cfg S.tree S.bg S.thr (.inl i) X sel → ∀ k, led (.inl i) X.lo X.sd k = 0) : Sim cfg ex S' A' pen led := by
  refine ⟨?_, by rw [hm, ht]; exact h.map, hl, fun j => ?_, by rw [ht, hb]; exact h.bgt, by rw [ht, hb]; exact h.bgl, ?_, by rw [ht]; exact h.empt⟩
  · rw [ht, hb]
    refine h.core.drop (fun a X sel hw => ?_) (fun a X sel hw hbg => ?_)
    · cases hw with
      | @thr j c p sd m op h1 h2 =>
        by_cases e : j = i
        · subst e; rw [h1] at hnr; cases hnr
        · rw [hth j e] at h1; exact .thr h1 h2
      | bg hs h1 => exact .bg hs h1
    · cases hw with
      | thr h1 h2 => cases hbg
      | bg hs h1 => exact .inl (.bg hs h1)
  · rw [ht]
    by_cases e : j = i
    · subst e; exact hi
    · rw [hth j e, hA j e]; exact h.thr j
  · rw [ht, hb]
    refine h.bal.drop (fun a X sel hw => ?_)
    by_cases ea : a = .inl i
    · subst ea; exact .inr (hz X sel hw)
    · left
      cases hw with
      | @thr j c p sd m op h1 h2 => exact .thr (by rw [hth j (fun e => ea (by rw [e]))]; exact h1) h2
      | bg hs h1 => exact .bg hs h1

/-- A shard on which nobody is at work is replaced. -/
theorem Sim.replace {cfg : Cfg} {S S' : FState} {A : AState} {ex : Bool} {pen : Who → Option Reg} {led : Ledger} (h : Sim cfg ex S A pen led) {sel0 : Nat} (hsel0 : sel0 < END_OF_SHARDS)
    (hb : S'.bg = S.bg) (hl : S'.locks = S.locks)
    (hth : ∀ j, S'.thr j = S.thr j ∨ (onRun (S.thr j) = false ∧ onRun (S'.thr j) = false ∧ TSim cfg S.tree (pen (.inl j)) (led (.inl j)) (S'.thr j) (A.thr j)))
    (hno : ∀ a X sel, Actors cfg S.tree S.bg S.thr a X sel → (S.tree.find sel).lo ≠ (S.tree.find sel0).lo)
    (hshape : Tree.Shape 0 END_OF_SHARDS S'.tree)
    (hout : ∀ sel, sel < END_OF_SHARDS → ¬ ((S.tree.find sel0).lo ≤ sel ∧ sel < (S.tree.find sel0).hi) → S'.tree.find sel = S.tree.find sel)
    (hin : ∀ sel, (S.tree.find sel0).lo ≤ sel → sel < (S.tree.find sel0).hi → ShardOK cfg (fun _ => False) (S'.tree.find sel) ∧
      (S.tree.find sel0).lo ≤ (S'.tree.find sel).lo ∧ ∀ sd, FileAcct ex ((S'.tree.find sel).file sd))
    (hemp : Unspanned cfg ex S'.tree) (hval : S'.tree.get cfg = S.tree.get cfg) : Sim cfg ex S' A pen led := by
  have hsh := h.core.shape
  have hcore : Core cfg S'.tree (Actors cfg S.tree S.bg S.thr) pen := h.core.replace hsel0 hshape hno hout (fun sel h1 h2 => (hin sel h1 h2).1)
  -- where nobody is at work
  have hbgout : ∀ sel, sel < END_OF_SHARDS → S.bg (S'.tree.find sel).lo ≠ none → S'.tree.find sel = S.tree.find sel := by
    intro sel hs hne
    by_cases e : (S.tree.find sel0).lo ≤ sel ∧ sel < (S.tree.find sel0).hi
    · exfalso
      obtain ⟨sel', hs', e'⟩ := h.bgl _ hne
      have h1 := (hin sel e.1 e.2).2.1
      have h2 := (hshape.find (spanAll hs)).1
      have h3 := (hsh.find (spanAll hs')).1
      have e1 : S.tree.find (S'.tree.find sel).lo = S.tree.find sel0 := hsh.find_same (spanAll hsel0) ⟨h1, Nat.lt_of_le_of_lt h2.1 e.2⟩
      have e2 : S.tree.find (S'.tree.find sel).lo = S.tree.find sel' := hsh.find_same (spanAll hs') ⟨Nat.le_of_eq e', by rw [← e']; exact Nat.lt_of_le_of_lt h3.1 h3.2⟩
      cases hx : S.bg (S'.tree.find sel).lo with
      | none => exact hne hx
      | some x =>
        rw [← e'] at hx
        exact hno _ _ _ (.bg hs' hx) (by rw [← e2, e1])
    · exact hout sel hs e
  have hsame : ∀ a X sel, Actors cfg S.tree S.bg S.thr a X sel → S'.tree.find sel = S.tree.find sel := by
    intro a X sel hw
    refine hout sel (h.core.act a X sel hw).1 (fun e => hno a X sel hw ?_)
    exact congrArg Shard.lo (hsh.find_same (spanAll hsel0) e)
  have hrun : ∀ j c p sd m, S'.thr j = some (c, p, .run sd m) → S.thr j = some (c, p, .run sd m) := by
    intro j c p sd m e
    rcases hth j with h1 | ⟨_, h1, _⟩
    · rw [← h1]; exact e
    · rw [e] at h1; cases h1
  have hrun' : ∀ j c p sd m, S.thr j = some (c, p, .run sd m) → S'.thr j = some (c, p, .run sd m) := by
    intro j c p sd m e
    rcases hth j with h1 | ⟨h1, _, _⟩
    · rw [h1]; exact e
    · rw [e] at h1; cases h1
  have hiff : ∀ a X sel, Actors cfg S'.tree S'.bg S'.thr a X sel ↔ Actors cfg S.tree S.bg S.thr a X sel := by
    intro a X sel
    constructor
    · intro hw
      cases hw with
      | thr h1 h2 =>
        have h1 := hrun _ _ _ _ _ h1
        rw [hsame _ _ _ (.thr h1 h2)]
        exact .thr h1 h2
      | bg hs h1 =>
        rw [hb] at h1
        have e := hbgout sel hs (by rw [h1]; exact fun h => by cases h)
        rw [e] at h1 ⊢
        exact .bg hs h1
    · intro hw
      have e := hsame _ _ _ hw
      cases hw with
      | thr h1 h2 => rw [← e]; exact .thr (hrun' _ _ _ _ _ h1) h2
      | bg hs h1 =>
        rw [← e]
        rw [← e, ← hb] at h1
        exact .bg hs h1
  refine ⟨hcore.congr hiff, by rw [hval]; exact h.map, by rw [hl]; exact h.locks, fun j => ?_, fun sel r m hs hbg => ?_, fun l hne => ?_, Bal.congr ?_ hiff, hemp⟩
  · have key : ∀ x y, TSim cfg S.tree (pen (.inl j)) (led (.inl j)) x y → S'.thr j = x → TSim cfg S'.tree (pen (.inl j)) (led (.inl j)) x y := by
      intro x y hx e
      refine hx.congr (fun c p sd m op e' ho fin cm hsafe => ?_)
      rw [hsame _ _ _ (.thr (hrun _ _ _ _ _ (e.trans e')) ho)]
      exact ⟨hsafe, rfl⟩
    rcases hth j with h1 | ⟨_, _, h1⟩
    · rw [h1]; exact key _ _ (h.thr j) h1
    · exact key _ _ h1 rfl
  · rw [hb] at hbg
    have e := hbgout sel hs (by rw [hbg]; exact fun h => by cases h)
    rw [e] at hbg ⊢
    exact h.bgt sel r m hs hbg
  · rw [hb] at hne
    obtain ⟨sel, hs, e⟩ := h.bgl l hne
    refine ⟨sel, hs, ?_⟩
    cases hx : S.bg l with
    | none => exact absurd hx hne
    | some x =>
      rw [← e] at hx
      rw [hsame _ _ _ (.bg hs hx)]; exact e
  · refine h.bal.replace (P := fun sel => (S.tree.find sel0).lo ≤ sel ∧ sel < (S.tree.find sel0).hi) hout (fun sel hs hp => ⟨(hin sel hp.1 hp.2).2.2, fun a X sel' hw e => ?_⟩)
    obtain ⟨hs', _, hok⟩ := h.core.act a X sel' hw
    have e : (S.tree.find sel').lo = (S'.tree.find sel).lo := hok.lo.trans e
    have h1 := (hin sel hp.1 hp.2).2.1
    have h2 := (hshape.find (spanAll hs)).1
    have h3 := (hsh.find (spanAll hs')).1
    have e1 : S.tree.find (S'.tree.find sel).lo = S.tree.find sel0 := hsh.find_same (spanAll hsel0) ⟨h1, Nat.lt_of_le_of_lt h2.1 hp.2⟩
    have e2 : S.tree.find (S'.tree.find sel).lo = S.tree.find sel' := hsh.find_same (spanAll hs') ⟨Nat.le_of_eq e, by rw [← e]; exact Nat.lt_of_le_of_lt h3.1 h3.2⟩
    exact hno a X sel' hw (by rw [← e2, e1])

/-- Writing back what was read. -/
theorem Tree.modify_self (t : Tree) (sel : Nat) : t.modify sel (fun _ => t.find sel) = t := by
  induction t with
  | leaf s => rfl
  | vertex b t ih1 ih2 =>
    rw [Tree.modify_vertex]
    by_cases e : sel < b.hi
    · rw [if_pos e, Tree.find_vertex, if_pos e, ih1]
    · rw [if_neg e, Tree.find_vertex, if_neg e, ih2]

/-- What an access does to the contents. -/
theorem get_upd {cfg : Cfg} {t t' : Tree} {sel : Nat} {sh' : Shard}
    (hcase : ∀ sel', sel' < END_OF_SHARDS → t'.find sel' = t.find sel' ∨ (t.find sel' = t.find sel ∧ t'.find sel' = sh'))
    (hself : t'.find sel = sh') {k : Bytes} {x : Option Bytes} (hk : (cfg.ph k).shardSel = sel)
    (hv : ∀ k', sh'.val cfg k' = Map.upd ((t.find sel).val cfg) k x k') : t'.get cfg = Map.upd (t.get cfg) k x := by
  funext k'
  rw [Tree.get_find]
  by_cases e : k' = k
  · subst e
    rw [Map.upd_same, hk, hself, hv, Map.upd_same]
  · rw [Map.upd_other _ _ e, Tree.get_find]
    rcases hcase _ (cfg.ph k').shardSel_lt with e1 | ⟨e1, e2⟩
    · rw [e1]
    · rw [e2, e1, hv, Map.upd_other _ _ e]

theorem get_same {cfg : Cfg} {t t' : Tree} {sel : Nat} {sh' : Shard}
    (hcase : ∀ sel', sel' < END_OF_SHARDS → t'.find sel' = t.find sel' ∨ (t.find sel' = t.find sel ∧ t'.find sel' = sh'))
    (hv : ∀ k', sh'.val cfg k' = (t.find sel).val cfg k') : t'.get cfg = t.get cfg := by
  funext k'
  rw [Tree.get_find, Tree.get_find]
  rcases hcase _ (cfg.ph k').shardSel_lt with e1 | ⟨e1, e2⟩
  · rw [e1]
  · rw [e2, e1, hv]

/-- The actor's program may change, but not the actor. -/
def SameThr (a : Who) (thr thr' : Nat → Option (Call × Prog Resp × Flight)) : Prop :=
  ∀ j, thr' j = thr j ∨ (a = .inl j ∧ ∃ c p sd m m', thr j = some (c, p, .run sd m) ∧ thr' j = some (c, p, .run sd m'))
def SameBg (a : Who) (bg bg' : Nat → Option (Nat × MProg Unit)) : Prop :=
  ∀ l, bg' l = bg l ∨ (a = .inr l ∧ ∃ r m m', bg l = some (r, m) ∧ bg' l = some (r, m'))

theorem SameThr.symm {a : Who} {thr thr' : Nat → Option (Call × Prog Resp × Flight)} (h : SameThr a thr thr') : SameThr a thr' thr := by
  intro j
  rcases h j with h | ⟨h1, c, p, sd, m, m', h2, h3⟩
  · exact .inl h.symm
  · exact .inr ⟨h1, c, p, sd, m', m, h3, h2⟩
theorem SameBg.symm {a : Who} {bg bg' : Nat → Option (Nat × MProg Unit)} (h : SameBg a bg bg') : SameBg a bg' bg := by
  intro j
  rcases h j with h | ⟨h1, r, m, m', h2, h3⟩
  · exact .inl h.symm
  · exact .inr ⟨h1, r, m', m, h3, h2⟩

theorem Actors.same {cfg : Cfg} {t t' : Tree} {bg bg' : Nat → Option (Nat × MProg Unit)} {thr thr' : Nat → Option (Call × Prog Resp × Flight)} {a : Who}
    (ht : SameThr a thr thr') (hb : SameBg a bg bg')
    (hsp : ∀ sel, sel < END_OF_SHARDS → (t'.find sel).lo = (t.find sel).lo ∧ (t'.find sel).hi = (t.find sel).hi) {b : Who} {X : Actor} {sel : Nat}
    (h : Actors cfg t bg thr b X sel) : Actors cfg t' bg' thr' b X sel := by
  cases h with
  | @thr j c p sd m op h1 h2 =>
    obtain ⟨e1, e2⟩ := hsp _ (op.ph cfg).shardSel_lt
    have : ∃ m', thr' j = some (c, p, .run sd m') := by
      rcases ht j with e | ⟨_, c1, p1, sd1, m1, m', e3, e4⟩
      · exact ⟨m, e.trans h1⟩
      · rw [h1] at e3; cases e3; exact ⟨m', e4⟩
    obtain ⟨m', h'⟩ := this
    rw [← e1, ← e2]; exact .thr h' h2
  | @bg _ r m hs h1 =>
    obtain ⟨e1, e2⟩ := hsp _ hs
    have : ∃ m', bg' (t.find sel).lo = some (r, m') := by
      rcases hb (t.find sel).lo with e | ⟨_, r1, m1, m', e3, e4⟩
      · exact ⟨m, e.trans h1⟩
      · rw [h1] at e3; cases e3; exact ⟨m', e4⟩
    obtain ⟨m', h'⟩ := this
    rw [← e1] at h'
    rw [← e1, ← e2]
    exact .bg hs h'

/-- An access that writes: everybody else. -/
theorem Sim.write {cfg : Cfg} {S S' : FState} {A : AState} {ex : Bool} {pen : Who → Option Reg} {led : Ledger} (h : Sim cfg ex S A pen led) {a : Who} {X : Actor} {sel : Nat}
    (hw : Actors cfg S.tree S.bg S.thr a X sel) {pen' : Option Reg} {x : Bool → Int} {sh' : Shard} (hwr : X.wr = true) (g : Guar X (pen a) pen' (S.tree.find sel) sh')
    (hx : ∀ k, surplus (sh'.file X.sd) k - x k = surplus ((S.tree.find sel).file X.sd) k - led a X.lo X.sd k) (hp : 0 ≤ x true)
    (ht : S'.tree = S.tree.modify sel (fun _ => sh')) (hth : SameThr a S.thr S'.thr) (hb : SameBg a S.bg S'.bg) :
    Core cfg S'.tree (Actors cfg S'.tree S'.bg S'.thr) (setP pen a pen') ∧
    S'.tree.find sel = sh' ∧
    (∀ sel', sel' < END_OF_SHARDS → S'.tree.find sel' = S.tree.find sel' ∨ (S.tree.find sel' = S.tree.find sel ∧ S'.tree.find sel' = sh')) ∧
    (∀ sel', sel' < END_OF_SHARDS → (S'.tree.find sel').lo = (S.tree.find sel').lo ∧ (S'.tree.find sel').hi = (S.tree.find sel').hi) ∧
    (∀ j, a ≠ .inl j → TSim cfg S'.tree (setP pen a pen' (.inl j)) (setL led a X.lo X.sd x (.inl j)) (S'.thr j) (A.thr j)) ∧
    (∀ sel' r m, sel' < END_OF_SHARDS → a ≠ .inr (S'.tree.find sel').lo → S'.bg (S'.tree.find sel').lo = some (r, m) →
      BgSafe cfg (S'.tree.find sel') r m (setP pen a pen' (.inr (S'.tree.find sel').lo)) (setL led a X.lo X.sd x (.inr (S'.tree.find sel').lo))) ∧
    (∀ l, S'.bg l ≠ none → ∃ sel, sel < END_OF_SHARDS ∧ (S'.tree.find sel).lo = l) ∧
    Bal ex S'.tree (Actors cfg S'.tree S'.bg S'.thr) (setL led a X.lo X.sd x) := by
  obtain ⟨c1, c2, c3, c4, c5⟩ := h.core.step hw hwr g
  rw [← ht] at c1 c2 c3 c4 c5
  have hsp : ∀ sel', sel' < END_OF_SHARDS → (S'.tree.find sel').lo = (S.tree.find sel').lo ∧ (S'.tree.find sel').hi = (S.tree.find sel').hi :=
    fun sel' hs => ⟨(c3 sel' hs).1, (c3 sel' hs).2.1⟩
  have hiff : ∀ b Y sel', Actors cfg S'.tree S'.bg S'.thr b Y sel' ↔ Actors cfg S.tree S.bg S.thr b Y sel' :=
    fun b Y sel' => ⟨fun h' => h'.same hth.symm hb.symm (fun s hs => ⟨(hsp s hs).1.symm, (hsp s hs).2.symm⟩), fun h' => h'.same hth hb hsp⟩
  obtain ⟨hsel, hcfg, hok⟩ := h.core.act _ _ _ hw
  refine ⟨c1.congr hiff,
    c2, c4, hsp, fun j hj => ?_, fun sel' r m hs hne hbg => ?_, fun l hne => ?_, Bal.congr (h.bal.write hw hok.lo.symm g.span.1 (fun sel' hs => ?_) g.other hx hp) hiff⟩
  · have hthj : S'.thr j = S.thr j := by
      rcases hth j with e | ⟨e, _⟩
      · exact e
      · exact absurd e hj
    rw [hthj, setP_other _ _ (Ne.symm hj)]
    refine (h.thr j).congr (fun c p sd m op e ho fin cm hsafe => ?_)
    obtain ⟨e1, e2⟩ := hsp _ (op.ph cfg).shardSel_lt
    rw [e1, e2]
    exact ⟨hsafe.rely (c5 _ _ _ (Ne.symm hj) (.thr e ho)), setL_other _ _ (fun e => hj e.1.symm)⟩
  · rw [(hsp sel' hs).1] at hne hbg ⊢
    have hbl : S'.bg (S.tree.find sel').lo = S.bg (S.tree.find sel').lo := by
      rcases hb (S.tree.find sel').lo with e | ⟨e, _⟩
      · exact e
      · exact absurd e hne
    rw [hbl] at hbg
    rw [setP_other _ _ (Ne.symm hne)]
    have := h.bgt sel' r m hs hbg
    unfold BgSafe at this ⊢
    rw [(hsp sel' hs).1, (hsp sel' hs).2, setL_other _ _ (fun e => hne e.1.symm)]
    exact this.rely (c5 _ _ _ (Ne.symm hne) (.bg hs hbg))
  · have : S.bg l ≠ none := by
      rcases hb l with e | ⟨_, r, m, m', e, _⟩
      · rw [← e]; exact hne
      · rw [e]; exact fun h => by cases h
    obtain ⟨sel', hs, e⟩ := h.bgl l this
    exact ⟨sel', hs, by rw [(hsp sel' hs).1]; exact e⟩
  · by_cases e : (S.tree.find sel').lo = (S.tree.find sel).lo
    · refine .inr ⟨h.core.shape.find_lo (spanAll hs) (spanAll hsel) e, ?_⟩
      rw [← c2]
      exact c1.shape.find_lo (spanAll hs) (spanAll hsel) (by rw [(hsp sel' hs).1, (hsp sel hsel).1]; exact e)
    · rcases c4 sel' hs with e1 | ⟨e1, _⟩
      · exact .inl ⟨e1, e⟩
      · exact absurd (congrArg Shard.lo e1) e

theorem SameThr.set {S : FState} {i : Nat} {c : Call} {p : Prog Resp} {sd : Side} {m m' : MProg (Ans × Option Nat)} (h : S.thr i = some (c, p, .run sd m)) :
    SameThr (.inl i) S.thr (setN S.thr i (some (c, p, .run sd m'))) := by
  intro j
  by_cases e : j = i
  · subst e; exact .inr ⟨rfl, c, p, sd, m, m', h, setN_same _ _ _⟩
  · exact .inl (setN_other _ _ e)
theorem SameBg.refl (a : Who) (bg : Nat → Option (Nat × MProg Unit)) : SameBg a bg bg := fun _ => .inl rfl
theorem SameThr.refl (a : Who) (thr : Nat → Option (Call × Prog Resp × Flight)) : SameThr a thr thr := fun _ => .inl rfl
theorem SameBg.set {bg : Nat → Option (Nat × MProg Unit)} {l r : Nat} {m m' : MProg Unit} (h : bg l = some (r, m)) : SameBg (.inr l) bg (setN bg l (some (r, m'))) := by
  intro j
  by_cases e : j = l
  · subst e; exact .inr ⟨rfl, r, m, m', h, setN_same _ _ _⟩
  · exact .inl (setN_other _ _ e)

/-- The operation of a program on the abstract map. -/
theorem commit_step {cfg : Cfg} {p : Prog Resp} {op : ROp} (ho : p.rop = some op) (hs : OpOK cfg op) {M : Map} :
    (∀ k, op = .get k → AStep cfg M p M (p.resume (.val (M k)))) ∧
    (∀ k v mode, op = .ins k v mode → AStep cfg M p (M.upd k (insertAt (M k) v mode).1) (p.resume (.st (insertAt (M k) v mode).2))) ∧
    (∀ k, op = .rem k → AStep cfg M p (M.upd k none) (p.resume (.val (M k)))) ∧
    (∀ ph l, op = .byHash ph → (∀ suf, ByHash cfg M ph suf (l.filter (fun kv => endsWith kv.1 suf))) → AStep cfg M p M (p.resume (.kvs l))) ∧ p.onLock = false := by
  cases p with
  | get k c => cases ho; exact ⟨fun k e => by cases e; exact .get _ _ _, fun _ _ _ e => (by cases e), fun _ e => (by cases e), fun _ _ e => (by cases e), rfl⟩
  | ins k v mode c =>
    cases ho
    exact ⟨fun _ e => (by cases e), fun _ _ _ e => (by cases e; exact .ins _ _ _ _ _ (hs _ _ _ rfl)), fun _ e => (by cases e), fun _ _ e => (by cases e), rfl⟩
  | rem k c => cases ho; exact ⟨fun _ e => (by cases e), fun _ _ _ e => (by cases e), fun k e => (by cases e; exact .rem _ _ _), fun _ _ e => (by cases e), rfl⟩
  | byHash ph suf c =>
    cases ho
    exact ⟨fun _ e => (by cases e), fun _ _ _ e => (by cases e), fun _ e => (by cases e), fun ph' l e hb => by cases e; exact .byHash _ _ _ _ _ (hb suf), rfl⟩
  | ret a => cases ho
  | err e => cases ho
  | panic => cases ho
  | exhausted => cases ho
  | lock i c => cases ho
  | unlock c => cases ho

theorem insertAt_ne_split (cur : Option Bytes) (v : Bytes) (mode : Mode) : (insertAt cur v mode).2 ≠ .splitNeeded := by
  cases cur with
  | none => cases mode <;> (intro h; cases h)
  | some x =>
    cases mode with
    | set => intro h; cases h
    | getOrCreate => intro h; cases h
    | replace e =>
      cases e with
      | none => intro h; cases h
      | some e => unfold insertAt; simp only; split <;> (intro h; cases h)

/-- The answer of an operation without effect. -/
theorem noEff_step {cfg : Cfg} {t : Tree} (hshape : Tree.Shape 0 END_OF_SHARDS t) {p : Prog Resp} {op : ROp} (ho : p.rop = some op) (hs : OpOK cfg op) {a : Ans}
    (h : NoEff cfg (t.find (op.ph cfg).shardSel) op a) : AStep cfg (t.get cfg) p (t.get cfg) (p.resume a) ∧ a ≠ .st .splitNeeded := by
  obtain ⟨c1, c2, c3, c4, _⟩ := commit_step ho hs (M := t.get cfg)
  cases h with
  | get k => exact ⟨c1 k rfl, fun e => by cases e⟩
  | ins k v mode h =>
    refine ⟨?_, fun e => insertAt_ne_split _ _ _ (by injection e)⟩
    have := c2 k v mode rfl
    have e : Map.upd (t.get cfg) k (insertAt (t.get cfg k) v mode).1 = t.get cfg := by
      funext k'
      by_cases e : k' = k
      · subst e; rw [Map.upd_same]; exact h
      · rw [Map.upd_other _ _ e]
    rw [e] at this
    exact this
  | rem k h =>
    refine ⟨?_, fun e => by cases e⟩
    have := c3 k rfl
    have h' : t.get cfg k = none := h
    have e : Map.upd (t.get cfg) k none = t.get cfg := by
      funext k'
      by_cases e : k' = k
      · subst e; rw [Map.upd_same, h']
      · rw [Map.upd_other _ _ e]
    rw [e, h'] at this
    exact this
  | byHash ph l h =>
    refine ⟨c4 ph l rfl (fun suf => ?_), fun e => by cases e⟩
    refine ⟨fun kv hkv => (List.mem_filter.1 hkv).2, fun hi kv hkv => ?_, fun hi k v hm hp he => ?_, fun hi kv hkv => ?_, fun hi => List.Pairwise.filter _ (h hi).2.2⟩
    · obtain ⟨h1, _, h2⟩ := (h hi).1 kv (List.mem_filter.1 hkv).1
      rw [Tree.get_find]
      have e : t.find (cfg.ph kv.1).shardSel = t.find ph.shardSel := hshape.find_same (spanAll ph.shardSel_lt) h2
      rw [e]; exact h1
    · refine List.mem_filter.2 ⟨(h hi).2.1 k v ?_ hp, he⟩
      rw [Tree.get_find, hp] at hm; exact hm
    · exact ((h hi).1 kv (List.mem_filter.1 hkv).1).2.1

end Candy
