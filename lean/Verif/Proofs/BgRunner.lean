import Verif.Proofs.BgError
import Verif.Proofs.CrashRunner
/-!
# Running scripts with failing compactions on concrete stores
-/
namespace Candy
open Spec

/-- A sufficient condition for `Tree.Small`. -/
def Tree.lightB (t : Tree) : Bool :=
  t.leaves.all fun s => decide (s.src.writeOff < 1000000) && (match s.tgt with | none => true | some t => decide (t.writeOff < 1000000))

theorem BState.OK.small {cfg : Cfg} {S : BState} (h : S.OK cfg) (hl : S.tree.lightB = true) : S.tree.Small := by
  intro s hs
  have h1 := List.all_eq_true.1 hl s hs
  simp only [Bool.and_eq_true, decide_eq_true_eq] at h1
  have hm : s.scrub ∈ S.tree.scrub.leaves := by rw [Tree.leaves_scrub]; exact List.mem_map_of_mem hs
  have ha : FileAcct false s.src := (h.sane.ok.leaf_inv _ hm).2.1
  have hb := ha.bytes
  refine ⟨by omega, fun t ht => ?_⟩
  have h2 := h1.2
  rw [ht] at h2
  simp only [decide_eq_true_eq] at h2
  have := remW_le kvSize s.src t.compactedUpTo
  unfold liveBytes at hb
  omega

/-- Run a program, without background steps, checking sizes and that no dead shard is split. -/
def Prog.execD (cfg : Cfg) (dead : List Span) {α : Type} : Prog α → Tree → Option (Tree × Res α)
  | .ret a, t => some (t, .ok a)
  | .err e, t => some (t, .err e)
  | .panic, t => some (t, .panic)
  | .exhausted, t => some (t, .exhausted)
  | .get k c, t => if t.lightB then (c (t.get cfg k)).execD cfg dead t else none
  | .ins k v mode c, t =>
    if t.lightB && !(decide ((t.find (cfg.ph k).shardSel).place ∈ dead) && decide (((t.find (cfg.ph k).shardSel).insert cfg (cfg.ph k) k v mode).2 = .splitNeeded)) then
      match sizeErr cfg k v with
      | some e => some (t, .err e)
      | none => match t.insert cfg (cfg.ph k) k v mode 40 with
        | .ok (t', st) => (c st).execD cfg dead t'
        | _ => none
    else none
  | .rem k c, t => if t.lightB then (c (t.remove cfg k).2).execD cfg dead (t.remove cfg k).1 else none
  | .byHash ph suf c, t => if t.lightB then (c ((t.getByHash ph).filter (fun kv => endsWith kv.1 suf))).execD cfg dead t else none
  | .lock _ c, t => if t.lightB then c.execD cfg dead t else none
  | .unlock c, t => if t.lightB then c.execD cfg dead t else none

theorem BExec.step1 {cfg : Cfg} {safe : Bool} {α : Type} {S S'' : BState} {p p' p'' : Prog α} {t' : Tree} (hok : S.OK cfg) (hl : S.tree.lightB = true) (hn : ¬ S.stuck cfg p)
    (h : CStep cfg S.tree p t' p') (rest : BState.OK cfg { S with tree := t' } → BExec cfg safe { S with tree := t' } p' S'' p'' ∧ S''.OK cfg) :
    BExec cfg safe S p S'' p'' ∧ S''.OK cfg := by
  have hs := hok.small hl
  obtain ⟨h1, h2⟩ := h.scrub hn hok.clean
  obtain ⟨h3, _⟩ := h1.sim hok.sane.ok (Tree.small_scrub hs)
  obtain ⟨h4, h5⟩ := rest ⟨⟨hok.sane.bound, h3⟩, h2⟩
  exact ⟨.step hs hn h h4, h5⟩

theorem Prog.execD_sound {cfg : Cfg} {safe : Bool} {α : Type} (p : Prog α) : ∀ (S : BState) {t' : Tree} {r : Res α}, S.OK cfg →
    p.execD cfg S.dead S.tree = some (t', r) → ∃ p', (BExec cfg safe S p { S with tree := t' } p' ∧ BState.OK cfg { S with tree := t' }) ∧ p'.result = some r := by
  induction p with
  | ret a => intro S t' r hok h; cases h; exact ⟨_, ⟨.refl _ _, hok⟩, rfl⟩
  | err e => intro S t' r hok h; cases h; exact ⟨_, ⟨.refl _ _, hok⟩, rfl⟩
  | panic => intro S t' r hok h; cases h; exact ⟨_, ⟨.refl _ _, hok⟩, rfl⟩
  | exhausted => intro S t' r hok h; cases h; exact ⟨_, ⟨.refl _ _, hok⟩, rfl⟩
  | get k c ih =>
    intro S t' r hok h
    unfold Prog.execD at h
    by_cases hl : S.tree.lightB = true
    · rw [if_pos hl] at h
      obtain ⟨p', h1, h2⟩ := ih (S.tree.get cfg k) S hok h
      exact ⟨p', BExec.step1 hok hl id (.get _ _ _) (fun _ => h1), h2⟩
    · rw [if_neg hl] at h; cases h
  | ins k v mode c ih =>
    intro S t' r hok h
    unfold Prog.execD at h
    split at h
    · rename_i hc
      simp only [Bool.and_eq_true, Bool.not_eq_true', Bool.and_eq_false_iff, decide_eq_false_iff_not] at hc
      have hn : ¬ S.stuck cfg (.ins k v mode c) := fun hh => hc.2.elim (fun e => e hh.2.1) (fun e => e hh.2.2)
      cases hs : sizeErr cfg k v with
      | some e =>
        rw [hs] at h
        cases h
        exact ⟨.err e, BExec.step1 hok hc.1 hn (.insErr _ _ _ _ _ _ hs) (fun hok' => ⟨.refl _ _, hok'⟩), rfl⟩
      | none =>
        rw [hs] at h
        dsimp only at h
        cases hi : S.tree.insert cfg (cfg.ph k) k v mode 40 with
        | ok x =>
          obtain ⟨t1, st⟩ := x
          rw [hi] at h
          have hstep : CStep cfg S.tree (.ins k v mode c) t1 (c st) := .ins _ _ _ _ _ _ _ _ hs hi
          obtain ⟨hx1, hx2⟩ := hstep.scrub hn hok.clean
          obtain ⟨hx3, _⟩ := hx1.sim hok.sane.ok (Tree.small_scrub (hok.small hc.1))
          have hok1 : BState.OK cfg { S with tree := t1 } := ⟨⟨hok.sane.bound, hx3⟩, hx2⟩
          obtain ⟨p', h1, h2⟩ := ih st { S with tree := t1 } hok1 h
          exact ⟨p', BExec.step1 hok hc.1 hn hstep (fun _ => h1), h2⟩
        | panic => rw [hi] at h; cases h
        | diverge => rw [hi] at h; cases h
        | deadlock => rw [hi] at h; cases h
    · cases h
  | rem k c ih =>
    intro S t' r hok h
    unfold Prog.execD at h
    by_cases hl : S.tree.lightB = true
    · rw [if_pos hl] at h
      have hstep : CStep cfg S.tree (.rem k c) (S.tree.remove cfg k).1 (c (S.tree.remove cfg k).2) := .rem _ _ _
      obtain ⟨hx1, hx2⟩ := hstep.scrub (S := S) id hok.clean
      obtain ⟨hx3, _⟩ := hx1.sim hok.sane.ok (Tree.small_scrub (hok.small hl))
      obtain ⟨p', h1, h2⟩ := ih (S.tree.remove cfg k).2 { S with tree := (S.tree.remove cfg k).1 } ⟨⟨hok.sane.bound, hx3⟩, hx2⟩ h
      exact ⟨p', BExec.step1 hok hl id hstep (fun _ => h1), h2⟩
    · rw [if_neg hl] at h; cases h
  | byHash ph suf c ih =>
    intro S t' r hok h
    unfold Prog.execD at h
    by_cases hl : S.tree.lightB = true
    · rw [if_pos hl] at h
      obtain ⟨p', h1, h2⟩ := ih _ S hok h
      exact ⟨p', BExec.step1 hok hl id (.byHash _ _ _ _) (fun _ => h1), h2⟩
    · rw [if_neg hl] at h; cases h
  | lock i c ih =>
    intro S t' r hok h
    unfold Prog.execD at h
    by_cases hl : S.tree.lightB = true
    · rw [if_pos hl] at h
      obtain ⟨p', h1, h2⟩ := ih S hok h
      exact ⟨p', BExec.step1 hok hl id (.lock _ _ _) (fun _ => h1), h2⟩
    · rw [if_neg hl] at h; cases h
  | unlock c ih =>
    intro S t' r hok h
    unfold Prog.execD at h
    by_cases hl : S.tree.lightB = true
    · rw [if_pos hl] at h
      obtain ⟨p', h1, h2⟩ := ih S hok h
      exact ⟨p', BExec.step1 hok hl id (.unlock _ _) (fun _ => h1), h2⟩
    · rw [if_neg hl] at h; cases h

/-- Commands of a script. -/
inductive BCmd where
  | call (c : Call)
  | work (sel : Nat)
  /-- the compaction fails when all pairs of the current row have been copied -/
  | fail (sel : Nat)
  | mergeFail (p : Span)

def BCmd.run (cfg : Cfg) (S : BState) : BCmd → Option (List BEvent × BState)
  | .call c => match (c.prog cfg).execD cfg S.dead S.tree with
    | some (t', .exhausted) => none
    | some (t', r) => some ([.done (.call c r)], { S with tree := t' })
    | none => none
  | .work sel =>
    if S.tree.lightB && !decide ((S.tree.find sel).place ∈ S.dead) then (S.tree.bgStep cfg sel).map fun t' => ([], { S with tree := t' }) else none
  | .fail sel =>
    if S.tree.lightB && !decide ((S.tree.find sel).place ∈ S.dead) then
      match (S.tree.find sel).tgt with
      | none => none
      | some t =>
        if t.compactedUpTo < NUM_ROWS then
          match copyPrims cfg (t.compactedUpTo == 0) t.compactedUpTo t 0 ((S.tree.find sel).src.liveRow t.compactedUpTo) with
          | none => none
          | some ps => some ([], ⟨S.tree.modify sel (fun _ => { S.tree.find sel with tgt := some (t.run ps) }), (S.tree.find sel).place :: S.dead,
              (S.tree.find sel).place :: S.unread⟩)
        else none
    else none
  | .mergeFail p => if p ∈ S.unread then some ([.mergeFailed], { S with unread := S.unread.filter (· ≠ p) }) else none

theorem BCmd.run_sound {cfg : Cfg} {safe : Bool} {S S' S'' : BState} {es es' : List BEvent} {c : BCmd} (hok : S.OK cfg) (h : c.run cfg S = some (es, S'))
    (rest : S'.OK cfg → BRun cfg safe S' es' S'' ∧ S''.OK cfg) : BRun cfg safe S (es ++ es') S'' ∧ S''.OK cfg := by
  cases c with
  | call c =>
    unfold BCmd.run at h
    cases hx : (c.prog cfg).execD cfg S.dead S.tree with
    | none => simp only [hx] at h; cases h
    | some x =>
      obtain ⟨t', r⟩ := x
      obtain ⟨p', ⟨h1, h2⟩, h3⟩ := Prog.execD_sound (safe := safe) _ S hok hx
      have hne : r ≠ .exhausted := by rintro rfl; simp only [hx] at h; cases h
      have h : some ([BEvent.done (.call c r)], ({ S with tree := t' } : BState)) = some (es, S') := by
        rw [← h]; simp only [hx]
      simp only [Option.some.injEq, Prod.mk.injEq] at h
      obtain ⟨rfl, rfl⟩ := h
      obtain ⟨h4, h5⟩ := rest h2
      exact ⟨.call h1 h3 hne h4, h5⟩
  | work sel =>
    unfold BCmd.run at h
    dsimp only at h
    split at h
    · rename_i hc
      simp only [Bool.and_eq_true, Bool.not_eq_true', decide_eq_false_iff_not] at hc
      cases hb : S.tree.bgStep cfg sel with
      | none => rw [hb] at h; cases h
      | some t' =>
        rw [hb] at h
        simp only [Option.map_some, Option.some.injEq, Prod.mk.injEq] at h
        obtain ⟨rfl, rfl⟩ := h
        have hst : BgStep cfg S { S with tree := t' } := .work sel (hok.small hc.1) hc.2 hb
        obtain ⟨h4, h5⟩ := rest (hst.spec hok).1
        exact ⟨.bg hst h4, h5⟩
    · cases h
  | fail sel =>
    unfold BCmd.run at h
    dsimp only at h
    split at h
    · rename_i hc
      simp only [Bool.and_eq_true, Bool.not_eq_true', decide_eq_false_iff_not] at hc
      cases ht : (S.tree.find sel).tgt with
      | none => rw [ht] at h; cases h
      | some t =>
        rw [ht] at h
        dsimp only at h
        by_cases hlt : t.compactedUpTo < NUM_ROWS
        · rw [if_pos hlt] at h
          cases hp : copyPrims cfg (t.compactedUpTo == 0) t.compactedUpTo t 0 ((S.tree.find sel).src.liveRow t.compactedUpTo) with
          | none => rw [hp] at h; cases h
          | some ps =>
            rw [hp] at h
            simp only [Option.some.injEq, Prod.mk.injEq] at h
            obtain ⟨rfl, rfl⟩ := h
            have hst : BgStep cfg S ⟨S.tree.modify sel (fun _ => { S.tree.find sel with tgt := some (t.run ps) }), (S.tree.find sel).place :: S.dead,
                (S.tree.find sel).place :: S.unread⟩ := .fail sel (hok.small hc.1) hc.2 (.row ht hlt hp (MFile.Crash.done t ps))
            obtain ⟨h4, h5⟩ := rest (hst.spec hok).1
            exact ⟨.bg hst h4, h5⟩
        · rw [if_neg hlt] at h; cases h
    · cases h
  | mergeFail p =>
    unfold BCmd.run at h
    dsimp only at h
    by_cases hc : p ∈ S.unread
    · rw [if_pos hc] at h
      simp only [Option.some.injEq, Prod.mk.injEq] at h
      obtain ⟨rfl, rfl⟩ := h
      obtain ⟨h4, h5⟩ := rest ⟨hok.sane, hok.clean⟩
      exact ⟨.mergeFails hc h4, h5⟩
    · rw [if_neg hc] at h; cases h

def BCmd.runAll (cfg : Cfg) : List BCmd → BState → Option (List BEvent × BState)
  | [], S => some ([], S)
  | c :: cs, S =>
    match c.run cfg S with
    | none => none
    | some (es, S') =>
      match runAll cfg cs S' with
      | none => none
      | some (es', S'') => some (es ++ es', S'')

theorem BCmd.runAll_sound {cfg : Cfg} {safe : Bool} : ∀ (cs : List BCmd) (S : BState) {es : List BEvent} {S' : BState}, S.OK cfg → BCmd.runAll cfg cs S = some (es, S') →
    BRun cfg safe S es S' ∧ S'.OK cfg
  | [], S, es, S', hok, h => by
    simp only [BCmd.runAll, Option.some.injEq, Prod.mk.injEq] at h
    obtain ⟨rfl, rfl⟩ := h
    exact ⟨.nil _, hok⟩
  | c :: cs, S, es, S', hok, h => by
    unfold BCmd.runAll at h
    cases h1 : c.run cfg S with
    | none => rw [h1] at h; cases h
    | some x =>
      obtain ⟨es1, S1⟩ := x
      rw [h1] at h
      dsimp only at h
      cases h2 : BCmd.runAll cfg cs S1 with
      | none => rw [h2] at h; cases h
      | some y =>
        obtain ⟨es2, S2⟩ := y
        rw [h2] at h
        simp only [Option.some.injEq, Prod.mk.injEq] at h
        obtain ⟨rfl, rfl⟩ := h
        exact BCmd.run_sound hok h1 (fun hok1 => BCmd.runAll_sound cs S1 hok1 h2)

/-- Run a script on a new store and check the outcome. -/
def checkB (cfg : Cfg) (cs : List BCmd) (chk : List BEvent → BState → Bool) : Bool :=
  match Tree.create cfg with
  | none => false
  | some t =>
    match BCmd.runAll cfg cs ⟨t, [], []⟩ with
    | none => false
    | some (es, S) => chk es S

theorem checkB_sound {cfg : Cfg} {cs : List BCmd} {chk : List BEvent → BState → Bool} (h : checkB cfg cs chk = true) :
    ∃ es S, (∀ safe, BReachable cfg safe es S) ∧ S.OK cfg ∧ chk es S = true := by
  unfold checkB at h
  cases h1 : Tree.create cfg with
  | none => rw [h1] at h; cases h
  | some t =>
    rw [h1] at h
    dsimp only at h
    cases h2 : BCmd.runAll cfg cs ⟨t, [], []⟩ with
    | none => rw [h2] at h; cases h
    | some x =>
      obtain ⟨es, S⟩ := x
      rw [h2] at h
      have hok : BState.OK cfg ⟨t, [], []⟩ := (create_sane h1).1.weaken.bOK
      exact ⟨es, S, fun safe => ⟨t, h1, (BCmd.runAll_sound (safe := safe) cs _ hok h2).1⟩, (BCmd.runAll_sound (safe := true) cs _ hok h2).2, h⟩

theorem BRun.append {cfg : Cfg} {safe : Bool} {S S' S'' : BState} {es es' : List BEvent} (h : BRun cfg safe S es S') (h' : BRun cfg safe S' es' S'') :
    BRun cfg safe S (es ++ es') S'' := by
  induction h with
  | nil => exact h'
  | call a b c _ ih => exact .call a b c (ih h')
  | failed a b c _ ih => exact .failed a b c (ih h')
  | bg a _ ih => exact .bg a (ih h')
  | mergeFails a _ ih => exact .mergeFails a (ih h')
  | merge a b c d e _ ih => exact .merge a b c d e (ih h')
  | clear a _ ih => exact .clear a (ih h')
  | reopen a b c d e f _ ih => exact .reopen a b c d e f (ih h')
  | crash a b c d e f _ ih => exact .crash a b c d e f (ih h')

end Candy
