import Verif.Proofs.Runner
/-!
# C21 - C28: lists
-/
namespace Candy.Props
open Candy.Spec

/-! ## Helpers (proofs only) -/

/-- The state of a sane store represents list `lk` as `s`. -/
def LI (cfg : Cfg) (lk : Bytes) (t : Tree) (s : LState) : Prop := (∃ ex, Sane cfg ex t) ∧ ListAbs cfg (t.get cfg) lk s

theorem LI.step {cfg lk t s op r t'} (h : LI cfg lk t s) (hc : Calls cfg t (.list lk op) r t') (hne : r ≠ .exhausted) :
    ∃ s', lStep cfg lk s op r s' ∧ LI cfg lk t' s' := by
  obtain ⟨⟨ex, hs⟩, ha⟩ := h
  obtain ⟨p, h1, h2⟩ := hc
  obtain ⟨h3, h4⟩ := h1.sim hs.ok
  obtain ⟨s', h5, h6⟩ := (wp_listOp op ha).sound h4 h2
  exact ⟨s', h5, ⟨ex, hs.bound, h3⟩, (h6 hne).2⟩

theorem LI.distinct {cfg lk t s} (h : LI cfg lk t s) : s.items.Distinct := by
  obtain ⟨_, μ, L, h1, h2, _⟩ := h
  rw [← h2]; exact vis_distinct h1.items

/-- What an iteration shows. -/
theorem LI.iter {cfg lk t s fwd r t'} (h : LI cfg lk t s) (hc : Calls cfg t (.list lk (.iter fwd)) r t') (hne : r ≠ .exhausted) :
    r = .ok (.items (s.items.dir fwd)) ∧ ∃ s', LI cfg lk t' s' ∧ s'.items = s.items ∧ s'.clean = s.clean := by
  obtain ⟨s', h1, h2⟩ := h.step hc hne
  cases r with
  | ok a => obtain ⟨⟨e1, e2⟩, e3, _⟩ := h1; exact ⟨by rw [e2], s', h2, e1, e3⟩
  | err e => obtain ⟨_, _, _, e1, _⟩ := h1; simp [LOp.stores?] at e1
  | panic => exact h1.elim
  | exhausted => exact absurd rfl hne

/-- In the history no other list with the same 64-bit hash of its key was used. -/
def NoClash (cfg : Cfg) (lk : Bytes) (es : List Event) : Prop :=
  ∀ e ∈ es, ∀ lk' op, e.begun = some (.list lk' op) → cfg.listPh lk' = cfg.listPh lk → lk' = lk

/-- The calls on a list that keep it consistent if the process dies inside them (see C29 and C30). -/
def crashSafe : LOp → Bool
  | .set .. => true
  | .replace .. => true
  | .getOrCreate .. => true
  | .get _ => true
  | .iter _ => true
  | .peek _ => true
  | .len => true
  | _ => false

/-- In the history no other list with the same hash was used, and the process did not die inside a removal, promotion, compaction or
`discard_list` of this list. -/
def Orderly (cfg : Cfg) (lk : Bytes) (es : List Event) : Prop :=
  NoClash cfg lk es ∧ ∀ op, Event.crash (some (.list lk op)) ∈ es → crashSafe op = true

/-- In the history no call on the list failed or was cut off by a crash. -/
def NoFailedList (lk : Bytes) (es : List Event) : Prop :=
  ∀ op, (∀ r, Event.call (.list lk op) r ∈ es → ∃ a, r = .ok a) ∧ Event.crash (some (.list lk op)) ∉ es

theorem NoClash.tail {cfg lk e es} (h : NoClash cfg lk (e :: es)) : NoClash cfg lk es := fun x hx => h x (List.mem_cons_of_mem _ hx)
theorem Orderly.tail {cfg lk e es} (h : Orderly cfg lk (e :: es)) : Orderly cfg lk es :=
  ⟨h.1.tail, fun op hm => h.2 op (List.mem_cons_of_mem _ hm)⟩
theorem NoFailedList.tail {lk e es} (h : NoFailedList lk (e :: es)) : NoFailedList lk es :=
  fun op => ⟨fun r hm => (h op).1 r (List.mem_cons_of_mem _ hm), fun hm => (h op).2 (List.mem_cons_of_mem _ hm)⟩

/-! ## C21 -/

/-- The answers to the calls on list `lk` in a history are those of an insertion-ordered map (`Spec.lStep`) that starts as `s`. Calls on
other lists, of other APIs, `merge_small_shards` and reopening have no effect on it; `clear` empties it. After a crash inside a call on
the list, it is as `Spec.lCrash` says. -/
def LikeIdealList (cfg : Cfg) (lk : Bytes) : Option LState → List Event → Prop
  | _, [] => True
  | s, .call (.list k op) r :: es => if k = lk then ∃ x, listStep cfg lk op r s x ∧ LikeIdealList cfg lk x es else LikeIdealList cfg lk s es
  | s, .call _ _ :: es => LikeIdealList cfg lk s es
  | s, .merge _ :: es => LikeIdealList cfg lk s es
  | _, .clear :: es => LikeIdealList cfg lk (some LState.new) es
  | s, .reopen :: es => LikeIdealList cfg lk s es
  | s, .crash (some (.list k op)) :: es => if k = lk then ∃ x, listCrash op s x ∧ LikeIdealList cfg lk x es else LikeIdealList cfg lk s es
  | s, .crash _ :: es => LikeIdealList cfg lk s es

theorem specRun_likeList {cfg w es w' lk} (h : SpecRun cfg w es w') : NoClash cfg lk es → LikeIdealList cfg lk (w.lists lk) es := by
  induction h with
  | nil w => exact fun _ => trivial
  | @call w w1 w2 c r es h _ ih =>
    intro hn
    cases c with
    | kv k op => obtain ⟨m', h1, rfl⟩ := h; exact ih hn.tail
    | typed k op => obtain ⟨m', h1, rfl⟩ := h; exact ih hn.tail
    | queue k op => obtain ⟨m', h1, rfl⟩ := h; exact ih hn.tail
    | list k op =>
      obtain ⟨x, h1, rfl⟩ := h
      unfold LikeIdealList
      have i1 := ih hn.tail
      simp only [useList] at i1
      by_cases e : k = lk
      · subst e
        rw [if_pos rfl] at i1 ⊢
        exact ⟨x, h1, i1⟩
      · rw [if_neg e]
        have hne : cfg.listPh lk ≠ cfg.listPh k := fun he => e (hn _ List.mem_cons_self k op rfl he.symm)
        rw [if_neg (Ne.symm e), if_neg hne] at i1
        exact i1
  | merge _ ih => exact fun hn => ih hn.tail
  | clear _ ih => exact fun hn => ih hn.tail
  | reopen _ ih => exact fun hn => ih hn.tail
  | @crash w w1 w2 c es h _ ih =>
    intro hn
    cases c with
    | none => cases h; exact ih hn.tail
    | some c =>
      cases c with
      | kv k op => obtain ⟨m', h1, rfl⟩ := h; exact ih hn.tail
      | typed k op => obtain ⟨m', h1, rfl⟩ := h; exact ih hn.tail
      | queue k op => obtain ⟨m', h1, rfl⟩ := h; exact ih hn.tail
      | list k op =>
        obtain ⟨x, h1, rfl⟩ := h
        unfold LikeIdealList
        have i1 := ih hn.tail
        simp only [useList] at i1
        by_cases e : k = lk
        · subst e
          rw [if_pos rfl] at i1 ⊢
          exact ⟨x, h1, i1⟩
        · rw [if_neg e]
          have hne : cfg.listPh lk ≠ cfg.listPh k := fun he => e (hn _ List.mem_cons_self k op rfl he.symm)
          rw [if_neg (Ne.symm e), if_neg hne] at i1
          exact i1

theorem specRun_list {cfg w es w' lk} (h : SpecRun cfg w es w') : ∀ s, w.lists lk = some s → Orderly cfg lk es →
    ∃ s', w'.lists lk = some s' ∧ ((s.clean = true ∧ NoFailedList lk es) → s'.clean = true) := by
  induction h with
  | nil w => exact fun s hs _ => ⟨s, hs, fun h => h.1⟩
  | @call w w1 w2 c r es h _ ih =>
    intro s hs hn
    cases c with
    | kv k op =>
      obtain ⟨m', h1, rfl⟩ := h
      obtain ⟨s', i2, i3⟩ := ih s hs hn.tail
      exact ⟨s', i2, fun x => i3 ⟨x.1, x.2.tail⟩⟩
    | typed k op =>
      obtain ⟨m', h1, rfl⟩ := h
      obtain ⟨s', i2, i3⟩ := ih s hs hn.tail
      exact ⟨s', i2, fun x => i3 ⟨x.1, x.2.tail⟩⟩
    | queue k op =>
      obtain ⟨m', h1, rfl⟩ := h
      obtain ⟨s', i2, i3⟩ := ih s hs hn.tail
      exact ⟨s', i2, fun x => i3 ⟨x.1, x.2.tail⟩⟩
    | list k op =>
      obtain ⟨x, h1, rfl⟩ := h
      by_cases e : k = lk
      · subst e
        rw [hs] at h1
        obtain ⟨s1, h2, rfl⟩ := h1
        obtain ⟨s', i2, i3⟩ := ih s1 (by simp [useList]) hn.tail
        refine ⟨s', i2, fun x => i3 ⟨?_, x.2.tail⟩⟩
        cases r with
        | ok a => rw [h2.2.1]; exact x.1
        | err e => obtain ⟨a, ha⟩ := (x.2 op).1 _ List.mem_cons_self; simp at ha
        | panic => exact h2.elim
        | exhausted => obtain ⟨a, ha⟩ := (x.2 op).1 _ List.mem_cons_self; simp at ha
      · have hne : cfg.listPh lk ≠ cfg.listPh k := fun he => e (hn.1 _ List.mem_cons_self k op rfl he.symm)
        obtain ⟨s', i2, i3⟩ := ih s (by simp only [useList]; rw [if_neg (Ne.symm e), if_neg hne]; exact hs) hn.tail
        exact ⟨s', i2, fun x => i3 ⟨x.1, x.2.tail⟩⟩
  | @merge w w2 b es _ ih =>
    intro s hs hn
    obtain ⟨s', i2, i3⟩ := ih s hs hn.tail
    exact ⟨s', i2, fun x => i3 ⟨x.1, x.2.tail⟩⟩
  | @clear w w2 es _ ih =>
    intro s hs hn
    obtain ⟨s', i2, i3⟩ := ih LState.new rfl hn.tail
    exact ⟨s', i2, fun x => i3 ⟨rfl, x.2.tail⟩⟩
  | @reopen w w2 es _ ih =>
    intro s hs hn
    obtain ⟨s', i2, i3⟩ := ih s hs hn.tail
    exact ⟨s', i2, fun x => i3 ⟨x.1, x.2.tail⟩⟩
  | @crash w w1 w2 c es h _ ih =>
    intro s hs hn
    cases c with
    | none =>
      cases h
      obtain ⟨s', i2, i3⟩ := ih s hs hn.tail
      exact ⟨s', i2, fun x => i3 ⟨x.1, x.2.tail⟩⟩
    | some c =>
      cases c with
      | kv k op =>
        obtain ⟨m', h1, rfl⟩ := h
        obtain ⟨s', i2, i3⟩ := ih s hs hn.tail
        exact ⟨s', i2, fun x => i3 ⟨x.1, x.2.tail⟩⟩
      | typed k op =>
        obtain ⟨m', h1, rfl⟩ := h
        obtain ⟨s', i2, i3⟩ := ih s hs hn.tail
        exact ⟨s', i2, fun x => i3 ⟨x.1, x.2.tail⟩⟩
      | queue k op =>
        obtain ⟨m', h1, rfl⟩ := h
        obtain ⟨s', i2, i3⟩ := ih s hs hn.tail
        exact ⟨s', i2, fun x => i3 ⟨x.1, x.2.tail⟩⟩
      | list k op =>
        obtain ⟨x, h1, rfl⟩ := h
        by_cases e : k = lk
        · subst e
          rw [hs] at h1
          obtain ⟨s1, rfl⟩ : ∃ s1, x = some s1 := by
            have hc := hn.2 op List.mem_cons_self
            cases op <;> simp only [crashSafe, Bool.false_eq_true] at hc <;> simp only [listCrash, lCrash] at h1
            all_goals first
              | exact ⟨_, h1⟩
              | (obtain ⟨l, _, h1⟩ := h1; exact ⟨_, h1⟩)
          obtain ⟨s', i2, i3⟩ := ih s1 (by simp [useList]) hn.tail
          exact ⟨s', i2, fun x => absurd List.mem_cons_self (x.2 op).2⟩
        · have hne : cfg.listPh lk ≠ cfg.listPh k := fun he => e (hn.1 _ List.mem_cons_self k op rfl he.symm)
          obtain ⟨s', i2, i3⟩ := ih s (by simp only [useList]; rw [if_neg (Ne.symm e), if_neg hne]; exact hs) hn.tail
          exact ⟨s', i2, fun x => i3 ⟨x.1, x.2.tail⟩⟩

theorem list_state {cfg es t} (lk : Bytes) (h : Reachable cfg es t) (hn : Orderly cfg lk es) :
    ∃ s, LI cfg lk t s ∧ (NoFailedList lk es → s.clean = true) := by
  obtain ⟨w, h1, h2, h3⟩ := h.world
  obtain ⟨s, h4, h5⟩ := specRun_list h1 LState.new rfl hn
  exact ⟨s, ⟨⟨_, h2⟩, h3.lists lk s h4⟩, fun hf => h5 ⟨rfl, hf⟩⟩

/-- **C21.** In every history, the calls on a list answer as an insertion-ordered map does: see `Spec.lStep`, `Spec.lAnswer` and
`Spec.OList`. (`replace_in_list` with an expected value is C25; `len` is promised as long as no call on the list failed, C23.) -/
theorem C21_list_is_an_ordered_map {cfg : Cfg} {es : List Event} {t : Tree} {lk : Bytes} (h : Reachable cfg es t) (hn : NoClash cfg lk es) :
    LikeIdealList cfg lk (some LState.new) es := by
  obtain ⟨w, h1, _, _⟩ := h.world
  exact specRun_likeList h1 hn

/-- Two lists; items set, updated in place, promoted, popped, removed; iteration in both directions. -/
def demoLists : List (Call × Res Resp) :=
  [(.list [76] (.set [97] [1]), .ok (.setStatus .createdNew)),
   (.list [76] (.set [98] [2]), .ok (.setStatus .createdNew)),
   (.list [77] (.set [97] [7]), .ok (.setStatus .createdNew)),
   (.list [76] (.set [99] [3]), .ok (.setStatus .createdNew)),
   (.list [76] (.set [97] [4]), .ok (.setStatus (.prevValue [1]))),
   (.list [76] (.iter true), .ok (.items [([97], [4]), ([98], [2]), ([99], [3])])),
   (.list [76] (.setPromoting [98] [5]), .ok (.setStatus .createdNew)),
   (.list [76] (.iter false), .ok (.items [([98], [5]), ([99], [3]), ([97], [4])])),
   (.list [76] (.remove [99]), .ok (.val (some [3]))),
   (.list [76] (.pop true), .ok (.item (some ([97], [4])))),
   (.list [76] .len, .ok (.num 1)),
   (.list [77] (.iter true), .ok (.items [([97], [7])]))]

example : ∃ t, Reachable runCfg (hist demoLists) t ∧ NoClash runCfg [76] (hist demoLists) := by
  obtain ⟨t, h⟩ := checkHist_reachable (cfg := runCfg) (cs := demoLists) (by decide +kernel)
  refine ⟨t, h, ?_⟩
  have hph : runCfg.listPh [77] ≠ runCfg.listPh [76] := by decide +kernel
  intro e hm lk' op hb he
  simp only [hist, demoLists, List.map_cons, List.map_nil, List.mem_cons, List.not_mem_nil, or_false] at hm
  rcases hm with rfl | rfl | rfl | rfl | rfl | rfl | rfl | rfl | rfl | rfl | rfl | rfl
  all_goals (simp only [Event.begun, Option.some.injEq, Call.list.injEq] at hb; obtain ⟨h, _⟩ := hb; subst h)
  all_goals first | rfl | exact absurd he hph

/-- The situation of the theorems below can arise: after `cs`, an iteration, a call `c` and an iteration have these answers. -/
theorem around_demo {cs : List (Call × Res Resp)} {lk op r l l'} (h : checkHist runCfg
      (cs ++ [(.list lk (.iter true), .ok (.items l)), (.list lk op, r), (.list lk (.iter true), .ok (.items l'))]) = true) :
    ∃ t t1 t2 t3, Reachable runCfg (hist cs) t ∧ Calls runCfg t (.list lk (.iter true)) (.ok (.items l)) t1 ∧
      Calls runCfg t1 (.list lk op) r t2 ∧ r ≠ .exhausted ∧ Calls runCfg t2 (.list lk (.iter true)) (.ok (.items l')) t3 := by
  obtain ⟨t, t', h1, h2⟩ := checkHist_append h
  obtain ⟨t1, a1, _, h2⟩ := h2.cons_call
  obtain ⟨t2, a2, a3, h2⟩ := h2.cons_call
  obtain ⟨t3, a4, _, h2⟩ := h2.cons_call
  exact ⟨t, t1, t2, t3, h1, a1, a2, a3, a4⟩

/-- After `demoLists`-like calls: set an existing item, set a new item, replace, remove, pop at both ends, peek, get, compact, promote,
discard - each between two iterations. -/
def demo3 : List (Call × Res Resp) :=
  [(.list [76] (.set [97] [1]), .ok (.setStatus .createdNew)), (.list [76] (.set [98] [2]), .ok (.setStatus .createdNew)),
   (.list [76] (.set [99] [3]), .ok (.setStatus .createdNew))]

example := around_demo (cs := demo3) (lk := [76]) (op := .set [98] [9]) (r := .ok (.setStatus (.prevValue [2])))
  (l := [([97], [1]), ([98], [2]), ([99], [3])]) (l' := [([97], [1]), ([98], [9]), ([99], [3])]) (by decide +kernel)
example := around_demo (cs := demo3) (lk := [76]) (op := .set [100] [9]) (r := .ok (.setStatus .createdNew))
  (l := [([97], [1]), ([98], [2]), ([99], [3])]) (l' := [([97], [1]), ([98], [2]), ([99], [3]), ([100], [9])]) (by decide +kernel)
example := around_demo (cs := demo3) (lk := [76]) (op := .replace [98] [9] none) (r := .ok (.replaceStatus (.prevValue [2])))
  (l := [([97], [1]), ([98], [2]), ([99], [3])]) (l' := [([97], [1]), ([98], [9]), ([99], [3])]) (by decide +kernel)
example := around_demo (cs := demo3) (lk := [76]) (op := .remove [98]) (r := .ok (.val (some [2])))
  (l := [([97], [1]), ([98], [2]), ([99], [3])]) (l' := [([97], [1]), ([99], [3])]) (by decide +kernel)
example := around_demo (cs := demo3) (lk := [76]) (op := .pop true) (r := .ok (.item (some ([97], [1]))))
  (l := [([97], [1]), ([98], [2]), ([99], [3])]) (l' := [([98], [2]), ([99], [3])]) (by decide +kernel)
example := around_demo (cs := demo3) (lk := [76]) (op := .pop false) (r := .ok (.item (some ([99], [3]))))
  (l := [([97], [1]), ([98], [2]), ([99], [3])]) (l' := [([97], [1]), ([98], [2])]) (by decide +kernel)
example := around_demo (cs := demo3) (lk := [76]) (op := .peek false) (r := .ok (.item (some ([99], [3]))))
  (l := [([97], [1]), ([98], [2]), ([99], [3])]) (l' := [([97], [1]), ([98], [2]), ([99], [3])]) (by decide +kernel)
example := around_demo (cs := demo3) (lk := [76]) (op := .get [98]) (r := .ok (.val (some [2])))
  (l := [([97], [1]), ([98], [2]), ([99], [3])]) (l' := [([97], [1]), ([98], [2]), ([99], [3])]) (by decide +kernel)
example := around_demo (cs := demo3) (lk := [76]) (op := .len) (r := .ok (.num 3))
  (l := [([97], [1]), ([98], [2]), ([99], [3])]) (l' := [([97], [1]), ([98], [2]), ([99], [3])]) (by decide +kernel)
/-- A compaction that does something: items were removed from the middle. -/
example := around_demo (cs := demo3 ++ [(.list [76] (.remove [98]), .ok (.val (some [2])))]) (lk := [76]) (op := .compact ⟨1, fun _ _ => false⟩)
  (r := .ok (.flag true)) (l := [([97], [1]), ([99], [3])]) (l' := [([97], [1]), ([99], [3])]) (by decide +kernel)
example := around_demo (cs := demo3) (lk := [76]) (op := .setPromoting [97] [5]) (r := .ok (.setStatus .createdNew))
  (l := [([97], [1]), ([98], [2]), ([99], [3])]) (l' := [([98], [2]), ([99], [3]), ([97], [5])]) (by decide +kernel)
example := around_demo (cs := demo3) (lk := [76]) (op := .discard) (r := .ok (.flag true))
  (l := [([97], [1]), ([98], [2]), ([99], [3])]) (l' := []) (by decide +kernel)
example : Orderly runCfg [76] (hist demo3) ∧ NoFailedList [76] (hist demo3) := by
  refine ⟨⟨?_, ?_⟩, fun op => ⟨?_, ?_⟩⟩
  · intro e hm lk' op hb he
    simp only [hist, demo3, List.map_cons, List.map_nil, List.mem_cons, List.not_mem_nil, or_false] at hm
    rcases hm with rfl | rfl | rfl <;> (simp only [Event.begun, Option.some.injEq, Call.list.injEq] at hb; exact hb.1.symm)
  · intro op hm; simp [hist] at hm
  rotate_left
  · intro hm; simp [hist] at hm
  · intro r hm
    simp only [hist, demo3, List.map_cons, List.map_nil, List.mem_cons, List.not_mem_nil, or_false, Event.call.injEq] at hm
    rcases hm with h | h | h <;> exact ⟨_, h.2⟩

/-! ## Before and after one call, as seen by `iter_list` -/

/-- What `iter_list` shows before and after a call is related as the specification says. -/
theorem C21_before_after {cfg es t t1 t2 t3 lk op r l l'} (h : Reachable cfg es t) (hn : Orderly cfg lk es)
    (h1 : Calls cfg t (.list lk (.iter true)) (.ok (.items l)) t1) (h2 : Calls cfg t1 (.list lk op) r t2) (hne : r ≠ .exhausted)
    (h3 : Calls cfg t2 (.list lk (.iter true)) (.ok (.items l')) t3) :
    ∃ s s', s.items = l ∧ s'.items = l' ∧ (NoFailedList lk es → s.clean = true) ∧ OList.Distinct l ∧ lStep cfg lk s op r s' := by
  obtain ⟨s, a1, a2⟩ := list_state lk h hn
  obtain ⟨e1, s1, b1, b2, b3⟩ := a1.iter h1 (by simp)
  obtain ⟨s2, c1, c2⟩ := b1.step h2 hne
  obtain ⟨e2, s3, d1, d2, d3⟩ := c2.iter h3 (by simp)
  simp only [OList.dir, if_true, Res.ok.injEq, Resp.items.injEq] at e1 e2
  exact ⟨s1, s2, b2.trans e1.symm, e2.symm, fun x => b3.trans (a2 x), e1 ▸ a1.distinct, c1⟩

/-- `set_in_list`: updates the item in place or appends it. -/
theorem C21_set {cfg es t t1 t2 t3 lk ik v r l l'} (h : Reachable cfg es t) (hn : Orderly cfg lk es) (hfit : listFits cfg lk ik v)
    (h1 : Calls cfg t (.list lk (.iter true)) (.ok (.items l)) t1) (h2 : Calls cfg t1 (.list lk (.set ik v)) r t2) (hne : r ≠ .exhausted)
    (h3 : Calls cfg t2 (.list lk (.iter true)) (.ok (.items l')) t3) :
    ((∀ p ∈ l, p.1 ≠ ik) → r = .ok (.setStatus .createdNew) ∧ l' = l ++ [(ik, v)]) ∧
    (∀ a b old, l = a ++ (ik, old) :: b → r = .ok (.setStatus (.prevValue old)) ∧ l' = a ++ (ik, v) :: b) := by
  obtain ⟨s, s', rfl, rfl, _, hd, hs⟩ := C21_before_after h hn h1 h2 hne h3
  have hok : ∃ a, r = .ok a := by
    cases r with
    | ok a => exact ⟨a, rfl⟩
    | err e => obtain ⟨_, _, _, e1, e2, _⟩ := hs; simp only [LOp.stores?, Option.some.injEq, Prod.mk.injEq] at e1; obtain ⟨rfl, rfl, _⟩ := e1; exact absurd hfit e2
    | panic => exact hs.elim
    | exhausted => exact absurd rfl hne
  obtain ⟨a, rfl⟩ := hok
  obtain ⟨⟨e1, e2⟩, _⟩ := hs
  constructor
  · intro hk
    have hg : s.items.get ik = none := by
      unfold OList.get
      rw [List.find?_eq_none.2 (fun p hp => by simpa using hk p hp)]; rfl
    rw [e1, e2, hg]
    refine ⟨rfl, ?_⟩
    unfold OList.set; rw [hg]; rfl
  · intro x y old e
    have hne1 : ∀ p ∈ x, p.1 ≠ ik := by
      intro p hp
      rw [e] at hd
      exact (List.pairwise_append.1 hd).2.2 p hp (ik, old) List.mem_cons_self
    have hne2 : ∀ p ∈ y, p.1 ≠ ik := by
      intro p hp
      rw [e] at hd
      exact ((List.pairwise_cons.1 (List.pairwise_append.1 hd).2.1).1 p hp).symm
    have hg : s.items.get ik = some old := by
      unfold OList.get
      rw [e, List.find?_append, List.find?_eq_none.2 (fun p hp => by simpa using hne1 p hp)]
      simp
    rw [e1, e2, hg]
    refine ⟨rfl, ?_⟩
    have hid : ∀ z : OList, (∀ p ∈ z, p.1 ≠ ik) → z.map (fun p => if p.1 = ik then (ik, v) else p) = z := by
      intro z hz
      refine (List.map_congr_left (g := id) ?_).trans (List.map_id _)
      intro p hp; rw [if_neg (hz p hp)]; rfl
    unfold OList.set; rw [hg]
    rw [if_pos Option.isSome_some, e, List.map_append, List.map_cons, hid x hne1, hid y hne2, if_pos rfl]

theorem erase_none {l : OList} {k : Bytes} (h : ∀ p ∈ l, p.1 ≠ k) : l.erase k = l := by
  unfold OList.erase
  rw [List.filter_eq_self]
  intro p hp; simpa using h p hp

theorem erase_mid {a b : OList} {k v : Bytes} (h : OList.Distinct (a ++ (k, v) :: b)) : (a ++ (k, v) :: b : OList).erase k = a ++ b := by
  have h1 := List.pairwise_append.1 h
  have h2 := List.pairwise_cons.1 h1.2.1
  have e1 := erase_none (l := a) (k := k) (fun p hp => h1.2.2 p hp (k, v) List.mem_cons_self)
  have e2 := erase_none (l := b) (k := k) (fun p hp => (h2.1 p hp).symm)
  unfold OList.erase at *
  rw [List.filter_append, List.filter_cons_of_neg (by simp), e1, e2]

theorem get_mid {a b : OList} {k v : Bytes} (h : OList.Distinct (a ++ (k, v) :: b)) : OList.get (a ++ (k, v) :: b) k = some v := by
  have h1 := List.pairwise_append.1 h
  unfold OList.get
  rw [List.find?_append, List.find?_eq_none.2 (fun p hp => by simpa using h1.2.2 p hp (k, v) List.mem_cons_self)]
  simp

theorem get_none {l : OList} {k : Bytes} (h : ∀ p ∈ l, p.1 ≠ k) : OList.get l k = none := by
  unfold OList.get
  rw [List.find?_eq_none.2 (fun p hp => by simpa using h p hp)]; rfl

/-- Calls that store nothing succeed. -/
theorem ok_of_lStep {cfg lk s op r s'} (h : lStep cfg lk s op r s') (hst : LOp.stores? s.items op = none) (hne : r ≠ .exhausted) :
    ∃ a, r = .ok a ∧ lAnswer s op a s'.items ∧ s'.clean = s.clean := by
  cases r with
  | ok a => exact ⟨a, rfl, h.1, h.2.1⟩
  | err e => obtain ⟨_, _, _, e1, _⟩ := h; rw [hst] at e1; simp at e1
  | panic => exact h.elim
  | exhausted => exact absurd rfl hne

/-- `remove_from_list` returns the item's value and takes out exactly that item, leaving the order of the others. -/
theorem C21_remove {cfg es t t1 t2 t3 lk ik r l l'} (h : Reachable cfg es t) (hn : Orderly cfg lk es)
    (h1 : Calls cfg t (.list lk (.iter true)) (.ok (.items l)) t1) (h2 : Calls cfg t1 (.list lk (.remove ik)) r t2) (hne : r ≠ .exhausted)
    (h3 : Calls cfg t2 (.list lk (.iter true)) (.ok (.items l')) t3) :
    ((∀ p ∈ l, p.1 ≠ ik) → r = .ok (.val none) ∧ l' = l) ∧
    (∀ a b old, l = a ++ (ik, old) :: b → r = .ok (.val (some old)) ∧ l' = a ++ b) := by
  obtain ⟨s, s', rfl, rfl, _, hd, hs⟩ := C21_before_after h hn h1 h2 hne h3
  obtain ⟨a, rfl, ⟨e1, e2⟩, _⟩ := ok_of_lStep hs rfl hne
  constructor
  · intro hk; rw [e1, e2, get_none hk, erase_none hk]; exact ⟨rfl, rfl⟩
  · intro x y old e
    rw [e] at hd
    rw [e1, e2, e, get_mid hd, erase_mid hd]; exact ⟨rfl, rfl⟩

/-- `get_from_list` returns what the iteration shows. -/
theorem C21_get {cfg es t t1 t2 lk ik r l} (h : Reachable cfg es t) (hn : Orderly cfg lk es)
    (h1 : Calls cfg t (.list lk (.iter true)) (.ok (.items l)) t1) (h2 : Calls cfg t1 (.list lk (.get ik)) r t2) (hne : r ≠ .exhausted) :
    (∀ v, (ik, v) ∈ l → r = .ok (.val (some v))) ∧ ((∀ p ∈ l, p.1 ≠ ik) → r = .ok (.val none)) := by
  obtain ⟨s, a1, a2⟩ := list_state lk h hn
  obtain ⟨e1, s1, b1, b2, b3⟩ := a1.iter h1 (by simp)
  obtain ⟨s2, c1, c2⟩ := b1.step h2 hne
  simp only [OList.dir, if_true, Res.ok.injEq, Resp.items.injEq] at e1
  obtain ⟨a, rfl, ⟨_, e2⟩, _⟩ := ok_of_lStep c1 rfl hne
  rw [b2, ← e1] at e2
  have hd : OList.Distinct l := e1 ▸ a1.distinct
  constructor
  · intro v hv
    obtain ⟨x, y, e⟩ := List.append_of_mem hv
    rw [e2]; rw [e] at hd ⊢; rw [get_mid hd]
  · intro hk; rw [e2, get_none hk]

/-! ## C22 -/

/-- **C22.** `peek_list_head/tail` and `pop_list_head/tail` return the first / last item of the iteration order; `pop` takes out
exactly that item. -/
theorem C22_pop {cfg es t t1 t2 t3 lk fwd r l l'} (h : Reachable cfg es t) (hn : Orderly cfg lk es)
    (h1 : Calls cfg t (.list lk (.iter true)) (.ok (.items l)) t1) (h2 : Calls cfg t1 (.list lk (.pop fwd)) r t2) (hne : r ≠ .exhausted)
    (h3 : Calls cfg t2 (.list lk (.iter true)) (.ok (.items l')) t3) :
    r = .ok (.item (if fwd then l.head? else l.getLast?)) ∧ l' = if fwd then l.tail else l.dropLast := by
  obtain ⟨s, s', rfl, rfl, _, hd, hs⟩ := C21_before_after h hn h1 h2 hne h3
  obtain ⟨a, rfl, ⟨e1, e2⟩, _⟩ := ok_of_lStep hs rfl hne
  rw [e1, e2]
  generalize s.items = l at *
  cases fwd with
  | true =>
    cases l with
    | nil => exact ⟨rfl, rfl⟩
    | cons p l =>
      refine ⟨rfl, ?_⟩
      exact erase_mid (a := []) (k := p.1) (v := p.2) (b := l) hd
  | false =>
    simp only [OList.dir, if_false, Bool.false_eq_true, List.head?_reverse, true_and]
    rcases List.eq_nil_or_concat l with rfl | ⟨l0, p, e⟩
    · rfl
    · subst e
      rw [List.concat_eq_append] at *
      simp only [List.getLast?_append, List.getLast?_singleton, Option.some_or, List.dropLast_concat]
      have := erase_mid (a := l0) (k := p.1) (v := p.2) (b := []) hd
      simpa using this

theorem C22_peek {cfg es t t1 t2 lk fwd r l} (h : Reachable cfg es t) (hn : Orderly cfg lk es)
    (h1 : Calls cfg t (.list lk (.iter true)) (.ok (.items l)) t1) (h2 : Calls cfg t1 (.list lk (.peek fwd)) r t2) (hne : r ≠ .exhausted) :
    r = .ok (.item (if fwd then l.head? else l.getLast?)) := by
  obtain ⟨s, a1, a2⟩ := list_state lk h hn
  obtain ⟨e1, s1, b1, b2, b3⟩ := a1.iter h1 (by simp)
  obtain ⟨s2, c1, c2⟩ := b1.step h2 hne
  simp only [OList.dir, if_true, Res.ok.injEq, Resp.items.injEq] at e1
  obtain ⟨a, rfl, ⟨_, e2⟩, _⟩ := ok_of_lStep c1 rfl hne
  rw [b2, ← e1] at e2
  rw [e2]
  cases fwd with
  | true => rfl
  | false => simp [OList.dir]

/-- Iterating backwards gives the same items in reverse order. -/
theorem C22_reverse {cfg es t t1 t2 lk r l} (h : Reachable cfg es t) (hn : Orderly cfg lk es)
    (h1 : Calls cfg t (.list lk (.iter true)) (.ok (.items l)) t1) (h2 : Calls cfg t1 (.list lk (.iter false)) r t2) (hne : r ≠ .exhausted) :
    r = .ok (.items l.reverse) := by
  obtain ⟨s, a1, a2⟩ := list_state lk h hn
  obtain ⟨e1, s1, b1, b2, b3⟩ := a1.iter h1 (by simp)
  obtain ⟨e2, _⟩ := b1.iter h2 hne
  simp only [OList.dir, if_true, Res.ok.injEq, Resp.items.injEq] at e1
  rw [e2, b2, e1]; rfl

/-! ## C23 -/

/-- **C23.** `list_len` is the number of items, as long as no call on the list has failed. (After a failed call it is not: C31.) -/
theorem C23_len {cfg es t t1 t2 lk r l} (h : Reachable cfg es t) (hn : Orderly cfg lk es) (hf : NoFailedList lk es)
    (h1 : Calls cfg t (.list lk (.iter true)) (.ok (.items l)) t1) (h2 : Calls cfg t1 (.list lk .len) r t2) (hne : r ≠ .exhausted) :
    r = .ok (.num l.length) := by
  obtain ⟨s, a1, a2⟩ := list_state lk h hn
  obtain ⟨e1, s1, b1, b2, b3⟩ := a1.iter h1 (by simp)
  obtain ⟨s2, c1, c2⟩ := b1.step h2 hne
  simp only [OList.dir, if_true, Res.ok.injEq, Resp.items.injEq] at e1
  obtain ⟨a, rfl, ⟨_, n, e2, e3⟩, _⟩ := ok_of_lStep c1 rfl hne
  rw [e2, e3 (b3.trans (a2 hf)), b2, e1]

/-! ## C24 -/

/-- **C24.** `compact_list_if_needed`, with any parameters, changes neither the items nor their order. -/
theorem C24_compact {cfg es t t1 t2 t3 lk par r l l'} (h : Reachable cfg es t) (hn : Orderly cfg lk es)
    (h1 : Calls cfg t (.list lk (.iter true)) (.ok (.items l)) t1) (h2 : Calls cfg t1 (.list lk (.compact par)) r t2) (hne : r ≠ .exhausted)
    (h3 : Calls cfg t2 (.list lk (.iter true)) (.ok (.items l')) t3) : (∃ b, r = .ok (.flag b)) ∧ l' = l := by
  obtain ⟨s, s', rfl, rfl, _, hd, hs⟩ := C21_before_after h hn h1 h2 hne h3
  obtain ⟨a, rfl, ⟨e1, b, e2⟩, _⟩ := ok_of_lStep hs rfl hne
  exact ⟨⟨b, by rw [e2]⟩, e1⟩

/-! ## C26 -/

/-- **C26** (partial: the status is always `CreatedNew`, also when the item existed; the position is as documented).
`set_in_list_promoting` moves the item to the tail. -/
theorem C26_promote_partial {cfg es t t1 t2 t3 lk ik v r l l'} (h : Reachable cfg es t) (hn : Orderly cfg lk es) (hfit : listFits cfg lk ik v)
    (h1 : Calls cfg t (.list lk (.iter true)) (.ok (.items l)) t1) (h2 : Calls cfg t1 (.list lk (.setPromoting ik v)) r t2) (hne : r ≠ .exhausted)
    (h3 : Calls cfg t2 (.list lk (.iter true)) (.ok (.items l')) t3) :
    r = .ok (.setStatus .createdNew) ∧ l' = l.filter (fun p => decide (p.1 ≠ ik)) ++ [(ik, v)] := by
  obtain ⟨s, s', rfl, rfl, _, hd, hs⟩ := C21_before_after h hn h1 h2 hne h3
  cases r with
  | ok a => exact ⟨by rw [hs.1.2], hs.1.1⟩
  | err e => obtain ⟨_, _, _, e1, e2, _⟩ := hs; simp only [LOp.stores?, Option.some.injEq, Prod.mk.injEq] at e1; obtain ⟨rfl, rfl, _⟩ := e1; exact absurd hfit e2
  | panic => exact hs.elim
  | exhausted => exact absurd rfl hne

/-- The status part of C26 fails: an existing item is promoted and `CreatedNew` is reported. -/
theorem C26_status_refuted : ∃ es t t' ik v old, Reachable runCfg es t ∧
    Run runCfg t [.call (.list [76] (.get ik)) (.ok (.val (some old))), .call (.list [76] (.setPromoting ik v)) (.ok (.setStatus .createdNew))] t' := by
  obtain ⟨t, t', h1, h2⟩ := checkHist_append (cfg := runCfg) (cs := [(.list [76] (.set [97] [1]), .ok (.setStatus .createdNew))])
    (ds := [(.list [76] (.get [97]), .ok (.val (some [1]))), (.list [76] (.setPromoting [97] [2]), .ok (.setStatus .createdNew))]) (by decide +kernel)
  exact ⟨_, t, t', [97], [2], [1], h1, h2⟩

/-! ## C28 -/

/-- **C28.** `discard_list` empties the list, and reports `true` if it had items (a list without items may also give `true`:
see `C28_flag_refuted`). -/
theorem C28_discard {cfg es t t1 t2 t3 lk r l l'} (h : Reachable cfg es t) (hn : Orderly cfg lk es)
    (h1 : Calls cfg t (.list lk (.iter true)) (.ok (.items l)) t1) (h2 : Calls cfg t1 (.list lk .discard) r t2) (hne : r ≠ .exhausted)
    (h3 : Calls cfg t2 (.list lk (.iter true)) (.ok (.items l')) t3) : (∃ b, r = .ok (.flag b) ∧ (l ≠ [] → b = true)) ∧ l' = [] := by
  obtain ⟨s, s', rfl, rfl, _, hd, hs⟩ := C21_before_after h hn h1 h2 hne h3
  obtain ⟨a, rfl, ⟨e1, b, e2, e3⟩, _⟩ := ok_of_lStep hs rfl hne
  exact ⟨⟨b, by rw [e2], e3⟩, e1⟩

/-- A list without items, whose discarding reports `true`: two items, the second removed first, then the first. -/
theorem C28_flag_refuted : ∃ es t t', Reachable runCfg es t ∧
    Run runCfg t [.call (.list [76] (.iter true)) (.ok (.items [])), .call (.list [76] .discard) (.ok (.flag true))] t' := by
  obtain ⟨t, t', h1, h2⟩ := checkHist_append (cfg := runCfg) (cs := [(.list [76] (.set [97] [1]), .ok (.setStatus .createdNew)),
      (.list [76] (.set [98] [1]), .ok (.setStatus .createdNew)), (.list [76] (.set [99] [1]), .ok (.setStatus .createdNew)),
      (.list [76] (.remove [98]), .ok (.val (some [1]))), (.list [76] (.remove [97]), .ok (.val (some [1]))),
      (.list [76] (.remove [99]), .ok (.val (some [1])))])
    (ds := [(.list [76] (.iter true), .ok (.items [])), (.list [76] .discard, .ok (.flag true))]) (by decide +kernel)
  exact ⟨_, t, t', h1, h2⟩

/-! ## C25 -/

/-- **C25 does not hold**: an item has the expected value, and `replace_in_list` reports that it has not. -/
theorem C25_refuted : ∃ es t t', Reachable runCfg es t ∧ Run runCfg t
    [.call (.list [76] (.get [97])) (.ok (.val (some [1]))),
     .call (.list [76] (.replace [97] [2] (some [1]))) (.ok (.replaceStatus (.wrongValue [1])))] t' := by
  obtain ⟨t, t', h1, h2⟩ := checkHist_append (cfg := runCfg) (cs := [(.list [76] (.set [97] [1]), .ok (.setStatus .createdNew))])
    (ds := [(.list [76] (.get [97]), .ok (.val (some [1]))),
      (.list [76] (.replace [97] [2] (some [1])), .ok (.replaceStatus (.wrongValue [1])))]) (by decide +kernel)
  exact ⟨_, t, t', h1, h2⟩

/-- Worse: an expected value that is not the item's value can be accepted (it is compared with an internal index). -/
theorem C25_refuted_accepts : ∃ es t t', Reachable runCfg es t ∧ Run runCfg t
    [.call (.list [76] (.get [97])) (.ok (.val (some [1]))),
     .call (.list [76] (.replace [97] [2] (some [0, 0, 0, 0, 0, 0, 0, 128]))) (.ok (.replaceStatus (.prevValue [1])))] t' := by
  obtain ⟨t, t', h1, h2⟩ := checkHist_append (cfg := runCfg) (cs := [(.list [76] (.set [97] [1]), .ok (.setStatus .createdNew))])
    (ds := [(.list [76] (.get [97]), .ok (.val (some [1]))),
      (.list [76] (.replace [97] [2] (some [0, 0, 0, 0, 0, 0, 0, 128])), .ok (.replaceStatus (.prevValue [1])))]) (by decide +kernel)
  exact ⟨_, t, t', h1, h2⟩

/-- **C25** (partial: without an expected value, and for items that do not exist). -/
theorem C25_replace_partial {cfg es t t1 t2 t3 lk ik v e r l l'} (h : Reachable cfg es t) (hn : Orderly cfg lk es) (hfit : listFits cfg lk ik v)
    (h1 : Calls cfg t (.list lk (.iter true)) (.ok (.items l)) t1) (h2 : Calls cfg t1 (.list lk (.replace ik v e)) r t2) (hne : r ≠ .exhausted)
    (h3 : Calls cfg t2 (.list lk (.iter true)) (.ok (.items l')) t3) :
    ((∀ p ∈ l, p.1 ≠ ik) → r = .ok (.replaceStatus .doesNotExist) ∧ l' = l) ∧
    (∀ old, (ik, old) ∈ l → e = none → r = .ok (.replaceStatus (.prevValue old)) ∧ l' = OList.set l ik v) ∧
    (∀ old x, (ik, old) ∈ l → e = some x → x.length ≠ 8 → r = .ok (.replaceStatus (.wrongValue old)) ∧ l' = l) := by
  obtain ⟨s, s', rfl, rfl, _, hd, hs⟩ := C21_before_after h hn h1 h2 hne h3
  have hok : ∃ a, r = .ok a := by
    cases r with
    | ok a => exact ⟨a, rfl⟩
    | err e => obtain ⟨_, _, _, e1, e2, _⟩ := hs; simp only [LOp.stores?, Option.some.injEq, Prod.mk.injEq] at e1; obtain ⟨rfl, rfl, _⟩ := e1; exact absurd hfit e2
    | panic => exact hs.elim
    | exhausted => exact absurd rfl hne
  obtain ⟨a, rfl⟩ := hok
  have hs := hs.1
  have hg : ∀ old, (ik, old) ∈ s.items → s.items.get ik = some old := by
    intro old hv
    obtain ⟨x, y, e⟩ := List.append_of_mem hv
    rw [e] at hd ⊢; exact get_mid hd
  refine ⟨fun hk => ?_, fun old hv he => ?_, fun old x hv he hx => ?_⟩
  · have hg := get_none hk
    cases e with
    | none => unfold lAnswer at hs; dsimp only at hs; rw [hg] at hs; exact ⟨by rw [hs.2], hs.1⟩
    | some e => unfold lAnswer at hs; dsimp only at hs; rw [hg] at hs; exact ⟨by rw [hs.2], hs.1⟩
  · subst he
    unfold lAnswer at hs; dsimp only at hs; rw [hg old hv] at hs
    exact ⟨by rw [hs.2], hs.1⟩
  · subst he
    unfold lAnswer at hs; dsimp only at hs; rw [hg old hv] at hs
    rcases hs with hs | hs
    · exact ⟨by rw [hs.2], hs.1⟩
    · exact absurd hs.1 hx

end Candy.Props
