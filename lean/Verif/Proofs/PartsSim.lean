import Verif.Proofs.Parts
/-!
# A concurrent execution of any calls is a concurrent execution of their parts
-/
namespace Candy
open Spec

/-- A thread of the execution and the thread of the execution of parts. -/
def PRel (cfg : Cfg) (q : Bytes → Bool) (locks' : Nat → Option Nat) (i : Nat) (x y : Option (Call × Prog Resp)) (ph : PPhase) : Prop :=
  match x with
  | none => y = none ∧ ph = .out ∧ ∀ l, locks' l ≠ some i
  | some (c, p) => ∃ done, Plan cfg q p y (fun ps r => Does q c (done ++ ps) r) ∧
    match y with
    | none => ph = .between c done ∧ ∀ l, locks' l ≠ some i
    | some (c', _) => ph = .inside c done c'

structure PSim (cfg : Cfg) (q : Bytes → Bool) (s s' : AState) (ph : Nat → PPhase) : Prop where
  map : s'.map = s.map
  locks : ∀ l i, s'.locks l = some i → s.locks l = some i
  shape : (Shape cfg).Of s.map
  typed : ∀ i c p, s.thr i = some (c, p) → p.Types cfg (Shape cfg) True anyRes
  thr : ∀ i, PRel cfg q s'.locks i (s.thr i) (s'.thr i) (ph i)

theorem PRel.congr {cfg : Cfg} {q : Bytes → Bool} {l1 l2 : Nat → Option Nat} {i : Nat} {x y : Option (Call × Prog Resp)} {ph : PPhase} (h : PRel cfg q l1 i x y ph)
    (hl : ∀ l, l2 l = some i → l1 l = some i) : PRel cfg q l2 i x y ph := by
  cases x with
  | none => exact ⟨h.1, h.2.1, fun l e => h.2.2 l (hl l e)⟩
  | some x =>
    obtain ⟨c, p⟩ := x
    obtain ⟨done, h1, h2⟩ := h
    refine ⟨done, h1, ?_⟩
    cases y with
    | none => exact ⟨h2.1, fun l e => h2.2 l (hl l e)⟩
    | some y => exact h2

/-- Only thread `i` has changed. -/
theorem PSim.upd {cfg : Cfg} {q : Bytes → Bool} {s s' s1 s1' : AState} {ph ph1 : Nat → PPhase} {i : Nat} (h : PSim cfg q s s' ph) (hm : s1'.map = s1.map)
    (hl : ∀ l j, s1'.locks l = some j → s1.locks l = some j) (hs : (Shape cfg).Of s1.map) (ht : ∀ j, j ≠ i → s1.thr j = s.thr j) (ht' : ∀ j, j ≠ i → s1'.thr j = s'.thr j)
    (hph : ∀ j, j ≠ i → ph1 j = ph j) (hlk : ∀ j l, j ≠ i → s1'.locks l = some j → s'.locks l = some j)
    (hty : ∀ c p, s1.thr i = some (c, p) → p.Types cfg (Shape cfg) True anyRes) (hrel : PRel cfg q s1'.locks i (s1.thr i) (s1'.thr i) (ph1 i)) : PSim cfg q s1 s1' ph1 := by
  refine ⟨hm, hl, hs, fun j c p e => ?_, fun j => ?_⟩
  · by_cases hj : j = i
    · subst hj; exact hty c p e
    · rw [ht j hj] at e; exact h.typed j c p e
  · by_cases hj : j = i
    · subst hj; exact hrel
    · rw [ht j hj, ht' j hj, hph j hj]
      exact (h.thr j).congr (fun l e => hlk j l hj e)

theorem dropLocks_some {locks : Nat → Option Nat} {i l j : Nat} : dropLocks locks i l = some j ↔ locks l = some j ∧ j ≠ i := by
  unfold dropLocks
  by_cases h : locks l = some i
  · rw [if_pos h, h]
    constructor
    · intro e; cases e
    · rintro ⟨e, hn⟩; injection e with e; exact absurd e.symm hn
  · rw [if_neg h]
    exact ⟨fun e => ⟨e, fun hj => h (by rw [e, hj])⟩, fun e => e.1⟩

theorem result_of_plan {cfg : Cfg} {q : Bytes → Bool} {p : Prog Resp} {r : Res Resp} (hr : p.result = some r) (hne : r ≠ .exhausted) {D : Rest} :
    (Plan cfg q p none D → D [] r) ∧ (∀ c' p', Plan cfg q p (some (c', p')) D → p'.result = some r ∧ D [(c', r)] r) := by
  cases p <;> simp only [Prog.result, Option.some.injEq, reduceCtorEq] at hr <;> subst hr
  · exact ⟨id, fun c' p' h => ⟨by rw [h.1]; rfl, h.2⟩⟩
  · exact ⟨id, fun c' p' h => ⟨by rw [h.1]; rfl, h.2⟩⟩
  · exact ⟨id, fun c' p' h => ⟨by rw [h.1]; rfl, h.2⟩⟩
  · exact absurd rfl hne

/-- A raw operation in the middle of a part is the same raw operation of the part. -/
theorem plan_raw {cfg : Cfg} {q : Bytes → Bool} {p p1 : Prog Resp} {m m1 : Map} {c' : Call} {p' : Prog Resp} {D : Rest} (hst : AStep cfg m p m1 p1) (hl : p.onLock = false)
    (hm : (Shape cfg).Of m) (h : Plan cfg q p (some (c', p')) D) : ∃ p1', AStep cfg m p' m1 p1' ∧ p'.onLock = false ∧ Plan cfg q p1 (some (c', p1')) D := by
  cases hst with
  | get k c => obtain ⟨cx, rfl, h2⟩ := h; exact ⟨_, .get _ _ _, rfl, h2 _ (hm k)⟩
  | insErr k v mode c e hs => obtain ⟨cx, rfl, h2, h3⟩ := h; exact ⟨_, .insErr _ _ _ _ _ _ hs, rfl, rfl, h2 e⟩
  | ins k v mode c hs => obtain ⟨cx, rfl, h2, h3⟩ := h; exact ⟨_, .ins _ _ _ _ _ hs, rfl, h3 _ (hm k)⟩
  | rem k c => obtain ⟨cx, rfl, h2⟩ := h; exact ⟨_, .rem _ _ _, rfl, h2 _ (hm k)⟩
  | byHash ph suf c l hb => obtain ⟨cx, rfl, h2⟩ := h; exact ⟨_, .byHash _ _ _ _ _ hb, rfl, h2 _ _ hm hb⟩
  | lock => cases hl
  | unlock => cases hl

/-- A raw operation between two parts changes nothing, and may be explained by reading an item. -/
theorem plan_between {cfg : Cfg} {q : Bytes → Bool} {p p1 : Prog Resp} {m m1 : Map} {D : Rest} (hst : AStep cfg m p m1 p1) (hl : p.onLock = false)
    (hm : (Shape cfg).Of m) (h : Plan cfg q p none D) : m1 = m ∧ (Plan cfg q p1 none D ∨
      ∃ lk ik v b, q lk = true ∧ m (itemKey (cfg.listPh lk) ik) = some (v ++ b) ∧ b.length = 8 ∧
        (∃ rest r, D ((.list lk (.get ik), .ok (.val (some v))) :: rest) r) ∧
        Plan cfg q p1 none (fun ps r => D ((.list lk (.get ik), .ok (.val (some v))) :: ps) r)) := by
  cases hst with
  | get k c => exact ⟨rfl, .inl (h _ (hm k))⟩
  | insErr k v mode c e hs => exact h.elim
  | ins k v mode c hs => exact h.elim
  | rem k c => exact h.elim
  | byHash ph suf c l hb => exact ⟨rfl, h _ _ hm hb⟩
  | lock => cases hl
  | unlock => cases hl

theorem getItem_result {cfg : Cfg} {lk ik v b : Bytes} (hb : b.length = 8) : ∃ cont, (Call.list lk (.get ik)).prog cfg = .get (itemKey (cfg.listPh lk) ik) cont ∧
    (cont (some (v ++ b))).result = some (.ok (.val (some v))) := by
  refine ⟨_, rfl, ?_⟩
  show (((splitVal (v ++ b)).bind (fun x => .ret (some x.1))).bind (fun a => .ret (Resp.val a))).result = _
  unfold splitVal
  rw [if_neg (by simp; omega)]
  show some (Res.ok (Resp.val (some ((v ++ b).take ((v ++ b).length - 8))))) = _
  simp [hb]

theorem AConcRun.inParts {cfg : Cfg} {q : Bytes → Bool} {s s1 : AState} {tr : List CEvent} (h : AConcRun cfg s tr s1) :
    ∀ s' ph, PSim cfg q s s' ph → ∃ tr' s1', AConcRun cfg s' tr' s1' ∧ Splits q ph tr tr' ∧ (Shape cfg).Of s1.map ∧ s1'.map = s1.map ∧ ∀ i, s1.thr i = none → s1'.thr i = none := by
  induction h with
  | nil s => exact fun s' ph hs => ⟨[], s', .nil _, .nil _, hs.shape, hs.map, fun i hi => by have := hs.thr i; rw [hi] at this; exact this.1⟩
  | @inv s s1 tr i c h rest ih =>
    intro s' ph hs
    have hti := hs.thr i
    rw [h] at hti
    obtain ⟨hy, hp, hl⟩ := hti
    have htc : (c.prog cfg).Types cfg (Shape cfg) True anyRes := types_call c (fun _ => trivial)
    rcases plan_call (cfg := cfg) (q := q) c with hpl | ⟨hpl, hmay⟩
    · obtain ⟨tr', s1', g1, g2, g3⟩ := ih s' (setN ph i (.between c [])) (hs.upd (i := i) hs.map hs.locks hs.shape (fun j hj => setN_other _ _ hj) (fun _ _ => rfl) (fun j hj => setN_other _ _ hj)
        (fun _ _ _ e => e) (fun c' p e => by
          have e : setN s.thr i _ i = some (c', p) := e
          rw [setN_same] at e; cases e; exact htc) (by
          show PRel cfg q s'.locks i (setN s.thr i _ i) (s'.thr i) (setN ph i _ i)
          rw [setN_same, setN_same, hy]
          exact ⟨[], hpl, rfl, hl⟩))
      exact ⟨tr', s1', g1, .inv i c hp g2, g3⟩
    · obtain ⟨tr', s1', g1, g2, g3⟩ := ih { s' with thr := setN s'.thr i (some (c, c.prog cfg)) } (setN (setN ph i (.between c [])) i (.inside c [] c))
        (hs.upd (i := i) hs.map hs.locks hs.shape (fun j hj => setN_other _ _ hj) (fun j hj => setN_other _ _ hj) (fun j hj => by rw [setN_other _ _ hj, setN_other _ _ hj])
        (fun _ _ _ e => e) (fun c' p e => by
          have e : setN s.thr i _ i = some (c', p) := e
          rw [setN_same] at e; cases e; exact htc) (by
          show PRel cfg q s'.locks i (setN s.thr i _ i) (setN s'.thr i _ i) (setN _ i _ i)
          rw [setN_same, setN_same, setN_same]
          exact ⟨[], hpl, rfl⟩))
      exact ⟨.inv i c :: tr', s1', .inv i c hy g1, .inv i c hp (.start c (setN_same _ _ _) hmay g2), g3⟩
  | @raw s s1 tr i c p p' m' h hl hst rest ih =>
    intro s' ph hs
    have hti := hs.thr i
    rw [h] at hti
    obtain ⟨done, hpl, hy⟩ := hti
    obtain ⟨hm', htc⟩ := (hs.typed i c p h).step hs.shape hst
    have hty : ∀ c' p1, setN s.thr i (some (c, p')) i = some (c', p1) → p1.Types cfg (Shape cfg) True anyRes := by
      intro c' p1 e; rw [setN_same] at e; cases e; exact htc
    cases hys : s'.thr i with
    | some y =>
      obtain ⟨c', py⟩ := y
      rw [hys] at hpl hy
      obtain ⟨py1, h1, h2, h3⟩ := plan_raw hst hl hs.shape hpl
      obtain ⟨tr', s1', g1, g2, g3⟩ := ih { s' with map := m', thr := setN s'.thr i (some (c', py1)) } ph
        (hs.upd (i := i) rfl hs.locks hm' (fun j hj => setN_other _ _ hj) (fun j hj => setN_other _ _ hj) (fun _ _ => rfl) (fun _ _ _ e => e) hty (by
          show PRel cfg q s'.locks i (setN s.thr i _ i) (setN s'.thr i _ i) (ph i)
          rw [setN_same, setN_same]
          exact ⟨done, h3, hy⟩))
      exact ⟨tr', s1', .raw hys h2 (hs.map ▸ h1) g1, g2, g3⟩
    | none =>
      rw [hys] at hpl hy
      obtain ⟨rfl, h1 | ⟨lk, ik, v, b, h1, h2, h3, ⟨rs, r0, h4⟩, h5⟩⟩ := plan_between hst hl hs.shape hpl
      · refine ih s' ph (hs.upd (i := i) hs.map hs.locks hm' (fun j hj => setN_other _ _ hj) (fun _ _ => rfl) (fun _ _ => rfl) (fun _ _ _ e => e) hty ?_)
        show PRel cfg q s'.locks i (setN s.thr i _ i) (s'.thr i) (ph i)
        rw [setN_same, hys]
        exact ⟨done, h1, hy⟩
      · obtain ⟨cont, hc, hres⟩ := getItem_result (cfg := cfg) (lk := lk) (ik := ik) (v := v) h3
        obtain ⟨tr', s1', g1, g2, g3⟩ := ih { map := s'.map, locks := dropLocks s'.locks i, thr := setN (setN (setN s'.thr i (some (.list lk (.get ik), (Call.list lk (.get ik)).prog cfg))) i
            (some (.list lk (.get ik), cont (some (v ++ b))))) i none }
          (setN (setN ph i (.inside c done (.list lk (.get ik)))) i (.between c (done ++ [(.list lk (.get ik), .ok (.val (some v)))])))
          (hs.upd (i := i) hs.map (fun l j e => hs.locks l j (dropLocks_some.1 e).1) hm' (fun j hj => setN_other _ _ hj)
            (fun j hj => by show setN _ i _ j = _; rw [setN_other _ _ hj, setN_other _ _ hj, setN_other _ _ hj]) (fun j hj => by rw [setN_other _ _ hj, setN_other _ _ hj])
            (fun j l hj e => (dropLocks_some.1 e).1) hty (by
              show PRel cfg q (dropLocks s'.locks i) i (setN s.thr i _ i) (setN _ i _ i) (setN _ i _ i)
              rw [setN_same, setN_same, setN_same]
              refine ⟨_, h5.mono (fun ps r hh => ?_), rfl, fun l e => (dropLocks_some.1 e).2 rfl⟩
              rw [List.append_assoc]; exact hh))
        refine ⟨.inv i (.list lk (.get ik)) :: .ret i (.list lk (.get ik)) (.ok (.val (some v))) :: tr', s1', .inv i _ hys (.raw (setN_same _ _ _) (by rw [hc]; rfl) (?_) (.ret (setN_same _ _ _) hres (by simp) g1)),
          .start _ hy.1 ⟨_, rs, r0, h4⟩ (.finish _ (setN_same _ _ _) g2), g3⟩
        rw [hc]
        have hst' := AStep.get (cfg := cfg) s'.map (itemKey (cfg.listPh lk) ik) cont
        rw [show s'.map (itemKey (cfg.listPh lk) ik) = some (v ++ b) by rw [hs.map]; exact h2] at hst'
        exact hst'
  | @lock s s1 tr i l c p h hf rest ih =>
    intro s' ph hs
    have hti := hs.thr i
    rw [h] at hti
    obtain ⟨done, hpl, hy⟩ := hti
    have hk := hs.typed i c _ h
    have hty : ∀ c' p1, setN s.thr i (some (c, p)) i = some (c', p1) → p1.Types cfg (Shape cfg) True anyRes := by
      intro c' p1 e; rw [setN_same] at e; cases e; exact hk
    have hf' : s'.locks l = none := by
      cases hh : s'.locks l with
      | none => rfl
      | some j => rw [hs.locks l j hh] at hf; cases hf
    have sub : ∀ l' j, s'.locks l' = some j → setN s.locks l (some i) l' = some j := by
      intro l' j e
      by_cases hl : l' = l
      · subst hl; rw [hf'] at e; cases e
      · rw [setN_other _ _ hl]; exact hs.locks l' j e
    have sub2 : ∀ l' j, setN s'.locks l (some i) l' = some j → setN s.locks l (some i) l' = some j := by
      intro l' j e
      by_cases hl : l' = l
      · subst hl; rw [setN_same] at e ⊢; exact e
      · rw [setN_other _ _ hl] at e ⊢; exact hs.locks l' j e
    have oth : ∀ j l', j ≠ i → setN s'.locks l (some i) l' = some j → s'.locks l' = some j := by
      intro j l' hj e
      by_cases hl : l' = l
      · subst hl; rw [setN_same] at e; injection e with e; exact absurd e.symm hj
      · rw [setN_other _ _ hl] at e; exact e
    cases hys : s'.thr i with
    | some y =>
      obtain ⟨c', py⟩ := y
      rw [hys] at hpl hy
      obtain ⟨px, rfl, h2⟩ := hpl
      obtain ⟨tr', s1', g1, g2, g3⟩ := ih { s' with locks := setN s'.locks l (some i), thr := setN s'.thr i (some (c', px)) } ph
        (hs.upd (i := i) hs.map sub2 hs.shape (fun j hj => setN_other _ _ hj) (fun j hj => setN_other _ _ hj) (fun _ _ => rfl) oth hty (by
          show PRel cfg q _ i (setN s.thr i _ i) (setN s'.thr i _ i) (ph i)
          rw [setN_same, setN_same]
          exact ⟨done, h2, hy⟩))
      exact ⟨tr', s1', .lock hys hf' g1, g2, g3⟩
    | none =>
      rw [hys] at hpl hy
      rcases hpl with h1 | ⟨c', p', h1, ⟨r', rs, r0, h2⟩, h3⟩
      · refine ih s' ph (hs.upd (i := i) hs.map sub hs.shape (fun j hj => setN_other _ _ hj) (fun _ _ => rfl) (fun _ _ => rfl) (fun _ _ _ e => e) hty ?_)
        show PRel cfg q s'.locks i (setN s.thr i _ i) (s'.thr i) (ph i)
        rw [setN_same, hys]
        exact ⟨done, h1, hy⟩
      · obtain ⟨tr', s1', g1, g2, g3⟩ := ih { s' with locks := setN s'.locks l (some i), thr := setN (setN s'.thr i (some (c', c'.prog cfg))) i (some (c', p')) } (setN ph i (.inside c done c'))
          (hs.upd (i := i) hs.map sub2 hs.shape (fun j hj => setN_other _ _ hj) (fun j hj => by show setN _ i _ j = _; rw [setN_other _ _ hj, setN_other _ _ hj]) (fun j hj => setN_other _ _ hj) oth hty (by
            show PRel cfg q _ i (setN s.thr i _ i) (setN _ i _ i) (setN _ i _ i)
            rw [setN_same, setN_same, setN_same]
            exact ⟨done, h3, rfl⟩))
        refine ⟨.inv i c' :: tr', s1', .inv i c' hys (.lock ?_ hf' g1), .start c' hy.1 ⟨r', rs, r0, h2⟩ g2, g3⟩
        show setN s'.thr i _ i = _
        rw [setN_same, h1]
  | @unlock s s1 tr i c p h rest ih =>
    intro s' ph hs
    have hti := hs.thr i
    rw [h] at hti
    obtain ⟨done, hpl, hy⟩ := hti
    have hk := hs.typed i c _ h
    have hty : ∀ c' p1, setN s.thr i (some (c, p)) i = some (c', p1) → p1.Types cfg (Shape cfg) True anyRes := by
      intro c' p1 e; rw [setN_same] at e; cases e; exact hk
    cases hys : s'.thr i with
    | some y =>
      obtain ⟨c', py⟩ := y
      rw [hys] at hpl hy
      obtain ⟨x, r, rfl, h2, h3, h4⟩ := hpl
      obtain ⟨tr', s1', g1, g2, g3⟩ := ih { map := s'.map, locks := dropLocks (dropLocks s'.locks i) i, thr := setN (setN s'.thr i (some (c', x))) i none } (setN ph i (.between c (done ++ [(c', r)])))
        (hs.upd (i := i) hs.map (fun l j e => by
            have e := dropLocks_some.1 e
            exact dropLocks_some.2 ⟨hs.locks l j (dropLocks_some.1 e.1).1, e.2⟩) hs.shape (fun j hj => setN_other _ _ hj)
          (fun j hj => by show setN _ i _ j = _; rw [setN_other _ _ hj, setN_other _ _ hj]) (fun j hj => setN_other _ _ hj) (fun j l hj e => (dropLocks_some.1 (dropLocks_some.1 e).1).1) hty (by
            show PRel cfg q _ i (setN s.thr i _ i) (setN _ i _ i) (setN _ i _ i)
            rw [setN_same, setN_same, setN_same]
            refine ⟨_, h4.mono (fun ps r hh => ?_), rfl, fun l e => (dropLocks_some.1 e).2 rfl⟩
            rw [List.append_assoc]; exact hh))
      exact ⟨.ret i c' r :: tr', s1', .unlock hys (.ret (setN_same _ _ _) h2 h3 g1), .finish r hy g2, g3⟩
    | none =>
      rw [hys] at hpl hy
      refine ih s' ph (hs.upd (i := i) hs.map (fun l j e => dropLocks_some.2 ⟨hs.locks l j e, fun hj => hy.2 l (hj ▸ e)⟩) hs.shape (fun j hj => setN_other _ _ hj) (fun _ _ => rfl) (fun _ _ => rfl) (fun _ _ _ e => e) hty ?_)
      show PRel cfg q s'.locks i (setN s.thr i _ i) (s'.thr i) (ph i)
      rw [setN_same, hys]
      exact ⟨done, hpl, hy⟩
  | @ret s s1 tr i c p r h hr hne rest ih =>
    intro s' ph hs
    have hti := hs.thr i
    rw [h] at hti
    obtain ⟨done, hpl, hy⟩ := hti
    have hty : ∀ c' p1, setN s.thr i none i = some (c', p1) → p1.Types cfg (Shape cfg) True anyRes := by
      intro c' p1 e; rw [setN_same] at e; cases e
    cases hys : s'.thr i with
    | some y =>
      obtain ⟨c', py⟩ := y
      rw [hys] at hpl hy
      obtain ⟨h1, h2⟩ := (result_of_plan hr hne).2 c' py hpl
      obtain ⟨tr', s1', g1, g2, g3⟩ := ih { s' with locks := dropLocks s'.locks i, thr := setN s'.thr i none } (setN (setN ph i (.between c (done ++ [(c', r)]))) i .out)
        (hs.upd (i := i) hs.map (fun l j e => by
            have e := dropLocks_some.1 e
            exact dropLocks_some.2 ⟨hs.locks l j e.1, e.2⟩) hs.shape (fun j hj => setN_other _ _ hj)
          (fun j hj => setN_other _ _ hj) (fun j hj => by rw [setN_other _ _ hj, setN_other _ _ hj]) (fun j l hj e => (dropLocks_some.1 e).1) hty (by
            show PRel cfg q _ i (setN s.thr i _ i) (setN _ i _ i) (setN _ i _ i)
            rw [setN_same, setN_same, setN_same]
            exact ⟨rfl, rfl, fun l e => (dropLocks_some.1 e).2 rfl⟩))
      exact ⟨.ret i c' r :: tr', s1', .ret hys h1 hne g1, .finish r hy (.ret r (setN_same _ _ _) h2 g2), g3⟩
    | none =>
      rw [hys] at hpl hy
      have h1 := (result_of_plan hr hne).1 hpl
      rw [List.append_nil] at h1
      obtain ⟨tr', s1', g1, g2, g3⟩ := ih s' (setN ph i .out)
        (hs.upd (i := i) hs.map (fun l j e => dropLocks_some.2 ⟨hs.locks l j e, fun hj => hy.2 l (hj ▸ e)⟩) hs.shape (fun j hj => setN_other _ _ hj)
          (fun j hj => rfl) (fun j hj => setN_other _ _ hj) (fun j l hj e => e) hty (by
            show PRel cfg q _ i (setN s.thr i _ i) (s'.thr i) (setN _ i _ i)
            rw [setN_same, setN_same, hys]
            exact ⟨rfl, rfl, hy.2⟩))
      exact ⟨tr', s1', g1, .ret r hy.1 h1 g2, g3⟩

end Candy
