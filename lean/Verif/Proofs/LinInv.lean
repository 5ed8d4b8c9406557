import Verif.Spec.Conc
/-!
# The sequential explanations of small concurrent histories of two threads
-/
namespace Candy.Spec

/-- Two threads. -/
def two (a b : Phase) : Nat → Phase := fun j => if j = 0 then a else if j = 1 then b else .out

theorem setN_two0 {a b x} : setN (two a b) 0 x = two x b := by
  funext j; unfold setN two; by_cases h : j = 0 <;> simp [h]

theorem setN_two1 {a b x} : setN (two a b) 1 x = two a x := by
  funext j; unfold setN two
  by_cases h : j = 0
  · subst h; simp
  · by_cases h1 : j = 1 <;> simp [h, h1]

/-- What may happen next. -/
inductive Next (a b : Phase) : List CEvent → List (Call × Res Resp) → Prop
  | nil : Next a b [] []
  | eff0 {tr ops c r} (h : a = .called c) (hr : Lin (two (.effect c r) b) tr ops) : Next a b tr ((c, r) :: ops)
  | eff1 {tr ops c r} (h : b = .called c) (hr : Lin (two a (.effect c r)) tr ops) : Next a b tr ((c, r) :: ops)
  | inv0 {tr ops c} (h : a = .out) (hr : Lin (two (.called c) b) tr ops) : Next a b (.inv 0 c :: tr) ops
  | inv1 {tr ops c} (h : b = .out) (hr : Lin (two a (.called c)) tr ops) : Next a b (.inv 1 c :: tr) ops
  | inv {tr ops i c} (h : 2 ≤ i) : Next a b (.inv i c :: tr) ops
  | ret0 {tr ops c r} (h : a = .effect c r) (hr : Lin (two .out b) tr ops) : Next a b (.ret 0 c r :: tr) ops
  | ret1 {tr ops c r} (h : b = .effect c r) (hr : Lin (two a .out) tr ops) : Next a b (.ret 1 c r :: tr) ops

theorem Lin.next {a b tr ops} (h : Lin (two a b) tr ops) : Next a b tr ops := by
  generalize hph : two a b = ph at h
  cases h with
  | nil => exact .nil
  | inv i c h rest =>
    subst hph
    by_cases h0 : i = 0
    · subst h0; rw [setN_two0] at rest; exact .inv0 h rest
    · by_cases h1 : i = 1
      · subst h1; rw [setN_two1] at rest; exact .inv1 h rest
      · exact .inv (by omega)
  | effect i c r h _ rest =>
    subst hph
    by_cases h0 : i = 0
    · subst h0; rw [setN_two0] at rest; exact .eff0 h rest
    · by_cases h1 : i = 1
      · subst h1; rw [setN_two1] at rest; exact .eff1 h rest
      · simp [two, h0, h1] at h
  | ret i c r h rest =>
    subst hph
    by_cases h0 : i = 0
    · subst h0; rw [setN_two0] at rest; exact .ret0 h rest
    · by_cases h1 : i = 1
      · subst h1; rw [setN_two1] at rest; exact .ret1 h rest
      · simp [two, h0, h1] at h

theorem Linearizes.two {tr ops} (h : Linearizes tr ops) : Lin (two .out .out) tr ops := by
  have : (fun _ => Phase.out) = Spec.two .out .out := by funext j; unfold Spec.two; split <;> (try split) <;> rfl
  rw [← this]; exact h

/-- Two overlapping calls. -/
theorem lin_overlap {c d r q ops} (h : Linearizes [.inv 0 c, .inv 1 d, .ret 1 d r, .ret 0 c q] ops) :
    ops = [(c, q), (d, r)] ∨ ops = [(d, r), (c, q)] := by
  have fin : ∀ {ops}, Lin (two .out .out) [] ops → ops = [] := by
    intro ops h; cases h.next with
    | nil => rfl
    | eff0 g => cases g
    | eff1 g => cases g
  have ret0 : ∀ {ops x}, Lin (two (.effect c x) .out) [.ret 0 c q] ops → ops = [] ∧ x = q := by
    intro ops x h; cases h.next with
    | eff0 g => cases g
    | eff1 g => cases g
    | ret0 g hr => cases g; exact ⟨fin hr, rfl⟩
  have called0 : ∀ {ops}, Lin (two (.called c) .out) [.ret 0 c q] ops → ops = [(c, q)] := by
    intro ops h; cases h.next with
    | eff0 g hr => cases g; obtain ⟨rfl, rfl⟩ := ret0 hr; rfl
    | eff1 g => cases g
    | ret0 g => cases g
  have ee : ∀ {ops x y}, Lin (two (.effect c x) (.effect d y)) [.ret 1 d r, .ret 0 c q] ops → ops = [] ∧ x = q ∧ y = r := by
    intro ops x y h; cases h.next with
    | eff0 g => cases g
    | eff1 g => cases g
    | ret1 g hr => cases g; obtain ⟨rfl, rfl⟩ := ret0 hr; exact ⟨rfl, rfl, rfl⟩
  have ec : ∀ {ops x}, Lin (two (.effect c x) (.called d)) [.ret 1 d r, .ret 0 c q] ops → ops = [(d, r)] ∧ x = q := by
    intro ops x h; cases h.next with
    | eff0 g => cases g
    | eff1 g hr => cases g; obtain ⟨rfl, rfl, rfl⟩ := ee hr; exact ⟨rfl, rfl⟩
    | ret1 g hr => cases g
  have ce : ∀ {ops y}, Lin (two (.called c) (.effect d y)) [.ret 1 d r, .ret 0 c q] ops → ops = [(c, q)] ∧ y = r := by
    intro ops x h; cases h.next with
    | eff0 g hr => cases g; obtain ⟨rfl, rfl, rfl⟩ := ee hr; exact ⟨rfl, rfl⟩
    | eff1 g => cases g
    | ret1 g hr => cases g; exact ⟨called0 hr, rfl⟩
  cases h.two.next with
  | eff0 g => cases g
  | eff1 g => cases g
  | inv g => omega
  | inv0 g hr =>
    cases hr.next with
    | eff0 g' hs =>
      cases g'
      cases hs.next with
      | eff0 g' => cases g'
      | eff1 g' => cases g'
      | inv g' => omega
      | inv1 g' ht => obtain ⟨rfl, rfl⟩ := ec ht; exact Or.inl rfl
    | eff1 g' => cases g'
    | inv g' => omega
    | inv1 g' hs =>
      cases hs.next with
      | eff0 g'' ht => cases g''; obtain ⟨rfl, rfl⟩ := ec ht; exact Or.inl rfl
      | eff1 g'' ht => cases g''; obtain ⟨rfl, rfl⟩ := ce ht; exact Or.inr rfl
      | ret1 g'' => cases g''

/-- Two calls during a third one. -/
theorem lin_during {c d e r q s ops} (h : Linearizes [.inv 0 c, .inv 1 d, .ret 1 d r, .inv 1 e, .ret 1 e q, .ret 0 c s] ops) :
    ops = [(c, s), (d, r), (e, q)] ∨ ops = [(d, r), (c, s), (e, q)] ∨ ops = [(d, r), (e, q), (c, s)] := by
  have fin : ∀ {ops}, Lin (two .out .out) [] ops → ops = [] := by
    intro ops h; cases h.next with
    | nil => rfl
    | eff0 g => cases g
    | eff1 g => cases g
  -- thread 0 has taken effect
  have e6 : ∀ {ops x}, Lin (two (.effect c x) .out) [.ret 0 c s] ops → ops = [] ∧ x = s := by
    intro ops x h; cases h.next with
    | eff0 g => cases g
    | eff1 g => cases g
    | ret0 g hr => cases g; exact ⟨fin hr, rfl⟩
  have e5 : ∀ {ops x y}, Lin (two (.effect c x) (.effect e y)) [.ret 1 e q, .ret 0 c s] ops → ops = [] ∧ x = s ∧ y = q := by
    intro ops x y h; cases h.next with
    | eff0 g => cases g
    | eff1 g => cases g
    | ret1 g hr => cases g; obtain ⟨rfl, rfl⟩ := e6 hr; exact ⟨rfl, rfl, rfl⟩
  have e4 : ∀ {ops x}, Lin (two (.effect c x) (.called e)) [.ret 1 e q, .ret 0 c s] ops → ops = [(e, q)] ∧ x = s := by
    intro ops x h; cases h.next with
    | eff0 g => cases g
    | eff1 g hr => cases g; obtain ⟨rfl, rfl, rfl⟩ := e5 hr; exact ⟨rfl, rfl⟩
    | ret1 g hr => cases g
  have e3 : ∀ {ops x}, Lin (two (.effect c x) .out) [.inv 1 e, .ret 1 e q, .ret 0 c s] ops → ops = [(e, q)] ∧ x = s := by
    intro ops x h; cases h.next with
    | eff0 g => cases g
    | eff1 g hr => cases g
    | inv g => omega
    | inv1 g hr => exact e4 hr
  have e2 : ∀ {ops x y}, Lin (two (.effect c x) (.effect d y)) [.ret 1 d r, .inv 1 e, .ret 1 e q, .ret 0 c s] ops → ops = [(e, q)] ∧ x = s ∧ y = r := by
    intro ops x y h; cases h.next with
    | eff0 g => cases g
    | eff1 g hr => cases g
    | ret1 g hr => cases g; obtain ⟨rfl, rfl⟩ := e3 hr; exact ⟨rfl, rfl, rfl⟩
  have e1 : ∀ {ops x}, Lin (two (.effect c x) (.called d)) [.ret 1 d r, .inv 1 e, .ret 1 e q, .ret 0 c s] ops → ops = [(d, r), (e, q)] ∧ x = s := by
    intro ops x h; cases h.next with
    | eff0 g => cases g
    | eff1 g hr => cases g; obtain ⟨rfl, rfl, rfl⟩ := e2 hr; exact ⟨rfl, rfl⟩
    | ret1 g hr => cases g
  -- thread 0 has not
  have c6 : ∀ {ops}, Lin (two (.called c) .out) [.ret 0 c s] ops → ops = [(c, s)] := by
    intro ops h; cases h.next with
    | eff0 g hr => cases g; obtain ⟨rfl, rfl⟩ := e6 hr; rfl
    | eff1 g => cases g
    | ret0 g => cases g
  have c5 : ∀ {ops y}, Lin (two (.called c) (.effect e y)) [.ret 1 e q, .ret 0 c s] ops → ops = [(c, s)] ∧ y = q := by
    intro ops y h; cases h.next with
    | eff0 g hr => cases g; obtain ⟨rfl, rfl, rfl⟩ := e5 hr; exact ⟨rfl, rfl⟩
    | eff1 g => cases g
    | ret1 g hr => cases g; exact ⟨c6 hr, rfl⟩
  have c4 : ∀ {ops}, Lin (two (.called c) (.called e)) [.ret 1 e q, .ret 0 c s] ops → ops = [(c, s), (e, q)] ∨ ops = [(e, q), (c, s)] := by
    intro ops h; cases h.next with
    | eff0 g hr => cases g; obtain ⟨rfl, rfl⟩ := e4 hr; exact Or.inl rfl
    | eff1 g hr => cases g; obtain ⟨rfl, rfl⟩ := c5 hr; exact Or.inr rfl
    | ret1 g hr => cases g
  have c3 : ∀ {ops}, Lin (two (.called c) .out) [.inv 1 e, .ret 1 e q, .ret 0 c s] ops → ops = [(c, s), (e, q)] ∨ ops = [(e, q), (c, s)] := by
    intro ops h; cases h.next with
    | eff0 g hr => cases g; obtain ⟨rfl, rfl⟩ := e3 hr; exact Or.inl rfl
    | eff1 g hr => cases g
    | inv g => omega
    | inv1 g hr => exact c4 hr
  have c2 : ∀ {ops y}, Lin (two (.called c) (.effect d y)) [.ret 1 d r, .inv 1 e, .ret 1 e q, .ret 0 c s] ops →
      (ops = [(c, s), (e, q)] ∨ ops = [(e, q), (c, s)]) ∧ y = r := by
    intro ops y h; cases h.next with
    | eff0 g hr => cases g; obtain ⟨rfl, rfl, rfl⟩ := e2 hr; exact ⟨Or.inl rfl, rfl⟩
    | eff1 g hr => cases g
    | ret1 g hr => cases g; exact ⟨c3 hr, rfl⟩
  cases h.two.next with
  | eff0 g => cases g
  | eff1 g => cases g
  | inv g => omega
  | inv0 g hr =>
    cases hr.next with
    | eff0 g' hs =>
      cases g'
      cases hs.next with
      | eff0 g' => cases g'
      | eff1 g' => cases g'
      | inv g' => omega
      | inv1 g' ht => obtain ⟨rfl, rfl⟩ := e1 ht; exact Or.inl rfl
    | eff1 g' => cases g'
    | inv g' => omega
    | inv1 g' hs =>
      cases hs.next with
      | eff0 g'' ht => cases g''; obtain ⟨rfl, rfl⟩ := e1 ht; exact Or.inl rfl
      | eff1 g'' ht =>
        cases g''; obtain ⟨rfl | rfl, rfl⟩ := c2 ht
        · exact Or.inr (Or.inl rfl)
        · exact Or.inr (Or.inr rfl)
      | ret1 g'' => cases g''

/-- One sequential block, one concurrent, one sequential. -/
theorem explains_scs {a tr b es} (h : Explains [.seq a, .conc tr, .seq b] es) :
    ∃ ops : List (Call × Res Resp), Linearizes tr ops ∧ es = a ++ (ops.map (fun o => .call o.1 o.2) ++ b) := by
  cases h with
  | seq es0 rest =>
    cases rest with
    | conc ops h rest =>
      cases rest with
      | seq es1 rest =>
        cases rest
        exact ⟨ops, h, by simp⟩

end Candy.Spec
