import Verif.Proofs.CrashCopy
/-!
# The directory as a function from names to files
-/
namespace Candy

/-- A directory up to the order of its entries. -/
abbrev FS := FName → Option DFile

/-- Change one entry. -/
def FS.upd (F : FS) (n : FName) (x : Option DFile) : FS := fun m => if m = n then x else F m

theorem FS.upd_same (F : FS) (n : FName) (x) : F.upd n x n = x := by simp [FS.upd]
theorem FS.upd_other (F : FS) {n m : FName} (x) (h : m ≠ n) : F.upd n x m = F m := by simp [FS.upd, h]
theorem FS.upd_self (F : FS) (n : FName) : F.upd n (F n) = F := by
  funext m; unfold FS.upd; split
  · rename_i h; rw [h]
  · rfl
theorem FS.upd_upd (F : FS) (n : FName) (x y) : (F.upd n x).upd n y = F.upd n y := by
  funext m; unfold FS.upd; split <;> rfl

/-- Effect of an operation. -/
def FOp.appF (F : FS) : FOp → Option FS
  | .trunc n => some (F.upd n (some .zero))
  | .setLen n => match F n with
    | none => none
    | some .zero => some (F.upd n (some .blank))
    | some _ => some F
  | .magic n => match F n with
    | none => none
    | some (.good _) => some F
    | some _ => some (F.upd n (some (.good MFile.empty)))
  | .prim n p => match F n with
    | some (.good f) => some (F.upd n (some (.good (p.app f))))
    | _ => none
  | .rename a b => match F a with
    | none => none
    | some x => some ((F.upd a none).upd b (some x))
  | .unlink n => match F n with
    | none => none
    | some _ => some (F.upd n none)
  | .unlinkIf n => some (F.upd n none)

/-- Run a trace. -/
def FS.run (F : FS) : List FOp → Option FS
  | [] => some F
  | o :: os => (o.appF F).bind (fun G => FS.run G os)

/-- Crash inside a trace. -/
inductive FS.Crash : FS → List FOp → FS → Prop
  | stop (F : FS) (os : List FOp) : FS.Crash F os F
  | torn (F : FS) (n : FName) (f : MFile) (off : Nat) (bs : Bytes) (data : Nat → UInt8) (os : List FOp)
      (hf : F n = some (.good f)) (hd : ∀ i, ¬ (off ≤ i ∧ i < off + bs.length) → data i = f.data i) :
      FS.Crash F (.prim n (.pwrite off bs) :: os) (F.upd n (some (.good { f with data := data })))
  | step {F F' F'' : FS} {o : FOp} {os : List FOp} (h : o.appF F = some F') (hc : FS.Crash F' os F'') : FS.Crash F (o :: os) F''

/-! ## The directory follows -/

theorem Dir.find_filter (d : Dir) (n m : FName) : (d.del n).find m = if m = n then none else d.find m := by
  induction d with
  | nil => simp [Dir.del, Dir.find]
  | cons e d ih =>
    obtain ⟨a, x⟩ := e
    unfold Dir.del at ih ⊢
    simp only [List.filter_cons]
    by_cases h : a = n
    · subst h
      simp only [ne_eq, not_true_eq_false, decide_false, Bool.false_eq_true, if_false, ih]
      by_cases e : m = a
      · simp [e]
      · rw [if_neg e, if_neg e, Dir.find, if_neg (fun h : a = m => e h.symm)]
    · simp only [ne_eq, h, not_false_eq_true, decide_true, if_true, Dir.find, ih]
      by_cases e : m = n
      · subst e; simp [h]
      · simp [e]

theorem Dir.find_put (d : Dir) (n : FName) (x : DFile) (m : FName) : (d.put n x).find m = if m = n then some x else d.find m := by
  unfold Dir.put
  rw [Dir.find, Dir.find_filter]
  by_cases e : m = n
  · simp [e]
  · rw [if_neg (fun h => e h.symm), if_neg e, if_neg e]

theorem Dir.find_put' (d : Dir) (n : FName) (x : DFile) : (d.put n x).find = FS.upd d.find n (some x) := by
  funext m; rw [Dir.find_put]; rfl

theorem Dir.find_del' (d : Dir) (n : FName) : (d.del n).find = FS.upd d.find n none := by
  funext m; rw [Dir.find_filter]; rfl

/-- No name occurs twice. -/
def Dir.Nodup (d : Dir) : Prop := (d.map Prod.fst).Nodup

theorem Dir.Nodup.del {d : Dir} (h : d.Nodup) (n : FName) : (d.del n).Nodup :=
  (List.Sublist.map Prod.fst (List.filter_sublist (p := fun e : FName × DFile => decide (e.1 ≠ n)) (l := d))).nodup h

theorem Dir.Nodup.put {d : Dir} (h : d.Nodup) (n : FName) (x : DFile) : (d.put n x).Nodup := by
  unfold Dir.Nodup Dir.put
  rw [List.map_cons, List.nodup_cons]
  refine ⟨?_, h.del n⟩
  intro hm
  rw [List.mem_map] at hm
  obtain ⟨e, he, h2⟩ := hm
  unfold Dir.del at he
  rw [List.mem_filter] at he
  simp [h2] at he

theorem FOp.app_find {d : Dir} (o : FOp) : (o.app d).map Dir.find = o.appF d.find := by
  cases o with
  | trunc n => simp [FOp.app, FOp.appF, Dir.find_put']
  | setLen n =>
    simp only [FOp.app, FOp.appF]
    cases d.find n with
    | none => rfl
    | some x => cases x <;> simp [Dir.find_put']
  | magic n =>
    simp only [FOp.app, FOp.appF]
    cases d.find n with
    | none => rfl
    | some x => cases x <;> simp [Dir.find_put']
  | prim n p =>
    simp only [FOp.app, FOp.appF]
    cases d.find n with
    | none => rfl
    | some x => cases x <;> simp [Dir.find_put']
  | rename a b =>
    simp only [FOp.app, FOp.appF]
    cases d.find a with
    | none => rfl
    | some x => simp [Dir.find_put', Dir.find_del']
  | unlink n =>
    simp only [FOp.app, FOp.appF]
    cases d.find n with
    | none => rfl
    | some x => simp [Dir.find_del']
  | unlinkIf n => simp [FOp.app, FOp.appF, Dir.find_del']

theorem FOp.app_nodup {d d' : Dir} (h : d.Nodup) {o : FOp} (ho : o.app d = some d') : d'.Nodup := by
  cases o with
  | trunc n => simp only [FOp.app, Option.some.injEq] at ho; subst ho; exact h.put _ _
  | setLen n =>
    simp only [FOp.app] at ho
    split at ho <;> simp only [Option.some.injEq, reduceCtorEq] at ho
    · subst ho; exact h.put _ _
    · subst ho; exact h
  | magic n =>
    simp only [FOp.app] at ho
    split at ho <;> simp only [Option.some.injEq, reduceCtorEq] at ho
    · subst ho; exact h
    · subst ho; exact h.put _ _
  | prim n p =>
    simp only [FOp.app] at ho
    split at ho <;> simp only [Option.some.injEq, reduceCtorEq] at ho
    subst ho; exact h.put _ _
  | rename a b =>
    simp only [FOp.app] at ho
    split at ho <;> simp only [Option.some.injEq, reduceCtorEq] at ho
    subst ho; exact (h.del _).put _ _
  | unlink n =>
    simp only [FOp.app] at ho
    split at ho <;> simp only [Option.some.injEq, reduceCtorEq] at ho
    subst ho; exact h.del _
  | unlinkIf n => simp only [FOp.app, Option.some.injEq] at ho; subst ho; exact h.del _

theorem Dir.run_find (os : List FOp) : ∀ d : Dir, (d.run os).map Dir.find = FS.run d.find os := by
  induction os with
  | nil => intro d; rfl
  | cons o os ih =>
    intro d
    have := o.app_find (d := d)
    simp only [Dir.run, FS.run, ← this]
    cases o.app d with
    | none => rfl
    | some d' => simp [ih]

theorem Dir.run_nodup {os : List FOp} : ∀ {d d' : Dir}, d.Nodup → d.run os = some d' → d'.Nodup := by
  induction os with
  | nil => intro d d' h e; simp only [Dir.run, Option.some.injEq] at e; subst e; exact h
  | cons o os ih =>
    intro d d' h e
    simp only [Dir.run] at e
    cases ho : o.app d with
    | none => rw [ho] at e; simp at e
    | some d1 => rw [ho] at e; exact ih (FOp.app_nodup h ho) e

/-- If the trace runs on names-to-files, it runs on the directory. -/
theorem Dir.run_of {d : Dir} {os : List FOp} {F : FS} (hd : d.Nodup) (h : FS.run d.find os = some F) :
    ∃ d', d.run os = some d' ∧ d'.Nodup ∧ d'.find = F := by
  have e := Dir.run_find os d
  rw [h] at e
  cases hr : d.run os with
  | none => rw [hr] at e; simp at e
  | some d' =>
    rw [hr] at e
    simp only [Option.map_some, Option.some.injEq] at e
    exact ⟨d', rfl, Dir.run_nodup hd hr, e⟩

theorem Dir.Crash.find {d d' : Dir} {os : List FOp} (h : Dir.Crash d os d') (hd : d.Nodup) : d'.Nodup ∧ FS.Crash d.find os d'.find := by
  induction h with
  | stop d os => exact ⟨hd, .stop _ _⟩
  | torn d n f off bs data os hf hdat => exact ⟨hd.put _ _, by rw [Dir.find_put']; exact .torn _ _ _ _ _ _ _ hf hdat⟩
  | @step d d1 d2 o os ho _ ih =>
    have e := o.app_find (d := d)
    rw [ho] at e
    obtain ⟨h1, h2⟩ := ih (FOp.app_nodup hd ho)
    exact ⟨h1, .step e.symm h2⟩

/-! ## Traces and what a crash inside them leaves -/

/-- The trace runs from `F` to `F'`, and whatever a crash inside it leaves satisfies `I`. -/
def Tr (F : FS) (os : List FOp) (F' : FS) (I : FS → Prop) : Prop := F.run os = some F' ∧ ∀ G, FS.Crash F os G → I G

theorem FS.run_append (xs ys : List FOp) : ∀ F : FS, F.run (xs ++ ys) = (F.run xs).bind (fun G => G.run ys) := by
  induction xs with
  | nil => intro F; rfl
  | cons o xs ih =>
    intro F
    simp only [List.cons_append, FS.run]
    cases o.appF F with
    | none => rfl
    | some G => exact ih G

theorem FS.Crash.append {F G : FS} {xs ys : List FOp} (h : FS.Crash F (xs ++ ys) G) :
    FS.Crash F xs G ∨ ∃ F', F.run xs = some F' ∧ FS.Crash F' ys G := by
  induction xs generalizing F with
  | nil => exact Or.inr ⟨F, rfl, h⟩
  | cons o xs ih =>
    cases h with
    | stop => exact Or.inl (.stop _ _)
    | torn => rename_i hd hf; exact Or.inl (.torn _ _ _ _ _ _ _ hf hd)
    | step ho h =>
      rcases ih h with h | ⟨F', h1, h2⟩
      · exact Or.inl (.step ho h)
      · exact Or.inr ⟨F', by simp only [FS.run, ho]; exact h1, h2⟩

theorem Tr.append {F F1 F2 : FS} {xs ys : List FOp} {I : FS → Prop} (h1 : Tr F xs F1 I) (h2 : Tr F1 ys F2 I) : Tr F (xs ++ ys) F2 I := by
  refine ⟨by rw [FS.run_append, h1.1]; exact h2.1, fun G hG => ?_⟩
  rcases hG.append with h | ⟨F', h3, h4⟩
  · exact h1.2 G h
  · rw [h1.1] at h3; simp only [Option.some.injEq] at h3; subst h3; exact h2.2 G h4

theorem Tr.nil {F : FS} {I : FS → Prop} (h : I F) : Tr F [] F I := by
  refine ⟨rfl, fun G hG => ?_⟩
  cases hG; exact h

theorem Tr.mono {F F' : FS} {os : List FOp} {I J : FS → Prop} (h : Tr F os F' I) (hij : ∀ G, I G → J G) : Tr F os F' J :=
  ⟨h.1, fun G hG => hij G (h.2 G hG)⟩

theorem Tr.start {F F' : FS} {os : List FOp} {I : FS → Prop} (h : Tr F os F' I) : I F := h.2 F (.stop _ _)

theorem FS.Crash.done {F F' : FS} {os : List FOp} (h : F.run os = some F') : FS.Crash F os F' := by
  induction os generalizing F with
  | nil => simp only [FS.run, Option.some.injEq] at h; subst h; exact .stop _ _
  | cons o os ih =>
    simp only [FS.run] at h
    cases ho : o.appF F with
    | none => rw [ho] at h; simp at h
    | some G => rw [ho] at h; exact .step ho (ih h)

theorem Tr.finish {F F' : FS} {os : List FOp} {I : FS → Prop} (h : Tr F os F' I) : I F' := h.2 F' (.done h.1)

/-- An operation that cannot be torn. -/
theorem Tr.single {F F' : FS} {o : FOp} {I : FS → Prop} (ho : o.appF F = some F') (hp : ∀ n p, o ≠ .prim n p) (h : I F) (h' : I F') :
    Tr F [o] F' I := by
  refine ⟨by simp [FS.run, ho], fun G hG => ?_⟩
  cases hG with
  | stop => exact h
  | torn => exact absurd rfl (hp _ _)
  | step ho' hc =>
    rw [ho] at ho'; simp only [Option.some.injEq] at ho'; subst ho'
    cases hc; exact h'

/-- Stores to one file. -/
theorem Tr.onFile {n : FName} {I : FS → Prop} : ∀ (ps : List Prim) {F : FS} {f : MFile}, F n = some (.good f) →
    (∀ g, f.Crash ps g → I (F.upd n (some (.good g)))) → Tr F (onFile n ps) (F.upd n (some (.good (f.run ps)))) I
  | [], F, f, hf, hI => by
    have e : F.upd n (some (.good (f.run []))) = F := by
      show F.upd n (some (.good f)) = F
      rw [← hf, FS.upd_self]
    have := hI f (.stop _ _)
    rw [e]
    have e' : F.upd n (some (.good f)) = F := e
    rw [e'] at this
    exact Tr.nil this
  | p :: ps, F, f, hf, hI => by
    have ho : FOp.appF F (.prim n p) = some (F.upd n (some (.good (p.app f)))) := by simp [FOp.appF, hf]
    have ih := Tr.onFile (I := I) ps (F := F.upd n (some (.good (p.app f)))) (f := p.app f) (FS.upd_same _ _ _)
      (fun g hg => by rw [FS.upd_upd]; exact hI g (.step hg))
    rw [FS.upd_upd] at ih
    refine ⟨?_, fun G hG => ?_⟩
    · show (FOp.appF F (.prim n p)).bind _ = _
      rw [ho]; exact ih.1
    · have hG' : FS.Crash F (.prim n p :: Candy.onFile n ps) G := hG
      cases hG' with
      | stop =>
        have := hI f (.stop _ _)
        rwa [← hf, FS.upd_self] at this
      | torn =>
        rename_i hd hf'
        rw [hf] at hf'
        simp only [Option.some.injEq, DFile.good.injEq] at hf'
        subst hf'
        exact hI _ (.torn _ _ _ _ _ hd)
      | step ho' hc =>
        rw [ho] at ho'; simp only [Option.some.injEq] at ho'; subst ho'
        exact ih.2 G hc

/-- Creating a file. -/
theorem Tr.create {F : FS} {n : FName} {I : FS → Prop} (h0 : I F) (h1 : ∀ x : DFile, x.asFile = MFile.empty → I (F.upd n (some x))) :
    Tr F (createOps n) (F.upd n (some (.good MFile.empty))) I := by
  refine Tr.append (xs := [.trunc n]) (F1 := F.upd n (some .zero)) (Tr.single rfl (by simp) h0 (h1 .zero rfl)) ?_
  refine Tr.append (xs := [.setLen n]) (F1 := F.upd n (some .blank)) (Tr.single ?_ (by simp) (h1 .zero rfl) (h1 .blank rfl)) ?_
  · simp [FOp.appF, FS.upd_same, FS.upd_upd]
  · refine Tr.single ?_ (by simp) (h1 .blank rfl) (h1 (.good MFile.empty) rfl)
    simp [FOp.appF, FS.upd_same, FS.upd_upd]

end Candy
