import Verif.Proofs.CrashLocal
import Verif.Proofs.DirRun
/-!
# A directory with remains of failed operations

`Over sh F G`: the directory `F` holds what `G` holds, and besides only litter: files of compactions, without contents, and (if `sh`) temporary files and shard files
covered by shard files of `G`. Whatever a trace does in `G`, it does the same in `F`.
-/
namespace Candy
open Spec

/-- The file `n` with contents `x` does not matter next to the files of `G`. -/
def Litter (sh : Bool) (G : FS) (n : FName) (x : DFile) : Prop :=
  match n.kind with
  | .compact => x.asFile = MFile.empty
  | .shard => sh = true ∧ Dyadic n.lo n.hi ∧ ∃ a b, G ⟨.shard, a, b⟩ ≠ none ∧ a ≤ n.lo ∧ n.hi ≤ b
  | _ => sh = true

def Over (sh : Bool) (F G : FS) : Prop := ∀ n, F n = G n ∨ (G n = none ∧ ∃ x, F n = some x ∧ Litter sh G n x)

theorem Over.refl (sh : Bool) (F : FS) : Over sh F F := fun _ => Or.inl rfl

theorem Over.get {sh : Bool} {F G : FS} (h : Over sh F G) {n : FName} {x : DFile} (hg : G n = some x) : F n = some x := by
  rcases h n with e | ⟨e, _⟩
  · rw [e, hg]
  · rw [hg] at e; cases e

theorem Litter.mono {sh : Bool} {G G' : FS} {n : FName} {x : DFile} (h : Litter sh G n x)
    (hg : sh = true → ∀ a b, G ⟨.shard, a, b⟩ ≠ none → a ≤ n.lo → n.hi ≤ b → Dyadic n.lo n.hi → n.kind = .shard →
      ∃ a' b', G' ⟨.shard, a', b'⟩ ≠ none ∧ a' ≤ n.lo ∧ n.hi ≤ b') : Litter sh G' n x := by
  unfold Litter at h ⊢
  cases hk : n.kind with
  | shard =>
    rw [hk] at h
    obtain ⟨h1, h2, a, b, h3, h4, h5⟩ := h
    exact ⟨h1, h2, hg h1 a b h3 h4 h5 h2 hk⟩
  | compact => rw [hk] at h; exact h
  | bottom => rw [hk] at h; exact h
  | top => rw [hk] at h; exact h
  | merge => rw [hk] at h; exact h

theorem Litter.weaken {sh : Bool} {G : FS} {n : FName} {x : DFile} (h : Litter false G n x) : Litter sh G n x := by
  unfold Litter at h ⊢
  cases hk : n.kind <;> rw [hk] at h
  · exact absurd h.1 (by simp)
  · exact h
  · exact absurd h (by simp)
  · exact absurd h (by simp)
  · exact absurd h (by simp)

theorem Over.weaken {F G : FS} (sh : Bool) (h : Over false F G) : Over sh F G := fun n =>
  (h n).imp id fun ⟨a, x, b, c⟩ => ⟨a, x, b, c.weaken⟩

/-- Changing the same entry in both. -/
theorem Over.upd {sh : Bool} {F G : FS} (h : Over sh F G) (n : FName) (x : Option DFile)
    (hk : ∀ m y, m ≠ n → Litter sh G m y → Litter sh (G.upd n x) m y) : Over sh (F.upd n x) (G.upd n x) := by
  intro m
  by_cases e : m = n
  · subst e; left; rw [FS.upd_same, FS.upd_same]
  · rw [FS.upd_other _ _ e, FS.upd_other _ _ e]
    exact (h m).imp id fun ⟨a, y, b, c⟩ => ⟨a, y, b, hk m y e c⟩

theorem Over.updSome {sh : Bool} {F G : FS} (h : Over sh F G) (n : FName) (x : DFile) : Over sh (F.upd n (some x)) (G.upd n (some x)) :=
  h.upd n (some x) fun m y _ hl => hl.mono fun _ a b h1 h2 h3 _ _ => ⟨a, b, by
    unfold FS.upd; split
    · simp
    · exact h1, h2, h3⟩

theorem Over.updNone {sh : Bool} {F G : FS} (h : Over sh F G) {n : FName} (hn : sh = true → n.kind ≠ .shard) : Over sh (F.upd n none) (G.upd n none) :=
  h.upd n none fun m y _ hl => hl.mono fun hs a b h1 h2 h3 _ _ => ⟨a, b, by
    rw [FS.upd_other _ _ (by rintro rfl; exact hn hs rfl)]; exact h1, h2, h3⟩

/-- If the shard file `n` is deleted, what it covers is still covered. -/
def Replaced (G : FS) (n : FName) : Prop := n.kind = .shard → ∀ x y, Dyadic x y → n.lo ≤ x → y ≤ n.hi → ¬ (x = n.lo ∧ y = n.hi) →
  ∃ a b, ¬ (a = n.lo ∧ b = n.hi) ∧ G ⟨.shard, a, b⟩ ≠ none ∧ a ≤ x ∧ y ≤ b

theorem Over.updReplaced {sh : Bool} {F G : FS} (h : Over sh F G) {n : FName} (hn : sh = true → Replaced G n) : Over sh (F.upd n none) (G.upd n none) := by
  refine h.upd n none fun m y hm hl => hl.mono fun hs a b h1 h2 h3 hd hk => ?_
  by_cases e : (⟨.shard, a, b⟩ : FName) = n
  · subst e
    obtain ⟨a', b', g1, g2, g3, g4⟩ := hn hs rfl m.lo m.hi hd h2 h3 (fun ⟨e1, e2⟩ => hm (by
      cases m; simp only at hk e1 e2; subst hk e1 e2; rfl))
    refine ⟨a', b', ?_, g3, g4⟩
    rw [FS.upd_other _ _ (by simpa using g1)]
    exact g2
  · exact ⟨a, b, by rw [FS.upd_other _ _ e]; exact h1, h2, h3⟩

/-- The operation removes no shard file, or only one whose span is covered by others. -/
def FOp.Safe (G : FS) : FOp → Prop
  | .rename a _ => a.kind ≠ .shard
  | .unlink n => Replaced G n
  | .unlinkIf n => n.kind ≠ .shard
  | _ => True

theorem Over.step {sh : Bool} {F G G' : FS} {o : FOp} (h : Over sh F G) (ho : o.appF G = some G') (hs : sh = true → o.Safe G) :
    ∃ F', o.appF F = some F' ∧ Over sh F' G' := by
  cases o with
  | trunc n =>
    simp only [FOp.appF, Option.some.injEq] at ho; subst ho
    exact ⟨_, rfl, h.updSome _ _⟩
  | setLen n =>
    simp only [FOp.appF] at ho ⊢
    cases hg : G n with
    | none => rw [hg] at ho; cases ho
    | some x =>
      rw [hg] at ho
      rw [h.get hg]
      cases x with
      | zero => simp only [Option.some.injEq] at ho; subst ho; exact ⟨_, rfl, h.updSome _ _⟩
      | blank => simp only [Option.some.injEq] at ho; subst ho; exact ⟨_, rfl, h⟩
      | good f => simp only [Option.some.injEq] at ho; subst ho; exact ⟨_, rfl, h⟩
  | magic n =>
    simp only [FOp.appF] at ho ⊢
    cases hg : G n with
    | none => rw [hg] at ho; cases ho
    | some x =>
      rw [hg] at ho
      rw [h.get hg]
      cases x with
      | zero => simp only [Option.some.injEq] at ho; subst ho; exact ⟨_, rfl, h.updSome _ _⟩
      | blank => simp only [Option.some.injEq] at ho; subst ho; exact ⟨_, rfl, h.updSome _ _⟩
      | good f => simp only [Option.some.injEq] at ho; subst ho; exact ⟨_, rfl, h⟩
  | prim n p =>
    simp only [FOp.appF] at ho ⊢
    cases hg : G n with
    | none => rw [hg] at ho; cases ho
    | some x =>
      rw [hg] at ho
      rw [h.get hg]
      cases x with
      | zero => cases ho
      | blank => cases ho
      | good f => simp only [Option.some.injEq] at ho; subst ho; exact ⟨_, rfl, h.updSome _ _⟩
  | rename a b =>
    simp only [FOp.appF] at ho ⊢
    cases hg : G a with
    | none => rw [hg] at ho; cases ho
    | some x =>
      rw [hg] at ho
      rw [h.get hg]
      simp only [Option.some.injEq] at ho; subst ho
      exact ⟨_, rfl, (h.updNone hs).updSome _ _⟩
  | unlink n =>
    simp only [FOp.appF] at ho ⊢
    cases hg : G n with
    | none => rw [hg] at ho; cases ho
    | some x =>
      rw [hg] at ho
      rw [h.get hg]
      simp only [Option.some.injEq] at ho; subst ho
      exact ⟨_, rfl, h.updReplaced hs⟩
  | unlinkIf n =>
    simp only [FOp.appF, Option.some.injEq] at ho; subst ho
    exact ⟨_, rfl, h.updNone hs⟩

/-- Every operation of the trace is safe when its turn comes. -/
def Keeps (G : FS) : List FOp → Prop
  | [] => True
  | o :: os => o.Safe G ∧ ∀ G', o.appF G = some G' → Keeps G' os

theorem Keeps.append {xs ys : List FOp} : ∀ {G : FS}, Keeps G xs → (∀ G', G.run xs = some G' → Keeps G' ys) → Keeps G (xs ++ ys) := by
  induction xs with
  | nil => exact fun {G} _ h => h G rfl
  | cons o xs ih =>
    intro G hx hy
    refine ⟨hx.1, fun G1 h1 => ih (hx.2 G1 h1) fun G' h => hy G' ?_⟩
    simp only [FS.run, h1]; exact h

/-- An operation that removes no shard file. -/
def FOp.Plain : FOp → Prop
  | .rename a _ => a.kind ≠ .shard
  | .unlink n => n.kind ≠ .shard
  | .unlinkIf n => n.kind ≠ .shard
  | _ => True

theorem FOp.Plain.safe {o : FOp} (h : o.Plain) (G : FS) : o.Safe G := by
  cases o with
  | unlink n => exact fun e => absurd e h
  | _ => exact h

theorem Keeps.plain {os : List FOp} : ∀ {G : FS}, (∀ o ∈ os, FOp.Plain o) → Keeps G os := by
  induction os with
  | nil => exact fun _ => trivial
  | cons o os ih => exact fun h => ⟨(h o List.mem_cons_self).safe _, fun _ _ => ih fun o' h' => h o' (List.mem_cons_of_mem _ h')⟩

theorem Over.run {sh : Bool} {os : List FOp} : ∀ {F G G' : FS}, Over sh F G → G.run os = some G' → (sh = true → Keeps G os) →
    ∃ F', F.run os = some F' ∧ Over sh F' G' := by
  induction os with
  | nil => intro F G G' h e _; simp only [FS.run, Option.some.injEq] at e; subst e; exact ⟨F, rfl, h⟩
  | cons o os ih =>
    intro F G G' h e hk
    simp only [FS.run] at e ⊢
    cases ho : o.appF G with
    | none => rw [ho] at e; cases e
    | some G1 =>
      rw [ho] at e
      obtain ⟨F1, h1, h2⟩ := h.step ho fun hs => (hk hs).1
      obtain ⟨F2, h3, h4⟩ := ih h2 e fun hs => (hk hs).2 G1 ho
      exact ⟨F2, by rw [h1]; exact h3, h4⟩

theorem Over.crash {sh : Bool} {os : List FOp} {F F' : FS} (hc : FS.Crash F os F') : ∀ {G : FS}, Over sh F G → G.run os ≠ none → (sh = true → Keeps G os) →
    ∃ G', FS.Crash G os G' ∧ Over sh F' G' := by
  induction hc with
  | stop F os => exact fun {G} h _ _ => ⟨G, .stop _ _, h⟩
  | torn F n f off bs data os hf hd =>
    intro G h hr _
    have hg : G n = some (.good f) := by
      rcases h n with e | ⟨e, _⟩
      · rw [← e]; exact hf
      · exfalso; apply hr
        simp only [FS.run, FOp.appF, e]
        rfl
    exact ⟨_, .torn G n f off bs data os hg hd, h.updSome _ _⟩
  | @step F F1 F2 o os ho hc ih =>
    intro G h hr hk
    cases hg : o.appF G with
    | none => exfalso; apply hr; simp only [FS.run, hg]; rfl
    | some G1 =>
      obtain ⟨F1', h1, h2⟩ := h.step hg fun hs => (hk hs).1
      rw [ho] at h1; simp only [Option.some.injEq] at h1; subst h1
      obtain ⟨G2, h3, h4⟩ := ih h2 (fun e => hr (by simp only [FS.run, hg]; exact e)) fun hs => (hk hs).2 G1 hg
      exact ⟨G2, .step hg h3, h4⟩

/-! ## Which traces are safe -/

theorem onFile_plain (n : FName) (ps : List Prim) : ∀ o ∈ onFile n ps, FOp.Plain o := by
  intro o ho
  obtain ⟨p, _, rfl⟩ := List.mem_map.1 ho
  trivial

theorem createOps_plain (n : FName) : ∀ o ∈ createOps n, FOp.Plain o := by
  intro o ho
  unfold createOps at ho
  simp only [List.mem_cons, List.not_mem_nil, or_false] at ho
  rcases ho with rfl | rfl | rfl <;> trivial

theorem beginOps_plain (s : Shard) (off : Nat) : ∀ o ∈ s.beginOps off, FOp.Plain o := by
  intro o ho
  unfold Shard.beginOps at ho
  split at ho
  · cases ho
  · split at ho
    · cases ho
    · exact createOps_plain _ o ho

theorem insertOps_plain (cfg : Cfg) (s : Shard) (ph : PH) (k v : Bytes) (mode : Mode) : ∀ o ∈ s.insertOps cfg ph k v mode, FOp.Plain o := by
  intro o ho
  unfold Shard.insertOps at ho
  dsimp only at ho
  rcases List.mem_append.1 ho with ho | ho
  · exact onFile_plain _ _ o ho
  · split at ho
    · exact beginOps_plain _ _ o ho
    · cases ho

theorem bgOps_plain (cfg : Cfg) (s : Shard) : ∀ o ∈ s.bgOps cfg, FOp.Plain o := by
  intro o ho
  unfold Shard.bgOps at ho
  split at ho
  · cases ho
  · split at ho
    · exact onFile_plain _ _ o ho
    · simp only [List.mem_singleton] at ho; subst ho
      exact fun e : Kind.compact = Kind.shard => nomatch e

theorem finishOps_plain (cfg : Cfg) (s : Shard) : ∀ o ∈ s.finishOps cfg, FOp.Plain o := by
  intro o ho
  unfold Shard.finishOps at ho
  split at ho
  · cases ho
  · rcases List.mem_append.1 ho with ho | ho
    · exact onFile_plain _ _ o ho
    · simp only [List.mem_singleton] at ho; subst ho
      exact fun e : Kind.compact = Kind.shard => nomatch e

theorem finishTree_plain (cfg : Cfg) (t : Tree) : ∀ o ∈ t.finishOps cfg, FOp.Plain o := by
  intro o ho
  unfold Tree.finishOps at ho
  obtain ⟨s, _, hs⟩ := List.mem_flatMap.1 ho
  exact finishOps_plain cfg s o hs

/-- An aligned power-of-two span inside another is the same or inside one of its halves. -/
theorem Dyadic.inside {lo hi x y : Nat} (hd : Dyadic lo hi) (hm : lo < midOf lo hi) (hx : Dyadic x y) (h1 : lo ≤ x) (h2 : y ≤ hi)
    (hne : ¬ (x = lo ∧ y = hi)) : y ≤ midOf lo hi ∨ midOf lo hi ≤ x := by
  obtain ⟨⟨n, a1, a2⟩, _⟩ := hd.mid hm
  obtain ⟨m, b1, b2⟩ := hx
  have e : midOf lo hi = lo + (hi - lo) / 2 := by unfold midOf; omega
  obtain ⟨n', c1, c2⟩ := hd
  have hn' : n' = n + 1 := by
    have : 2 ^ n = (2 ^ n') / 2 := by omega
    cases n' with
    | zero => simp at this
    | succ k =>
      rw [Nat.pow_succ, Nat.mul_div_cancel _ (by omega)] at this
      have := (Nat.pow_right_inj (a := 2) (by omega)).1 this
      omega
  subst hn'
  rcases Nat.lt_or_ge n m with hlt | hge
  · exfalso
    have h3 : 2 ^ (n + 1) ≤ 2 ^ m := Nat.pow_le_pow_right (by omega) hlt
    apply hne
    constructor <;> omega
  · have h3 : 2 ^ m ∣ midOf lo hi := by
      rw [a2]
      exact Nat.dvd_add (Nat.dvd_trans (Nat.pow_dvd_pow 2 hge) a1) (Nat.pow_dvd_pow 2 hge)
    rcases Nat.lt_or_ge x (midOf lo hi) with h4 | h4
    · left
      rw [b2]
      obtain ⟨p, hp⟩ := b1
      obtain ⟨q, hq⟩ := h3
      rw [hp, hq] at h4
      have h5 : p < q := Nat.lt_of_mul_lt_mul_left h4
      rw [hp, hq]
      calc 2 ^ m * p + 2 ^ m = 2 ^ m * (p + 1) := by rw [Nat.mul_add, Nat.mul_one]
        _ ≤ 2 ^ m * q := Nat.mul_le_mul_left _ h5
    · exact Or.inr h4

theorem split_keeps {cfg : Cfg} {s s1 : Shard} (hf : s.finish cfg = some s1) (hlo : s1.lo = s.lo) (hhi : s1.hi = s.hi) (hd : Dyadic s.lo s.hi)
    (hm : s.lo < midOf s.lo s.hi) (G : FS) : Keeps G (s.splitOps cfg) := by
  have hm2 := midOf_pre hm rfl
  unfold Shard.splitOps
  rw [hf]
  dsimp only
  refine (Keeps.plain (finishOps_plain cfg s)).append fun G1 _ => ?_
  rw [hlo, hhi]
  refine Keeps.append (Keeps.plain fun o ho => ?_) fun G2 _ => ?_
  · rcases List.mem_append.1 ho with ho | ho
    · rcases List.mem_append.1 ho with ho | ho
      · rcases List.mem_append.1 ho with ho | ho
        · exact createOps_plain _ o ho
        · exact createOps_plain _ o ho
      · exact onFile_plain _ _ o ho
    · exact onFile_plain _ _ o ho
  · refine ⟨fun e : Kind.bottom = Kind.shard => (nomatch e), fun G3 h3 => ⟨fun e : Kind.top = Kind.shard => (nomatch e), fun G4 h4 => ⟨?_, fun _ _ => trivial⟩⟩⟩
    simp only [FOp.appF] at h3 h4
    cases e3 : G2 ⟨.bottom, s.lo, midOf s.lo s.hi⟩ with
    | none => rw [e3] at h3; cases h3
    | some x =>
      rw [e3] at h3; simp only [Option.some.injEq] at h3
      cases e4 : G3 ⟨.top, midOf s.lo s.hi, s.hi⟩ with
      | none => rw [e4] at h4; cases h4
      | some y =>
        rw [e4] at h4; simp only [Option.some.injEq] at h4
        have p2 : G4 ⟨.shard, midOf s.lo s.hi, s.hi⟩ ≠ none := by rw [← h4, FS.upd_same]; simp
        have p1 : G4 ⟨.shard, s.lo, midOf s.lo s.hi⟩ ≠ none := by
          rw [← h4, FS.upd_other _ _ (by simp only [ne_eq, FName.mk.injEq, true_and]; omega), FS.upd_other _ _ (by simp), ← h3, FS.upd_same]; simp
        intro _ a b hab h1 h2 hne
        have l1 : s1.srcName.lo = s.lo := hlo
        have l2 : s1.srcName.hi = s.hi := hhi
        rw [l1] at h1 hne ⊢
        rw [l2] at h2 hne ⊢
        rcases hd.inside hm hab h1 h2 hne with h | h
        · exact ⟨_, _, fun e => by omega, p1, h1, h⟩
        · exact ⟨_, _, fun e => by omega, p2, h, h2⟩

theorem mergeLeaves_keeps (cfg : Cfg) (maxFill : Nat) {b t : Shard} (hb : b.lo < b.hi) (ht : t.lo < t.hi) (hadj : b.hi = t.lo) (G : FS) :
    Keeps G (mergeLeavesOps cfg maxFill b t) := by
  unfold mergeLeavesOps
  split
  · trivial
  · split
    · trivial
    · dsimp only
      split
      · exact Keeps.plain (createOps_plain _)
      · refine Keeps.plain fun o ho => ?_
        rcases List.mem_append.1 ho with ho | ho
        · rcases List.mem_append.1 ho with ho | ho
          · exact createOps_plain _ o ho
          · exact onFile_plain _ _ o ho
        · simp only [List.mem_singleton] at ho; subst ho
          exact fun e : Kind.merge = Kind.shard => nomatch e
      · refine Keeps.append (Keeps.plain fun o ho => ?_) fun G1 _ => ?_
        · rcases List.mem_append.1 ho with ho | ho
          · exact createOps_plain _ o ho
          · exact onFile_plain _ _ o ho
        · refine ⟨fun e : Kind.merge = Kind.shard => (nomatch e), fun G2 h2 => ?_⟩
          have p : G2 ⟨.shard, b.lo, t.hi⟩ ≠ none := by
            simp only [FOp.appF] at h2
            cases e : G1 ⟨.merge, b.lo, t.hi⟩ with
            | none => rw [e] at h2; cases h2
            | some x => rw [e] at h2; simp only [Option.some.injEq] at h2; rw [← h2, FS.upd_same]; simp
          refine ⟨fun _ x y _ h3 h4 _ => ⟨b.lo, t.hi, ?_, p, h3, ?_⟩, fun G3 h3 => ⟨fun _ x y _ h4 h5 _ => ⟨b.lo, t.hi, ?_, ?_, ?_, h5⟩, fun _ _ => trivial⟩⟩
          · rintro ⟨_, e⟩
            have e : t.hi = b.hi := e
            omega
          · have : y ≤ b.hi := h4
            omega
          · rintro ⟨e, _⟩
            have e : b.lo = t.lo := e
            omega
          · simp only [FOp.appF] at h3
            cases e : G2 b.srcName with
            | none => rw [e] at h3; cases h3
            | some x =>
              rw [e] at h3; simp only [Option.some.injEq] at h3
              rw [← h3, FS.upd_other _ _ (by simp only [Shard.srcName, ne_eq, FName.mk.injEq, true_and]; omega)]
              exact p
          · have : t.lo ≤ x := h4
            omega

theorem insert_keeps {cfg : Cfg} {k v : Bytes} {mode : Mode} {ex : Bool} (hk : k.length < 65536) (hv : v.length < 65536) :
    ∀ (n : Nat) (t : Tree) (lo hi : Nat) (t' : Tree) (st : InsStatus), Tree.OK cfg ex lo hi t → t.Small → inSpan lo hi (cfg.ph k).shardSel →
      t.insert cfg (cfg.ph k) k v mode n = .ok (t', st) → t'.NonDegenerate → Dyadic lo hi → ∀ G, Keeps G (Tree.insertOps cfg (cfg.ph k) k v mode n t) := by
  intro n
  induction n with
  | zero => intro t lo hi t' st _ _ _ h; simp [Tree.insert] at h
  | succ n ih =>
    intro t lo hi t' st hok hsm hspan hins hnd hdy G
    cases t with
    | leaf s =>
      cases hok with
      | leaf hlo hhi hle hinv ha =>
        subst hlo hhi
        rw [Tree.Small.leaf] at hsm
        simp only [Tree.insert] at hins
        simp only [Tree.insertOps]
        refine (Keeps.plain (insertOps_plain _ _ _ _ _ _)).append fun G1 _ => ?_
        have hspec := Shard.insert_spec (mode := mode) hinv (hsm.active _) hk hv hspan.1 hspan.2
        have hacc := Shard.insert_acct (mode := mode) hinv ha (hsm.active _) hk hv
        have hsp := Shard.insert_split (mode := mode) hinv (hsm.active _) hk hv
        generalize s.insert cfg (cfg.ph k) k v mode = q at hins hspec hacc hsp ⊢
        obtain ⟨s', st'⟩ := q
        cases st' with
        | splitNeeded =>
          simp only at hins ⊢
          obtain ⟨z2, z5, z6, _⟩ := hspec
          simp only at z2 z5 z6 hacc
          have z3 : s'.Small := by
            rcases hsp rfl with e | ⟨off, e⟩
            · simp only at e; rw [e]; exact hsm
            · simp only at e; rw [e]; exact Shard.beginCompaction_small ha hsm off
          obtain ⟨b0, t0, w1, w2, w3, w4⟩ := Shard.split_tree z2 z3 hacc (by omega)
          rw [w1] at hins ⊢
          simp only at hins ⊢
          rcases Tree.insert_spec (mode := mode) hk hv n _ _ _ w2 w3 (by rw [z5, z6]; exact hspan) with hdiv | ⟨t1, i1, i2, i3⟩
          · rw [hdiv] at hins; simp at hins
          have hins' := hins
          rw [i1] at hins'
          simp only [Out.ok.injEq, Prod.mk.injEq] at hins'
          obtain ⟨rfl, _⟩ := hins'
          have hmid : s'.lo < midOf s'.lo s'.hi := by
            obtain ⟨b', t'', rfl⟩ := Tree.insert_vertex hins
            cases i2 with
            | vertex hle hb ht => exact hb.mid_lt hnd
          obtain ⟨s1, f1, _, _, f4, f5, _⟩ := s'.finish_spec z2 z3 hacc
          have hd' : Dyadic s'.lo s'.hi := by rw [z5, z6]; exact hdy
          exact (split_keeps f1 f4 f5 hd' hmid G1).append fun G2 _ => ih _ _ _ t1 st w2 w3 (by rw [z5, z6]; exact hspan) hins hnd hd' G2
        | _ => trivial
    | vertex b t =>
      cases hok with
      | vertex hle hb ht =>
        rw [Tree.Small.vertex] at hsm
        simp only [Tree.insert] at hins
        simp only [Tree.insertOps]
        by_cases e : (cfg.ph k).shardSel < b.hi
        · rw [if_pos e] at hins ⊢
          cases hr : Tree.insert cfg (cfg.ph k) k v mode n b <;> rw [hr] at hins <;> simp [Out.bind] at hins
          rename_i r
          obtain ⟨b', st'⟩ := r
          obtain ⟨rfl, _⟩ := hins
          have hsp' : inSpan lo (midOf lo hi) (cfg.ph k).shardSel := ⟨hspan.1, by rw [← hb.hi_eq]; exact e⟩
          have hm : lo < midOf lo hi := Nat.lt_of_le_of_lt hsp'.1 hsp'.2
          exact ih b _ _ b' st' hb hsm.1 hsp' hr (Tree.NonDegenerate.vertex.1 hnd).1 (hdy.mid hm).1 G
        · rw [if_neg e] at hins ⊢
          cases hr : Tree.insert cfg (cfg.ph k) k v mode n t <;> rw [hr] at hins <;> simp [Out.bind] at hins
          rename_i r
          obtain ⟨t1, st'⟩ := r
          obtain ⟨rfl, _⟩ := hins
          rw [Tree.NonDegenerate.vertex] at hnd
          have hm : lo < midOf lo hi := by
            rcases Nat.lt_or_eq_of_le hb.le with h | h
            · exact h
            · obtain ⟨s, hs, e'⟩ := hb.empty_span h
              have := hnd.1 s hs
              omega
          exact ih t _ _ t1 st' ht hsm.2 ⟨by rw [← hb.hi_eq]; omega, hspan.2⟩ hr hnd.2 (hdy.mid hm).2 G

theorem mergeRec_keeps {cfg : Cfg} {ex : Bool} {maxFill : Nat} : ∀ (t : Tree) (n lo hi : Nat), Tree.OK cfg ex lo hi t → t.Quiet → t.NonDegenerate → Dyadic lo hi →
    (∀ s ∈ t.leaves, s.src.writeOff < 4294967296) → Fits ex maxFill t.leaves → ∀ G, Keeps G (t.mergeRecOps cfg maxFill n)
  | .leaf s, n, lo, hi, hok, hq, hn, hd, hs, hfit, G => trivial
  | .vertex b t, 0, lo, hi, hok, hq, hn, hd, hs, hfit, G => trivial
  | .vertex b t, n + 1, lo, hi, hok, hq, hn, hd, hs, hfit, G => by
    cases hok with
    | vertex hle hb ht =>
      have hn' := Tree.NonDegenerate.vertex.1 hn
      obtain ⟨hd1, hd2⟩ := hd.mid (hb.mid_lt hn)
      have hqb : b.Quiet := fun s hs => hq s (List.mem_append_left _ hs)
      have hqt : t.Quiet := fun s hs => hq s (List.mem_append_right _ hs)
      have hsb : ∀ s ∈ b.leaves, s.src.writeOff < 4294967296 := fun s hm => hs s (List.mem_append_left _ hm)
      have hst : ∀ s ∈ t.leaves, s.src.writeOff < 4294967296 := fun s hm => hs s (List.mem_append_right _ hm)
      have hfb : Fits ex maxFill b.leaves := hfit.mono (by rw [Tree.leaves_vertex, totW_append]; omega)
      have hft : Fits ex maxFill t.leaves := hfit.mono (by rw [Tree.leaves_vertex, totW_append]; omega)
      have spb := fun m => Tree.mergeRec_spec (maxFill := maxFill) b m _ _ hb hqb hn'.1 hd1 hsb hfb
      have spt := fun m => Tree.mergeRec_spec (maxFill := maxFill) t m _ _ ht hqt hn'.2 hd2 hst hft
      have ihb := fun m => mergeRec_keeps (maxFill := maxFill) b m _ _ hb hqb hn'.1 hd1 hsb hfb
      have iht := fun m => mergeRec_keeps (maxFill := maxFill) t m _ _ ht hqt hn'.2 hd2 hst hft
      unfold Tree.mergeRecOps
      rcases ho : b.isLeaf with _ | sb <;> rcases ho' : t.isLeaf with _ | st <;> simp only
      · refine (ihb _ G).append fun G1 _ => ?_
        rcases spb (n + 1) with e | ⟨r1, e, hr1⟩
        · rw [e]; trivial
        rw [e]
        simp only
        refine (iht _ G1).append fun G2 _ => ?_
        rcases spt r1.remaining with e' | ⟨r2, e', hr2⟩
        · rw [e']; trivial
        rw [e']
        simp only
        cases hm1 : r1.merged with
        | none => trivial
        | some m1 =>
          cases hm2 : r2.merged with
          | none => trivial
          | some m2 =>
            cases hrem : r2.remaining with
            | zero => trivial
            | succ m =>
              simp only
              obtain ⟨s1, l1, u1⟩ := hr1.merged m1 hm1
              obtain ⟨s2, l2, u2⟩ := hr2.merged m2 hm2
              have i1 := hr1.tiling.mem (s := m1) (by rw [s1]; exact List.mem_singleton.2 rfl)
              have i2 := hr2.tiling.mem (s := m2) (by rw [s2]; exact List.mem_singleton.2 rfl)
              exact mergeLeaves_keeps cfg maxFill i1.2.2.1.lt i2.2.2.1.lt (u1.trans l2.symm) G2
      · exact ihb _ G
      · exact iht _ G
      · have e1 := Tree.isLeaf_some ho
        have e2 := Tree.isLeaf_some ho'
        subst e1 e2
        cases hb with
        | leaf hlo hhi hle hinv ha =>
          cases ht with
          | leaf hlo' hhi' hle' hinv' ha' =>
            exact mergeLeaves_keeps cfg maxFill (hn'.1 sb (List.mem_singleton.2 rfl)) (hn'.2 st (List.mem_singleton.2 rfl)) (hhi.trans hlo'.symm) G

end Candy
