import Verif.Proofs.CrashRun
/-!
# Crashes inside operations on different shards
-/
namespace Candy
open Spec

/-- The operation only touches files with these names. -/
def FOp.On (P : FName → Prop) : FOp → Prop
  | .trunc n => P n
  | .setLen n => P n
  | .magic n => P n
  | .prim n _ => P n
  | .rename a b => P a ∧ P b
  | .unlink n => P n
  | .unlinkIf n => P n

theorem FS.upd_agree {P : FName → Prop} {F G : FS} (h : ∀ n, P n → G n = F n) (m : FName) (x : Option DFile) : ∀ n, P n → G.upd m x n = F.upd m x n := by
  intro n hn
  unfold FS.upd
  split
  · rfl
  · exact h n hn

theorem FS.upd_out {P : FName → Prop} (F : FS) {m : FName} (hm : P m) (x : Option DFile) : ∀ n, ¬ P n → F.upd m x n = F n := by
  intro n hn
  exact FS.upd_other _ _ (fun e => hn (e ▸ hm))

theorem FOp.appF_local {P : FName → Prop} {F G G' : FS} {o : FOp} (ho : o.On P) (h : ∀ n, P n → G n = F n) (hG : o.appF G = some G') :
    ∃ F', o.appF F = some F' ∧ (∀ n, P n → G' n = F' n) ∧ (∀ n, ¬ P n → G' n = G n) := by
  cases o with
  | trunc m =>
    have e : some (G.upd m (some .zero)) = some G' := hG
    injection e with e; subst e
    exact ⟨_, rfl, FS.upd_agree h _ _, FS.upd_out G ho _⟩
  | unlinkIf m =>
    have e : some (G.upd m none) = some G' := hG
    injection e with e; subst e
    exact ⟨_, rfl, FS.upd_agree h _ _, FS.upd_out G ho _⟩
  | setLen m =>
    have hm := h m ho
    unfold FOp.appF at hG
    unfold FOp.appF
    dsimp only at hG ⊢
    rw [hm] at hG
    cases e : F m with
    | none => rw [e] at hG; cases hG
    | some x =>
      rw [e] at hG
      cases x with
      | zero => injection hG with hG; subst hG; exact ⟨_, rfl, FS.upd_agree h _ _, FS.upd_out G ho _⟩
      | blank => injection hG with hG; subst hG; exact ⟨_, rfl, h, fun _ _ => rfl⟩
      | good f => injection hG with hG; subst hG; exact ⟨_, rfl, h, fun _ _ => rfl⟩
  | magic m =>
    have hm := h m ho
    unfold FOp.appF at hG
    unfold FOp.appF
    dsimp only at hG ⊢
    rw [hm] at hG
    cases e : F m with
    | none => rw [e] at hG; cases hG
    | some x =>
      rw [e] at hG
      cases x with
      | zero => injection hG with hG; subst hG; exact ⟨_, rfl, FS.upd_agree h _ _, FS.upd_out G ho _⟩
      | blank => injection hG with hG; subst hG; exact ⟨_, rfl, FS.upd_agree h _ _, FS.upd_out G ho _⟩
      | good f => injection hG with hG; subst hG; exact ⟨_, rfl, h, fun _ _ => rfl⟩
  | prim m p =>
    have hm := h m ho
    unfold FOp.appF at hG
    unfold FOp.appF
    dsimp only at hG ⊢
    rw [hm] at hG
    cases e : F m with
    | none => rw [e] at hG; cases hG
    | some x =>
      rw [e] at hG
      cases x with
      | zero => cases hG
      | blank => cases hG
      | good f => injection hG with hG; subst hG; exact ⟨_, rfl, FS.upd_agree h _ _, FS.upd_out G ho _⟩
  | rename a b =>
    have hm := h a ho.1
    unfold FOp.appF at hG
    unfold FOp.appF
    dsimp only at hG ⊢
    rw [hm] at hG
    cases e : F a with
    | none => rw [e] at hG; cases hG
    | some x =>
      rw [e] at hG
      injection hG with hG; subst hG
      exact ⟨_, rfl, FS.upd_agree (FS.upd_agree h _ _) _ _, fun n hn => (FS.upd_out _ ho.2 _ n hn).trans (FS.upd_out G ho.1 _ n hn)⟩
  | unlink m =>
    have hm := h m ho
    unfold FOp.appF at hG
    unfold FOp.appF
    dsimp only at hG ⊢
    rw [hm] at hG
    cases e : F m with
    | none => rw [e] at hG; cases hG
    | some x =>
      rw [e] at hG
      injection hG with hG; subst hG
      exact ⟨_, rfl, FS.upd_agree h _ _, FS.upd_out G ho _⟩

/-- A crash inside operations on some files does not depend on the others, and leaves them alone. -/
theorem FS.Crash.local {P : FName → Prop} {G G' : FS} {os : List FOp} (h : FS.Crash G os G') : ∀ {F : FS}, (∀ o ∈ os, FOp.On P o) → (∀ n, P n → G n = F n) →
    ∃ F', FS.Crash F os F' ∧ (∀ n, P n → G' n = F' n) ∧ (∀ n, ¬ P n → G' n = G n) := by
  induction h with
  | stop G os => exact fun {F} _ h => ⟨F, .stop _ _, h, fun _ _ => rfl⟩
  | torn G n f off bs data os hf hd =>
    intro F ho h
    have hn : P n := ho _ List.mem_cons_self
    exact ⟨_, .torn F n f off bs data os (by rw [← h n hn]; exact hf) hd, FS.upd_agree h _ _, FS.upd_out G hn _⟩
  | step hs hc ih =>
    intro F ho h
    obtain ⟨F1, h1, h2, h3⟩ := FOp.appF_local (ho _ List.mem_cons_self) h hs
    obtain ⟨F2, g1, g2, g3⟩ := ih (fun o hm => ho o (List.mem_cons_of_mem _ hm)) h2
    exact ⟨F2, .step h1 g1, g2, fun n hn => (g3 n hn).trans (h3 n hn)⟩

/-! ## Ranges -/

/-- The name belongs to the range. -/
def inR (lo hi : Nat) (n : FName) : Prop := lo ≤ n.lo ∧ n.lo < n.hi ∧ n.hi ≤ hi

theorem inR.apart {a b : Nat} {L : List Shard} (ht : Tiles a b L) {s s' : Shard} (hs : s ∈ L) (hs' : s' ∈ L) {n : FName} (h : inR s.lo s.hi n) (h' : inR s'.lo s'.hi n) :
    s = s' := ht.eq_of_overlap hs hs' h.1 (Nat.lt_of_lt_of_le h.2.1 h.2.2) h'.1 (Nat.lt_of_lt_of_le h'.2.1 h'.2.2)

/-- The files of a range can be opened as the shards `l`. -/
structure RecAt (cfg : Cfg) (lo hi : Nat) (M : Bytes → Bytes → Prop) (F : FS) (l : List Shard) : Prop where
  tiles : Tiles lo hi l
  ok : ∀ s ∈ l, ROK cfg s
  src : ∀ s ∈ l, F s.srcName = some (.good s.src)
  tgt : ∀ s ∈ l, (F s.tgtName).map DFile.asFile = s.tgt
  shards : ∀ a b, inR lo hi ⟨.shard, a, b⟩ → F ⟨.shard, a, b⟩ ≠ none → ∃ s ∈ l, s.lo ≤ a ∧ b ≤ s.hi
  compacts : ∀ a b, inR lo hi ⟨.compact, a, b⟩ → F ⟨.compact, a, b⟩ ≠ none → ∃ s ∈ l, s.lo = a ∧ s.hi = b
  holds : ∀ k v, Holds cfg l k v ↔ M k v

theorem Tiles.inR_src {lo hi : Nat} {l : List Shard} (h : Tiles lo hi l) {s : Shard} (hs : s ∈ l) : inR lo hi s.srcName := by
  have := h.mem hs
  exact ⟨this.1, this.2.1, this.2.2⟩

theorem Tiles.inR_tgt {lo hi : Nat} {l : List Shard} (h : Tiles lo hi l) {s : Shard} (hs : s ∈ l) : inR lo hi s.tgtName := by
  have := h.mem hs
  exact ⟨this.1, this.2.1, this.2.2⟩

theorem RecAt.congr {cfg : Cfg} {lo hi : Nat} {M : Bytes → Bytes → Prop} {F G : FS} {l : List Shard} (h : RecAt cfg lo hi M F l) (e : ∀ n, inR lo hi n → G n = F n) :
    RecAt cfg lo hi M G l where
  tiles := h.tiles
  ok := h.ok
  src := fun s hs => by rw [e _ (h.tiles.inR_src hs)]; exact h.src s hs
  tgt := fun s hs => by rw [e _ (h.tiles.inR_tgt hs)]; exact h.tgt s hs
  shards := fun a b hr hn => h.shards a b hr (by rwa [e _ hr] at hn)
  compacts := fun a b hr hn => h.compacts a b hr (by rwa [e _ hr] at hn)
  holds := h.holds

theorem Tiles.nil_eq {a b : Nat} (h : Tiles a b []) : a = b := by
  cases h; rfl

/-- The part of a directory that belongs to one shard. -/
theorem Loc.recAt {cfg : Cfg} {pre post : List Shard} {s : Shard} {M : Bytes → Bytes → Prop} {F : FS} (ht : Tiles 0 65536 (pre ++ [s] ++ post))
    (h : Loc cfg pre post M F) : ∃ l, RecAt cfg s.lo s.hi M F l := by
  obtain ⟨l, hr, hh⟩ := h
  have hd : Dyadic s.lo s.hi := ht.dyadic mem_mid
  have hlt : s.lo < s.hi := (ht.mem mem_mid).2.1
  have htl : Tiles s.lo s.hi l := by
    have h1 := ht.replace (Tiles.single hd) hlt (Tiles.single hd)
    obtain ⟨m1, g1, g2⟩ := hr.tiles.split
    obtain ⟨m0, g0, g3⟩ := g1.split
    have e0 : m0 = s.lo := by
      cases pre with
      | nil => exact g0.nil_eq.symm.trans h1.1.nil_eq
      | cons x xs => exact (g0.unique h1.1 (by simp)).2
    have e1 : m1 = s.hi := by
      cases post with
      | nil => exact g2.nil_eq.trans h1.2.1.nil_eq.symm
      | cons x xs => exact (g2.unique h1.2.1 (by simp)).1
    rw [e0, e1] at g3
    exact g3
  have hout : ∀ x ∈ pre ++ l ++ post, ∀ a, x.lo ≤ a → a < x.hi → s.lo ≤ a → a < s.hi → x ∈ l := by
    intro x hx a h1 h2 h3 h4
    rcases List.mem_append.1 hx with hx | hx
    · rcases List.mem_append.1 hx with hx | hx
      · have e := ht.eq_of_overlap (List.mem_append_left _ (List.mem_append_left _ hx)) mem_mid h1 h2 h3 h4
        exfalso
        have g1 := (ht.replace (Tiles.single hd) hlt (Tiles.single hd)).1.mem hx
        rw [e] at g1; omega
      · exact hx
    · have e := ht.eq_of_overlap (List.mem_append_right _ hx) mem_mid h1 h2 h3 h4
      exfalso
      have g1 := (ht.replace (Tiles.single hd) hlt (Tiles.single hd)).2.1.mem hx
      rw [e] at g1; omega
  have hm : ∀ x ∈ l, x ∈ pre ++ l ++ post := fun x hx => List.mem_append_left _ (List.mem_append_right _ hx)
  refine ⟨l, htl, fun x hx => hr.ok x (hm x hx), fun x hx => hr.src x (hm x hx), fun x hx => hr.tgt x (hm x hx), fun a b hi hn => ?_, fun a b hi hn => ?_, hh⟩
  · obtain ⟨hab, x, hx, h1, h2⟩ := hr.shards a b hn
    have q1 : s.lo ≤ a := hi.1
    have q2 : b ≤ s.hi := hi.2.2
    exact ⟨x, hout x hx a h1 (by omega) q1 (by omega), h1, h2⟩
  · obtain ⟨x, hx, h1, h2⟩ := hr.compacts a b hn
    have q1 : s.lo ≤ a := hi.1
    have q3 : a < b := hi.2.1
    have q2 : b ≤ s.hi := hi.2.2
    exact ⟨x, hout x hx a (by omega) (by omega) q1 (by omega), h1, h2⟩

/-- The ranges of all shards can be opened: so can the directory. -/
theorem RecAt.glue {cfg : Cfg} {F : FS} {L : List Shard} (ht : Tiles 0 65536 L)
    (h : ∀ s ∈ L, ∃ l, RecAt cfg s.lo s.hi (fun k v => s.val cfg k = some v) F l)
    (ho : ∀ n : FName, n.real → F n ≠ none → ∃ s ∈ L, inR s.lo s.hi n) :
    ∃ l, RecF cfg F l ∧ ∀ k v, Holds cfg l k v ↔ Holds cfg L k v := by
  classical
  let f : Shard → List Shard := fun s => if h : ∃ l, RecAt cfg s.lo s.hi (fun k v => s.val cfg k = some v) F l then h.choose else []
  have hf : ∀ s ∈ L, RecAt cfg s.lo s.hi (fun k v => s.val cfg k = some v) F (f s) := by
    intro s hs
    show RecAt cfg s.lo s.hi (fun k v => s.val cfg k = some v) F (if h : ∃ l, RecAt cfg s.lo s.hi (fun k v => s.val cfg k = some v) F l then h.choose else [])
    rw [dif_pos (h s hs)]
    exact (h s hs).choose_spec
  have htl : ∀ (a b : Nat) (L' : List Shard), Tiles a b L' → (∀ s ∈ L', s ∈ L) → Tiles a b (L'.flatMap f) := by
    intro a b L' h'
    induction h' with
    | nil => exact fun _ => .nil
    | @cons lo hi s l hlo hd ht ih =>
      intro hs
      rw [List.flatMap_cons, ← hlo]
      exact (hf s (hs s List.mem_cons_self)).tiles.append (ih (fun x hx => hs x (List.mem_cons_of_mem _ hx)))
  refine ⟨L.flatMap f, ⟨htl _ _ L ht (fun _ h => h), fun x hx => ?_, fun x hx => ?_, fun x hx => ?_, fun a b hn => ?_, fun a b hn => ?_⟩, fun k v => ?_⟩
  · obtain ⟨s, hs, hx⟩ := List.mem_flatMap.1 hx; exact (hf s hs).ok x hx
  · obtain ⟨s, hs, hx⟩ := List.mem_flatMap.1 hx; exact (hf s hs).src x hx
  · obtain ⟨s, hs, hx⟩ := List.mem_flatMap.1 hx; exact (hf s hs).tgt x hx
  · obtain ⟨s, hs, hi⟩ := ho ⟨.shard, a, b⟩ (Or.inl rfl) hn
    obtain ⟨x, hx, h1⟩ := (hf s hs).shards a b hi hn
    exact ⟨hi.2.1, x, List.mem_flatMap.2 ⟨s, hs, hx⟩, h1⟩
  · obtain ⟨s, hs, hi⟩ := ho ⟨.compact, a, b⟩ (Or.inr rfl) hn
    obtain ⟨x, hx, h1⟩ := (hf s hs).compacts a b hi hn
    exact ⟨x, List.mem_flatMap.2 ⟨s, hs, hx⟩, h1⟩
  · constructor
    · rintro ⟨x, hx, hv⟩
      obtain ⟨s, hs, hx⟩ := List.mem_flatMap.1 hx
      exact ⟨s, hs, ((hf s hs).holds k v).1 ⟨x, hx, hv⟩⟩
    · rintro ⟨s, hs, hv⟩
      obtain ⟨x, hx, hv⟩ := ((hf s hs).holds k v).2 hv
      exact ⟨x, List.mem_flatMap.2 ⟨s, hs, hx⟩, hv⟩

/-- Some shards of a directory in use have been changed by interrupted operations (those starting at `los`). -/
structure Mixed (cfg : Cfg) (L : List Shard) (F0 : FS) (los : List Nat) (F : FS) : Prop where
  same : ∀ s ∈ L, s.lo ∉ los → ∀ n, inR s.lo s.hi n → F n = F0 n
  recs : ∀ s ∈ L, ∃ l, RecAt cfg s.lo s.hi (fun k v => s.val cfg k = some v) F l
  only : ∀ n : FName, F n ≠ none → ∃ s ∈ L, inR s.lo s.hi n

theorem Ctx.mixed {cfg : Cfg} {L : List Shard} {F : FS} (h : ∀ pre s post, L = pre ++ [s] ++ post → Ctx cfg F pre [s] post) (hd : DirF F L) (ht : Tiles 0 65536 L) :
    Mixed cfg L F [] F := by
  refine ⟨fun _ _ _ _ _ => rfl, fun s hs => ?_, fun n hn => ?_⟩
  · obtain ⟨pre, post, e⟩ := List.append_of_mem hs
    have e : L = pre ++ [s] ++ post := by rw [e]; simp
    exact Loc.recAt (e ▸ ht) ((h pre s post e).loc (fun k v => ⟨fun ⟨x, hx, hv⟩ => by cases List.mem_singleton.1 hx; exact hv, fun hv => ⟨s, List.mem_singleton.2 rfl, hv⟩⟩))
  · obtain ⟨s, hs, e | e⟩ := hd.only n hn
    · exact ⟨s, hs, e ▸ ht.inR_src hs |> fun (h : inR 0 65536 n) => by
        have := ht.mem hs
        rw [e]; exact ⟨Nat.le_refl _, this.2.1, Nat.le_refl _⟩⟩
    · have := ht.mem hs
      exact ⟨s, hs, by rw [e]; exact ⟨Nat.le_refl _, this.2.1, Nat.le_refl _⟩⟩

/-- One more operation is interrupted. -/
theorem Mixed.step {cfg : Cfg} {L : List Shard} {F0 F G : FS} {los : List Nat} {s : Shard} {os : List FOp} (h : Mixed cfg L F0 los F) (ht : Tiles 0 65536 L) (hs : s ∈ L)
    (hlo : s.lo ∉ los) (hon : ∀ o ∈ os, FOp.On (inR s.lo s.hi) o)
    (hloc : ∀ F', FS.Crash F0 os F' → ∃ l, RecAt cfg s.lo s.hi (fun k v => s.val cfg k = some v) F' l) (hc : FS.Crash F os G) :
    Mixed cfg L F0 (s.lo :: los) G := by
  obtain ⟨F', h1, h2, h3⟩ := hc.local hon (h.same s hs hlo)
  have hne : ∀ s' ∈ L, s'.lo ≠ s.lo → ∀ n, inR s'.lo s'.hi n → G n = F n := fun s' hs' e n hn => h3 n (fun hn' => e (congrArg Shard.lo (inR.apart ht hs' hs hn hn')))
  refine ⟨fun s' hs' hnm n hn => ?_, fun s' hs' => ?_, fun n hn => ?_⟩
  · rw [List.mem_cons, not_or] at hnm
    exact (hne s' hs' hnm.1 n hn).trans (h.same s' hs' hnm.2 n hn)
  · by_cases e : s'.lo = s.lo
    · have e : s' = s := by
        have m1 := ht.mem hs
        have m2 := ht.mem hs'
        exact ht.eq_of_overlap (x := s.lo) hs' hs (by omega) (by omega) (Nat.le_refl _) m1.2.1
      rw [e]
      obtain ⟨l, hl⟩ := hloc F' h1
      exact ⟨l, hl.congr h2⟩
    · obtain ⟨l, hl⟩ := h.recs s' hs'
      exact ⟨l, hl.congr (hne s' hs' e)⟩
  · by_cases hin : inR s.lo s.hi n
    · exact ⟨s, hs, hin⟩
    · rw [h3 n hin] at hn; exact h.only n hn

/-! ## The operations -/

theorem onFile_on {P : FName → Prop} {n : FName} (hn : P n) (ps : List Prim) : ∀ o ∈ onFile n ps, FOp.On P o := by
  intro o ho
  obtain ⟨p, _, rfl⟩ := List.mem_map.1 ho
  exact hn

theorem createOps_on {P : FName → Prop} {n : FName} (hn : P n) : ∀ o ∈ createOps n, FOp.On P o := by
  intro o ho
  unfold createOps at ho
  simp only [List.mem_cons, List.not_mem_nil, or_false] at ho
  rcases ho with rfl | rfl | rfl <;> exact hn

theorem beginOps_on {s : Shard} (hlt : s.lo < s.hi) (off : Nat) : ∀ o ∈ s.beginOps off, FOp.On (inR s.lo s.hi) o := by
  intro o ho
  unfold Shard.beginOps at ho
  split at ho
  · cases ho
  · split at ho
    · cases ho
    · exact createOps_on ⟨Nat.le_refl _, hlt, Nat.le_refl _⟩ o ho

theorem splitOps_on {cfg : Cfg} {s : Shard} (hq : s.tgt = none) (h1 : s.lo < midOf s.lo s.hi) (h2 : midOf s.lo s.hi < s.hi) :
    ∀ o ∈ s.splitOps cfg, FOp.On (inR s.lo s.hi) o := by
  intro o ho
  have e1 : s.finishOps cfg = [] := by unfold Shard.finishOps; rw [hq]
  have e2 : s.finish cfg = some s := by unfold Shard.finish; rw [hq]
  have ho : o ∈ s.finishOps cfg ++ (match s.finish cfg with | none => [] | some s => _) := ho
  rw [e1, e2] at ho
  simp only [List.nil_append, List.mem_append, List.mem_cons, List.not_mem_nil, or_false] at ho
  have b1 : ∀ k, inR s.lo s.hi ⟨k, s.lo, midOf s.lo s.hi⟩ := fun k => ⟨Nat.le_refl _, h1, Nat.le_of_lt h2⟩
  have b2 : ∀ k, inR s.lo s.hi ⟨k, midOf s.lo s.hi, s.hi⟩ := fun k => ⟨Nat.le_of_lt h1, h2, Nat.le_refl _⟩
  rcases ho with (((ho | ho) | ho) | ho) | ho
  · exact createOps_on (b1 _) o ho
  · exact createOps_on (b2 _) o ho
  · exact onFile_on (b1 _) _ o ho
  · exact onFile_on (b2 _) _ o ho
  · rcases ho with rfl | rfl | rfl
    · exact ⟨b1 _, b1 _⟩
    · exact ⟨b2 _, b2 _⟩
    · exact ⟨Nat.le_refl _, Nat.lt_trans h1 h2, Nat.le_refl _⟩

end Candy
