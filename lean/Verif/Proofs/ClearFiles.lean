import Verif.Model.ClearFiles
import Verif.Proofs.DirRun
/-!
# `clear` and background compactions
-/
namespace Candy

theorem FOp.find_of {d d' : Dir} {o : FOp} (h : o.app d = some d') : o.appF d.find = some d'.find := by
  have := FOp.app_find (d := d) o
  rw [h] at this
  exact this.symm

/-- A file that exists stays unless it is the compaction target that is renamed; compaction targets do not appear. -/
theorem BgFile.names {d d' : Dir} {r : List Span} (h : BgFile d r d') :
    (r = [] ∧ ∀ n, d'.find n ≠ none ↔ d.find n ≠ none) ∨
    (∃ lo hi, r = [(lo, hi)] ∧ d.find ⟨.compact, lo, hi⟩ ≠ none ∧ d'.find ⟨.compact, lo, hi⟩ = none ∧ ∀ n, n.kind = .compact → d.find n = none → d'.find n = none) := by
  cases h with
  | store lo hi p h =>
    refine .inl ⟨rfl, fun n => ?_⟩
    have := FOp.find_of h
    unfold FOp.appF at this
    cases hf : d.find ⟨.compact, lo, hi⟩ with
    | none => simp only [hf] at this; cases this
    | some x =>
      cases x with
      | zero => simp only [hf] at this; cases this
      | blank => simp only [hf] at this; cases this
      | good f =>
        simp only [hf, Option.some.injEq] at this
        rw [← this]
        by_cases e : n = ⟨.compact, lo, hi⟩
        · subst e; rw [FS.upd_same, hf]; simp
        · rw [FS.upd_other _ _ e]
  | rename lo hi f hf hc h =>
    have := FOp.find_of h
    unfold FOp.appF at this
    simp only [hf, Option.some.injEq] at this
    refine .inr ⟨lo, hi, rfl, by rw [hf]; simp, ?_, fun n hk hn => ?_⟩
    · rw [← this, FS.upd_other _ _ (by simp), FS.upd_same]
    · rw [← this, FS.upd_other _ _ (by rintro rfl; simp at hk)]
      by_cases e : n = ⟨.compact, lo, hi⟩
      · subst e; rw [FS.upd_same]
      · rw [FS.upd_other _ _ e]; exact hn

theorem BgFile.nodup {d d' : Dir} {r : List Span} (h : BgFile d r d') (hn : d.Nodup) : d'.Nodup := by
  cases h with
  | store lo hi p h => exact FOp.app_nodup hn h
  | rename lo hi f hf hc h => exact FOp.app_nodup hn h

/-- A compaction target that is to be deleted and is not there any more makes `clear` fail. -/
theorem ClearFiles.missing {d d' : Dir} {os : List FOp} {ok : Bool} {rn : List Span} (h : ClearFiles d os ok rn d') :
    ∀ (us : List FName) (cr : List FOp) (a : FName), os = us.map .unlink ++ cr → a.kind = .compact → a ∈ us → d.find a = none → ok = false := by
  induction h with
  | done d =>
    intro us cr a e _ ha _
    cases us with
    | nil => cases ha
    | cons u us => cases e
  | @op d0 d1 d' o os ok rn h rest ih =>
    intro us cr a e hk ha hf
    cases us with
    | nil => cases ha
    | cons u us =>
      injection e with e1 e2
      subst e1
      have := FOp.find_of h
      unfold FOp.appF at this
      by_cases eq : a = u
      · subst eq; simp only [hf] at this; cases this
      · refine ih us cr a e2 hk ((List.mem_cons.1 ha).resolve_left eq) ?_
        cases hu : d0.find u with
        | none => simp only [hu] at this; cases this
        | some x =>
          simp only [hu, Option.some.injEq] at this
          rw [← this, FS.upd_other _ _ eq]; exact hf
  | fail h => intros; rfl
  | bg h rest ih =>
    intro us cr a e hk ha hf
    refine ih us cr a e hk ha ?_
    rcases h.names with ⟨_, hn⟩ | ⟨_, _, _, _, _, hn⟩
    · exact Classical.byContradiction (fun hc => (hn a).1 hc hf)
    · exact hn a hk hf

/-- An operation that creates no compaction target. -/
def FOp.creates (o : FOp) : Prop := (∃ n : FName, n.kind ≠ .compact ∧ (o = .trunc n ∨ o = .setLen n ∨ o = .magic n)) ∨ ∃ n, o = .unlinkIf n

theorem FOp.creates_keeps {d d' : Dir} {o : FOp} (hc : o.creates) (h : o.app d = some d') (hd : ∀ n : FName, n.kind = .compact → d.find n = none) :
    ∀ n : FName, n.kind = .compact → d'.find n = none := by
  intro m hm
  have := FOp.find_of h
  rcases hc with ⟨n, hk, hc⟩ | ⟨n, rfl⟩
  · have hne : m ≠ n := fun e => hk (e ▸ hm)
    rcases hc with rfl | rfl | rfl
    · simp only [FOp.appF, Option.some.injEq] at this
      rw [← this, FS.upd_other _ _ hne]; exact hd m hm
    · unfold FOp.appF at this
      cases hf : d.find n with
      | none => simp only [hf] at this; cases this
      | some x =>
        cases x with
        | zero => simp only [hf, Option.some.injEq] at this; rw [← this, FS.upd_other _ _ hne]; exact hd m hm
        | blank => simp only [hf, Option.some.injEq] at this; rw [← this]; exact hd m hm
        | good f => simp only [hf, Option.some.injEq] at this; rw [← this]; exact hd m hm
    · unfold FOp.appF at this
      cases hf : d.find n with
      | none => simp only [hf] at this; cases this
      | some x =>
        cases x with
        | zero => simp only [hf, Option.some.injEq] at this; rw [← this, FS.upd_other _ _ hne]; exact hd m hm
        | blank => simp only [hf, Option.some.injEq] at this; rw [← this, FS.upd_other _ _ hne]; exact hd m hm
        | good f => simp only [hf, Option.some.injEq] at this; rw [← this]; exact hd m hm
  · simp only [FOp.appF, Option.some.injEq] at this
    rw [← this]
    by_cases e : m = n
    · subst e; rw [FS.upd_same]
    · rw [FS.upd_other _ _ e]; exact hd m hm

theorem BgFile.target {d d' : Dir} {r : List Span} (h : BgFile d r d') : ∃ n : FName, n.kind = .compact ∧ d.find n ≠ none := by
  cases h with
  | store lo hi p h =>
    refine ⟨⟨.compact, lo, hi⟩, rfl, fun e => ?_⟩
    have := FOp.find_of h
    unfold FOp.appF at this
    simp only [e] at this
    cases this
  | rename lo hi f hf hc h => exact ⟨⟨.compact, lo, hi⟩, rfl, by rw [hf]; simp⟩

/-- Without compaction targets the background threads do nothing to the directory. -/
theorem ClearFiles.quiet {d d' : Dir} {os : List FOp} {ok : Bool} {rn : List Span} (h : ClearFiles d os ok rn d') :
    (∀ o ∈ os, o.creates) → (∀ n : FName, n.kind = .compact → d.find n = none) → rn = [] ∧ (ok = true → d.run os = some d') ∧ (ok = false → d.run os = none) := by
  induction h with
  | done d => exact fun _ _ => ⟨rfl, fun _ => rfl, fun h => by cases h⟩
  | op h rest ih =>
    intro h1 h2
    obtain ⟨g1, g2, g3⟩ := ih (fun o ho => h1 o (List.mem_cons_of_mem _ ho)) (FOp.creates_keeps (h1 _ List.mem_cons_self) h h2)
    refine ⟨g1, fun e => ?_, fun e => ?_⟩
    · rw [Dir.run, h]; exact g2 e
    · rw [Dir.run, h]; exact g3 e
  | fail h => exact fun _ _ => ⟨rfl, (fun e => by cases e), fun _ => by rw [Dir.run, h]⟩
  | bg h rest ih =>
    intro h1 h2
    obtain ⟨n, g1, g2⟩ := h.target
    exact absurd (h2 n g1) g2

/-- The files are deleted, unless a compaction finishes meanwhile, and then `clear` fails. -/
theorem ClearFiles.deletes {d d' : Dir} {os : List FOp} {ok : Bool} {rn : List Span} (h : ClearFiles d os ok rn d') :
    ∀ (us : List FName) (cr : List FOp), os = us.map .unlink ++ cr → (∀ o ∈ cr, o.creates) → d.Nodup → us.Nodup → (∀ n, d.find n ≠ none ↔ n ∈ us) →
      (rn = [] ∧ ∃ d1 : Dir, d1.Nodup ∧ (∀ n, d1.find n = none) ∧ (ok = true → d1.run cr = some d') ∧ (ok = false → d1.run cr = none)) ∨ (rn ≠ [] ∧ ok = false) := by
  have last : ∀ {d d' : Dir} {os : List FOp} {ok : Bool} {rn : List Span} {cr : List FOp}, ClearFiles d os ok rn d' → os = ([] : List FName).map .unlink ++ cr → (∀ o ∈ cr, o.creates) → d.Nodup →
      (∀ n, d.find n ≠ none ↔ n ∈ ([] : List FName)) →
      (rn = [] ∧ ∃ d1 : Dir, d1.Nodup ∧ (∀ n, d1.find n = none) ∧ (ok = true → d1.run cr = some d') ∧ (ok = false → d1.run cr = none)) ∨ (rn ≠ [] ∧ ok = false) := by
    intro d d' os ok rn cr h e hc hn he
    have hem : ∀ n, d.find n = none := fun n => Classical.byContradiction (fun hx => by have := (he n).1 hx; cases this)
    have e : os = cr := e
    subst e
    obtain ⟨g1, g2⟩ := h.quiet hc (fun n _ => hem n)
    exact .inl ⟨g1, d, hn, hem, g2⟩
  induction h with
  | done d =>
    intro us cr e hc hnd hu hn
    cases us with
    | nil => exact last (.done d) e hc hnd hn
    | cons u us => cases e
  | @op d d1 d' o os ok rn h rest ih =>
    intro us cr e hc hnd hu hn
    cases us with
    | nil => exact last (.op h rest) e hc hnd hn
    | cons u us =>
      injection e with e1 e2
      subst e1
      have hu' := List.nodup_cons.1 hu
      refine ih us cr e2 hc (FOp.app_nodup hnd h) hu'.2 (fun n => ?_)
      have := FOp.find_of h
      unfold FOp.appF at this
      cases hx : d.find u with
      | none => simp only [hx] at this; cases this
      | some x =>
        simp only [hx, Option.some.injEq] at this
        rw [← this]
        by_cases en : n = u
        · subst en
          rw [FS.upd_same]
          exact ⟨fun hc => absurd rfl hc, fun hm => absurd hm hu'.1⟩
        · rw [FS.upd_other _ _ en, hn]
          exact ⟨fun hm => (List.mem_cons.1 hm).resolve_left en, fun hm => List.mem_cons_of_mem _ hm⟩
  | @fail d o os h =>
    intro us cr e hc hnd hu hn
    cases us with
    | nil => exact last (.fail h) e hc hnd hn
    | cons u us =>
      injection e with e1 e2
      subst e1
      have hx := (hn u).2 List.mem_cons_self
      have := FOp.app_find (d := d) (.unlink u)
      rw [h] at this
      unfold FOp.appF at this
      cases hf : d.find u with
      | none => exact absurd hf hx
      | some x => simp only [hf] at this; cases this
  | @bg d d1 d' os ok r rn h rest ih =>
    intro us cr e hc hnd hu hn
    rcases h.names with ⟨rfl, g⟩ | ⟨lo, hi, rfl, g1, g2, _⟩
    · exact ih us cr e hc (h.nodup hnd) hu (fun n => (g n).trans (hn n))
    · exact .inr ⟨by simp, rest.missing us cr _ e rfl ((hn _).1 g1) g2⟩

/-- What `clear` deletes. -/
theorem clearScan_eq : ∀ (d : Dir), (∀ n, n ∈ d.map Prod.fst → n.kind ≠ .merge) → clearScan d = (d.map Prod.fst).map .unlink
  | [], _ => rfl
  | (m, x) :: d, h => by
    have hm := h m (by simp)
    rw [clearScan]
    split
    · rename_i e; exact absurd e hm
    · rw [clearScan_eq d (fun n hn => h n (List.mem_cons_of_mem _ hn))]; rfl

theorem createShardOps_creates {l : List Shard} : ∀ o ∈ l.flatMap createShardOps, o.creates := by
  intro o ho
  obtain ⟨s, _, ho⟩ := List.mem_flatMap.1 ho
  simp only [createShardOps, createOps, List.mem_append, List.mem_cons, List.not_mem_nil, or_false] at ho
  rcases ho with (rfl | rfl | rfl) | rfl
  · exact .inl ⟨_, by simp [Shard.srcName], .inl rfl⟩
  · exact .inl ⟨_, by simp [Shard.srcName], .inr (.inl rfl)⟩
  · exact .inl ⟨_, by simp [Shard.srcName], .inr (.inr rfl)⟩
  · exact .inr ⟨_, rfl⟩

/-- `clear` succeeds exactly if no compaction finishes meanwhile, and then the directory is that of a new store and no compaction can touch it any more. -/
theorem clear_files_bg {cfg : Cfg} {t t' : Tree} {d d' : Dir} {ok : Bool} {rn : List Span} (hd : DirOf d t.leaves) (ht : t.clear cfg = some t')
    (h : ClearFiles d (clearOps cfg d) ok rn d') :
    (ok = true ↔ rn = []) ∧ (ok = true → DirOf d' t'.leaves ∧ ∀ r d2, ¬ BgFile d' r d2) := by
  have hmem : ∀ n, n ∈ d.map Prod.fst ↔ d.find n ≠ none := fun n => Dir.mem_names
  have hsc := clearScan_eq d (fun n hn => by
    obtain ⟨s, _, e | e⟩ := hd.only n ((hmem n).1 hn) <;> (rw [e]; simp [Shard.srcName, Shard.tgtName]))
  have hos : clearOps cfg d = (d.map Prod.fst).map .unlink ++ ((createInitialShards cfg).getD []).flatMap createShardOps := by rw [clearOps, hsc]
  rcases h.deletes _ _ hos createShardOps_creates hd.nodup hd.nodup (fun n => (hmem n).symm) with ⟨g1, d1, g2, g3, g4, g5⟩ | ⟨g1, g2⟩
  · obtain ⟨d2, l, k1, _, k3, k4⟩ := create_files ht g2 g3
    rw [k1] at g4 g5
    have g4 : ok = true → d1.run (l.flatMap createShardOps) = some d' := g4
    have g5 : ok = false → d1.run (l.flatMap createShardOps) = none := g5
    have hok : ok = true := by
      cases ok with
      | true => rfl
      | false => rw [k3] at g5; cases g5 rfl
    refine ⟨⟨fun _ => g1, fun _ => hok⟩, fun _ => ?_⟩
    have e := g4 hok
    rw [k3] at e
    cases e
    refine ⟨k4, fun r d3 hb => ?_⟩
    obtain ⟨n, q1, q2⟩ := hb.target
    obtain ⟨s, hs, e | e⟩ := k4.only n q2
    · rw [e] at q1; cases q1
    · have hf := (k4.files s hs).2
      obtain ⟨u, hu, _, _, _, _, hq, _⟩ := Tree.create_spec (create_bound ht) true
      have e2 : Tree.create cfg = some t' := ht
      rw [hu] at e2
      cases e2
      rw [e, hf, hq s hs] at q2
      exact q2 rfl
  · refine ⟨⟨fun e => (by rw [g2] at e; cases e), fun e => absurd e g1⟩, fun e => by rw [g2] at e; cases e⟩

end Candy
