import Verif.Proofs.Litter
import Verif.Model.ErrorDir
/-!
# Steps, crashes and recovery in a directory with remains of failed operations
-/
namespace Candy
open Spec

/-- The directory holds the files of the shards, and litter. -/
def Littered (d : Dir) (l : List Shard) : Prop := d.Nodup ∧ ∃ G, DirF G l ∧ Over true d.find G

/-- The directory holds the files of the shards, and perhaps files of compactions, without contents, of ranges that are not those of shards. -/
def Tidy (d : Dir) (l : List Shard) : Prop := d.Nodup ∧ ∃ G, DirF G l ∧ Over false d.find G

theorem Tidy.littered {d : Dir} {l : List Shard} (h : Tidy d l) : Littered d l := by
  obtain ⟨h1, G, h2, h3⟩ := h
  exact ⟨h1, G, h2, h3.weaken true⟩

theorem Tidy.files {d : Dir} {l : List Shard} (h : Tidy d l) {n : FName} {x : DFile} (hx : d.find n = some x) :
    (∃ s ∈ l, n = s.srcName ∨ n = s.tgtName) ∨ (n.kind = .compact ∧ x.asFile = MFile.empty) := by
  obtain ⟨_, G, hG, ho⟩ := h
  rcases ho n with e | ⟨_, y, e, hl⟩
  · exact Or.inl (hG.only n (by rw [← e, hx]; simp))
  · rw [hx] at e; simp only [Option.some.injEq] at e; subst e
    right
    unfold Litter at hl
    cases hk : n.kind <;> rw [hk] at hl
    · exact absurd hl.1 (by simp)
    · exact ⟨rfl, hl⟩
    · exact absurd hl (by simp)
    · exact absurd hl (by simp)
    · exact absurd hl (by simp)

theorem DirOf.littered {d : Dir} {l : List Shard} (h : DirOf d l) : Littered d l := ⟨h.dirF.1, _, h.dirF.2, Over.refl _ _⟩

theorem Ctx.dirF {cfg : Cfg} {F : FS} {l : List Shard} (h : Ctx cfg F [] l []) : DirF F l := by
  have := h.dir
  simpa using this

/-- The traces of the steps are safe, and lead from the files of the old tree to those of the new. -/
theorem RawStep.filesF {cfg : Cfg} {ex : Bool} {t t' : Tree} {ops : List FOp} (h : RawStep cfg t ops t') {G : FS} (hd : DirF G t.leaves)
    (hsane : Sane cfg ex t) (hsm : t.Small) (hn : t.NonDegenerate) : Keeps G ops ∧ ∃ G', G.run ops = some G' ∧ Ctx cfg G' [] t'.leaves [] := by
  have hok := hsane.ok
  have hc := hok.ctx hn hd
  cases h with
  | ins hz h hn' =>
    have hz := sizeErr_lt hz
    obtain ⟨F', h1, h2⟩ := Ctx.insert hz.1 hz.2 _ t 0 END_OF_SHARDS G [] [] t' _ hc hok hsm (inSpan_full _) h hn'
    exact ⟨insert_keeps hz.1 hz.2 _ t 0 END_OF_SHARDS t' _ hok hsm (inSpan_full _) h hn' dyadic_full G, F', h1.1, h2⟩
  | rem k =>
    obtain ⟨F', h1, h2⟩ := hc.remove hok (k := k) (inSpan_full _)
    exact ⟨Keeps.plain (onFile_plain _ _), F', h1.1, h2⟩
  | bg h =>
    obtain ⟨F', h1, h2⟩ := hc.bgTree hok hsm h
    exact ⟨Keeps.plain (bgOps_plain _ _), F', h1.1, h2⟩
  | close h =>
    have ht := hok.tiling hn dyadic_full
    obtain ⟨F', u, e, htr, hc', hh⟩ := Ctx.finishTree t G [] [] hc (fun s hs => ⟨(ht.mem hs).2.2.2.1, hsm s hs⟩)
    rw [h] at e; simp only [Option.some.injEq] at e; subst e
    exact ⟨Keeps.plain (finishTree_plain _ _), F', htr.1, hc'⟩
  | @merge _ maxFill b hmok h =>
    obtain ⟨ex', ho, hfit⟩ := hmok.cases hsane
    have ht := hok.tiling hn dyadic_full
    obtain ⟨F', u, e, htr, hc', hh⟩ := Ctx.finishTree t G [] [] hc (fun s hs => ⟨(ht.mem hs).2.2.2.1, hsm s hs⟩)
    obtain ⟨uok, usm, uq, un, ug, uf⟩ := finished_fits (maxFill := maxFill) ho hn hsm hfit e
    have hcnt := Tree.mergeSmall_counted h u e
    unfold Tree.mergeSmall at h
    unfold Tree.mergeSmallOps
    rw [e] at h ⊢
    dsimp only at h ⊢
    rw [hcnt, if_neg (by simp)] at h
    cases hcalc : calcNumShards (Nat.max (u.leaves.map (fun s => s.getStats.numItems)).sum cfg.expectedKeys) with
    | none => rw [hcalc] at h; cases h
    | some needed =>
      rw [hcalc] at h
      dsimp only at h ⊢
      by_cases hle : u.leaves.length ≤ needed
      · rw [if_pos hle] at h ⊢
        simp only [Out.ok.injEq, Prod.mk.injEq] at h
        rw [List.append_nil, ← h.1]
        exact ⟨Keeps.plain (finishTree_plain _ _), F', htr.1, hc'⟩
      · rw [if_neg hle] at h ⊢
        obtain ⟨F2, htr2, hfin⟩ := Ctx.mergeRec (ex := ex') (maxFill := maxFill) u (u.leaves.length - needed) 0 65536 F' [] [] hc' uok uq un dyadic_full
            (uq.small_iff.1 usm) uf
        refine ⟨(Keeps.plain (finishTree_plain _ _)).append fun G1 _ =>
          mergeRec_keeps u _ 0 65536 uok uq un dyadic_full (uq.small_iff.1 usm) uf G1, ?_⟩
        cases hr : u.mergeRec cfg maxFill (u.leaves.length - needed) with
        | ok r =>
          rw [hr] at h
          have hc2 := hfin r hr
          have hl : t'.leaves = r.shards := by
            cases hte : treeify r.shards with
            | none => simp only [Out.bind, hte] at h; cases h
            | some t2 =>
              simp only [Out.bind, hte, Out.ok.injEq, Prod.mk.injEq] at h
              rw [← h.1]
              exact treeify_leaves hte
          rw [hl]
          refine ⟨F2, ?_, hc2⟩
          rw [FS.run_append, htr.1]
          exact htr2.1
        | _ => rw [hr] at h; cases h

/-! ## Recovery -/

/-- Opening the directory would give the contents `m`; besides there may be files of compactions without contents. -/
def RecJ (cfg : Cfg) (d : Dir) (m : Map) : Prop :=
  d.Nodup ∧ ∃ F l, RecF cfg F l ∧ (∀ k v, Holds cfg l k v ↔ m k = some v) ∧ Over false d.find F

theorem Tiles.retarget (g : Shard → Option MFile) {lo hi : Nat} {l : List Shard} (h : Tiles lo hi l) :
    Tiles lo hi (l.map fun s => { s with tgt := g s }) := by
  induction h with
  | nil => exact .nil
  | cons hlo hd _ ih => exact .cons hlo hd ih

open Classical in
/-- The directory without the files of compactions of other shards. -/
noncomputable def pruned (F : FS) (l : List Shard) : FS := fun n => if n.kind = .compact ∧ ¬ ∃ s ∈ l, n = s.tgtName then none else F n

theorem Over.lift {cfg : Cfg} {F G : FS} {l : List Shard} (h : RecF cfg G l) (ho : Over true F G) :
    ∃ F0 l', RecF cfg F0 l' ∧ (∀ k v, Holds cfg l' k v ↔ Holds cfg l k v) ∧ Over false F F0 ∧ ∀ s ∈ l', F0 s.tgtName = F s.tgtName := by
  have key : ∀ s ∈ l, ROK cfg { s with tgt := (F s.tgtName).map DFile.asFile } ∧
      ∀ k, Shard.val cfg { s with tgt := (F s.tgtName).map DFile.asFile } k = s.val cfg k := by
    intro s hs
    have hr := h.ok s hs
    rcases ho s.tgtName with e | ⟨e0, x, e1, e2⟩
    · rw [e, h.tgt s hs]
      exact ⟨hr, fun _ => rfl⟩
    · have hq : s.tgt = none := by rw [← h.tgt s hs, e0]; rfl
      have e2 : x.asFile = MFile.empty := e2
      obtain ⟨hi, ha⟩ := FileOK_inv hr hq
      have e3 : ({ s with tgt := (F s.tgtName).map DFile.asFile } : Shard) = s.beginCompaction 0 := by
        unfold Shard.beginCompaction
        rw [if_neg (Nat.not_lt_zero _), hq, e1, Option.map_some, e2]
      have hb := Shard.beginCompaction_spec hi 0
      rw [e3]
      refine ⟨hb.1.rok (ex := false) (Shard.beginCompaction_acct ha 0), fun k => ?_⟩
      unfold Shard.val Shard.get
      rw [hb.2.1]
  have hreal : ∀ s ∈ l, pruned F l s.tgtName = F s.tgtName := fun s hs => by
    unfold pruned
    rw [if_neg]
    rintro ⟨_, hn⟩
    exact hn ⟨s, hs, rfl⟩
  have hshard : ∀ a b, pruned F l ⟨.shard, a, b⟩ = F ⟨.shard, a, b⟩ := fun a b => by
    unfold pruned
    rw [if_neg]
    rintro ⟨e, _⟩
    cases e
  refine ⟨pruned F l, l.map fun s => { s with tgt := (F s.tgtName).map DFile.asFile }, ⟨h.tiles.retarget _, ?_, ?_, ?_, ?_, ?_⟩, fun k v => ?_, fun n => ?_, fun s hs => by
    obtain ⟨s0, hs0, rfl⟩ := List.mem_map.1 hs
    exact hreal s0 hs0⟩
  · intro s hs
    obtain ⟨s0, hs0, rfl⟩ := List.mem_map.1 hs
    exact (key s0 hs0).1
  · intro s hs
    obtain ⟨s0, hs0, rfl⟩ := List.mem_map.1 hs
    exact (hshard _ _).trans (ho.get (h.src s0 hs0))
  · intro s hs
    obtain ⟨s0, hs0, rfl⟩ := List.mem_map.1 hs
    exact congrArg _ (hreal s0 hs0)
  · intro a b hne
    rw [hshard] at hne
    rcases ho ⟨.shard, a, b⟩ with e | ⟨e0, x, e1, _, e2, a', b', e3, e4, e5⟩
    · rw [e] at hne
      obtain ⟨h1, s, hs, h2⟩ := h.shards a b hne
      exact ⟨h1, _, List.mem_map.2 ⟨s, hs, rfl⟩, h2⟩
    · obtain ⟨h1, s, hs, h2, h3⟩ := h.shards a' b' e3
      exact ⟨e2.lt, _, List.mem_map.2 ⟨s, hs, rfl⟩, Nat.le_trans h2 e4, Nat.le_trans e5 h3⟩
  · intro a b hne
    by_cases hc : ∃ s ∈ l, (⟨.compact, a, b⟩ : FName) = s.tgtName
    · obtain ⟨s, hs, e⟩ := hc
      simp only [Shard.tgtName, FName.mk.injEq, true_and] at e
      exact ⟨_, List.mem_map.2 ⟨s, hs, rfl⟩, e.1.symm, e.2.symm⟩
    · unfold pruned at hne
      rw [if_pos ⟨rfl, hc⟩] at hne
      exact absurd rfl hne
  · unfold Holds
    constructor
    · rintro ⟨s, hs, e⟩
      obtain ⟨s0, hs0, rfl⟩ := List.mem_map.1 hs
      exact ⟨s0, hs0, by rw [← (key s0 hs0).2]; exact e⟩
    · rintro ⟨s, hs, e⟩
      exact ⟨_, List.mem_map.2 ⟨s, hs, rfl⟩, by rw [(key s hs).2]; exact e⟩
  · by_cases hc : n.kind = .compact ∧ ¬ ∃ s ∈ l, n = s.tgtName
    · have e : pruned F l n = none := by unfold pruned; rw [if_pos hc]
      rw [e]
      cases hf : F n with
      | none => exact Or.inl rfl
      | some x =>
        right
        refine ⟨rfl, x, rfl, ?_⟩
        unfold Litter
        rw [hc.1]
        rcases ho n with e | ⟨e0, y, e1, e2⟩
        · exfalso
          apply hc.2
          have hne : G n ≠ none := by rw [← e, hf]; simp
          obtain ⟨k, a, b⟩ := n
          have hk : k = .compact := hc.1
          subst hk
          obtain ⟨s, hs, rfl, rfl⟩ := h.compacts a b hne
          exact ⟨s, hs, rfl⟩
        · rw [hf] at e1; simp only [Option.some.injEq] at e1; subst e1
          unfold Litter at e2
          rw [hc.1] at e2
          exact e2
    · left
      unfold pruned
      rw [if_neg hc]

theorem RecJ.strong {cfg : Cfg} {d : Dir} {m : Map} (h : RecJ cfg d m) : d.Nodup ∧ ∃ F l, RecF cfg F l ∧ (∀ k v, Holds cfg l k v ↔ m k = some v) ∧
    Over false d.find F ∧ ∀ s ∈ l, F s.tgtName = d.find s.tgtName := by
  obtain ⟨hn, F, l, h1, h2, h3⟩ := h
  obtain ⟨F0, l', g1, g2, g3, g4⟩ := (h3.weaken true).lift h1
  exact ⟨hn, F0, l', g1, fun k v => (g2 k v).trans (h2 k v), g3, g4⟩

theorem RecJ.of_over {cfg : Cfg} {d : Dir} {m : Map} {G : FS} (hn : d.Nodup) (ho : Over true d.find G) {l : List Shard} (h : RecF cfg G l)
    (hm : ∀ k v, Holds cfg l k v ↔ m k = some v) : RecJ cfg d m := by
  obtain ⟨F0, l', g1, g2, g3, _⟩ := ho.lift h
  exact ⟨hn, F0, l', g1, fun k v => (g2 k v).trans (hm k v), g3⟩

theorem Over.shard {F G : FS} (h : Over false F G) (a b : Nat) : F ⟨.shard, a, b⟩ = G ⟨.shard, a, b⟩ := by
  rcases h ⟨.shard, a, b⟩ with e | ⟨_, _, _, e⟩
  · exact e
  · exact absurd e.1 (by simp)

theorem Over.compact_of_ne {F G : FS} (h : Over false F G) {n : FName} (hne : F n ≠ G n) : n.kind = .compact := by
  rcases h n with e | ⟨_, _, _, e⟩
  · exact absurd e hne
  · unfold Litter at e
    cases hk : n.kind <;> rw [hk] at e
    · exact absurd e.1 (by simp)
    · exact absurd e (by simp)
    · exact absurd e (by simp)
    · exact absurd e (by simp)

/-- The background threads do not change what will be recovered. -/
theorem RecJ.bg {cfg : Cfg} {d d' : Dir} (h : BgCrashD cfg d d') : ∀ {m : Map}, RecJ cfg d m → RecJ cfg d' m := by
  induction h with
  | refl d => exact fun h => h
  | @step d d1 d2 s f hs ht hf hlive hsm hc _ ih =>
    intro m h
    obtain ⟨hn, F, l, hl, hm, ho, htg⟩ := h.strong
    apply ih
    obtain ⟨hn', hc'⟩ := hc.find hn
    have hFs : F s.srcName = some (.good s.src) := by rw [← hs]; exact (ho.shard _ _).symm
    obtain ⟨_, s0, hs0, a1, a2⟩ := hl.shards s.lo s.hi (by rw [show (⟨.shard, s.lo, s.hi⟩ : FName) = s.srcName from rfl, hFs]; simp)
    obtain ⟨e1, e2⟩ := hlive s0.lo s0.hi (by
      rw [show (⟨.shard, s0.lo, s0.hi⟩ : FName) = s0.srcName from rfl, ho.get (hl.src s0 hs0)]; simp) a1 a2
    have n1 : s0.srcName = s.srcName := by simp [Shard.srcName, e1, e2]
    have n2 : s0.tgtName = s.tgtName := by simp [Shard.tgtName, e1, e2]
    have hFt : F s.tgtName = some (.good f) := by rw [← n2, htg s0 hs0, n2]; exact hf
    have e3 := hl.src s0 hs0
    have e4 := hl.tgt s0 hs0
    rw [n1, hFs] at e3
    rw [n2, hFt] at e4
    simp only [Option.some.injEq, DFile.good.injEq] at e3
    have e : s0 = s := shard_eta e1 e2 e3.symm (by rw [← e4, ht]; rfl)
    subst e
    obtain ⟨pre, post, rfl⟩ := List.append_of_mem hs0
    rw [show pre ++ s0 :: post = pre ++ [s0] ++ post by simp] at hl hm
    have hon : ∀ o ∈ s0.bgOps cfg, FOp.On (fun n => n = s0.srcName ∨ n = s0.tgtName) o := by
      intro o ho
      unfold Shard.bgOps at ho
      rw [ht] at ho
      dsimp only at ho
      split at ho
      · exact onFile_on (P := fun n => n = s0.srcName ∨ n = s0.tgtName) (Or.inr rfl) _ o ho
      · simp only [List.mem_singleton] at ho; subst ho
        exact ⟨Or.inr rfl, Or.inl rfl⟩
    obtain ⟨F', k1, k2, k3⟩ := hc'.local (F := F) hon (fun n hp => by
      rcases hp with rfl | rfl
      · rw [hFs]; exact hs
      · rw [hFt]; exact hf)
    obtain ⟨_, _, _, k4⟩ := k1.local (F := F) hon (fun n _ => rfl)
    obtain ⟨mid, h1, h2⟩ := hl.bgCrash ht hFt hsm k1
    refine ⟨hn', F', _, h1, fun k v => ?_, fun n => ?_⟩
    · rw [← hm, Holds.append, Holds.append, Holds.append, Holds.append, h2]
      simp [Holds]
    · by_cases hp : n = s0.srcName ∨ n = s0.tgtName
      · exact Or.inl (k2 n hp)
      · rw [k3 n hp, k4 n hp]
        exact (ho n).imp id fun ⟨a, x, b, c⟩ => ⟨a, x, b, c.mono fun e => absurd e (by simp)⟩

/-! ## Opening -/

theorem Dir.find_filterNames (p : FName → Bool) (d : Dir) (n : FName) : Dir.find (d.filter fun e => p e.1) n = if p n then d.find n else none := by
  induction d with
  | nil => simp [Dir.find]
  | cons e d ih =>
    obtain ⟨a, x⟩ := e
    rw [List.filter_cons]
    by_cases h : p a = true
    · rw [if_pos h, Dir.find, Dir.find, ih]
      by_cases e : a = n
      · subst e; rw [if_pos rfl, if_pos h, if_pos rfl]
      · rw [if_neg e, if_neg e]
    · rw [if_neg h, ih, Dir.find]
      by_cases e : a = n
      · subst e; rw [if_neg h, if_neg h]
      · rw [if_neg e]

theorem scanDir_filter (p : FName → Bool) : ∀ d : Dir, (∀ n ∈ d.map Prod.fst, p n = false → n.kind = .compact) → scanDir (d.filter fun e => p e.1) = scanDir d
  | [], _ => rfl
  | (n, x) :: d, h => by
    have ih := scanDir_filter p d fun m hm => h m (List.mem_cons_of_mem _ hm)
    rw [List.filter_cons]
    by_cases hp : p n = true
    · rw [if_pos hp]
      unfold scanDir
      rw [ih]
    · have hk := h n List.mem_cons_self (by simpa using hp)
      rw [if_neg hp, ih]
      conv => rhs; unfold scanDir
      rw [hk]

theorem openAll_congr {cfg : Cfg} {clearBad : Bool} {d d' : Dir} : ∀ ps : List Span, (∀ p ∈ ps, d'.find ⟨.shard, p.1, p.2⟩ = d.find ⟨.shard, p.1, p.2⟩ ∧
    d'.find ⟨.compact, p.1, p.2⟩ = d.find ⟨.compact, p.1, p.2⟩) → openAll cfg clearBad d' ps = openAll cfg clearBad d ps
  | [], _ => rfl
  | p :: ps, h => by
    obtain ⟨h1, h2⟩ := h p List.mem_cons_self
    have e : openShard cfg clearBad d' p = openShard cfg clearBad d p := by
      unfold openShard
      dsimp only
      rw [h1, h2]
    unfold openAll
    rw [openAll_congr ps fun q hq => h q (List.mem_cons_of_mem _ hq), e]

theorem FS.Crash.dir {F G : FS} {os : List FOp} (h : FS.Crash F os G) : ∀ {d : Dir}, d.find = F → ∃ d', Dir.Crash d os d' ∧ d'.find = G := by
  induction h with
  | stop F os => exact fun {d} e => ⟨d, .stop _ _, e⟩
  | torn F n f off bs data os hf hd =>
    intro d e
    subst e
    exact ⟨_, .torn d n f off bs data os hf hd, Dir.find_put' _ _ _⟩
  | @step F F1 F2 o os ho _ ih =>
    intro d e
    subst e
    have e := o.app_find (d := d)
    rw [ho] at e
    cases hd : o.app d with
    | none => rw [hd] at e; cases e
    | some d1 =>
      rw [hd] at e
      simp only [Option.map_some, Option.some.injEq] at e
      obtain ⟨d', h1, h2⟩ := ih e
      exact ⟨d', .step hd h1, h2⟩

/-- **Recovery** with litter. -/
theorem RecJ.openStore {cfg : Cfg} {clearBad : Bool} {d : Dir} {m : Map} (h : RecJ cfg d m) (hs : d.Sized) :
    ∃ ops d' t, Candy.openStore cfg clearBad d = (ops, .ok t) ∧ d.run ops = some d' ∧ Tidy d' t.leaves ∧ Tree.OK cfg false 0 END_OF_SHARDS t ∧
      t.NonDegenerate ∧ t.Small ∧ t.Quiet ∧ t.get cfg = m ∧ ∀ d'', Dir.Crash d ops d'' → RecJ cfg d'' m := by
  obtain ⟨hn, F, l, hl, hm, ho, htg⟩ := h.strong
  obtain ⟨d0, hd0⟩ : ∃ d0 : Dir, d0 = d.filter fun e => (F e.1).isSome := ⟨_, rfl⟩
  have hfind : d0.find = F := by
    funext n
    rw [hd0, Dir.find_filterNames (fun n => (F n).isSome)]
    cases e : F n with
    | none => rfl
    | some x => exact ho.get e
  have hn0 : d0.Nodup := by
    rw [hd0]
    exact (List.Sublist.map Prod.fst List.filter_sublist).nodup hn
  have hs0 : d0.Sized := by
    intro a b f hf
    rw [hfind] at hf
    have h1 := hs a b f (ho.get hf)
    rw [hfind]
    rcases ho ⟨.compact, a, b⟩ with e | ⟨e, _⟩
    · rw [← e]; exact h1
    · rw [e]
      exact ⟨h1.1, fun t ht => by cases ht⟩
  have hR : Recov cfg d0 m := ⟨hn0, l, by rw [hfind]; exact hl, hm⟩
  obtain ⟨ops, d0', t, h1, h2, h3, h4, h5, h6, h7, h8, h9⟩ := hR.openStore (clearBad := clearBad) hs0
  have hscan : scanDir d0 = scanDir d := by
    rw [hd0]
    refine scanDir_filter (fun n => (F n).isSome) d fun n hm hp => ho.compact_of_ne ?_
    have hne : d.find n ≠ none := Dir.mem_names.1 hm
    have : F n = none := by
      cases e : F n with
      | none => rfl
      | some x => simp only [e] at hp; cases hp
    rw [this]; exact hne
  have hload : load cfg clearBad d0 = load cfg clearBad d := by
    obtain ⟨ns, found, e1, e2, e3, e4, e5⟩ := scanDir_spec d hn (fun a b hne => by
      rw [ho.shard] at hne
      obtain ⟨g1, s, g2, g3, g4⟩ := hl.shards a b hne
      have := hl.tiles.mem g2
      exact ⟨g1, by omega⟩)
    obtain ⟨c1, _, _⟩ := consolidate_tiles hl.tiles e4 (fun s hs => (e5 _).2 (by
        show d.find s.srcName ≠ none
        rw [ho.get (hl.src s hs)]; simp)) (fun p hp => by
        obtain ⟨g1, s, g2, g3, g4⟩ := hl.shards p.1 p.2 (by rw [← ho.shard]; exact (e5 p).1 hp)
        exact ⟨g1, s.span, ⟨s, g2, rfl⟩, g3, g4⟩)
    unfold load
    rw [hscan, e1]
    dsimp only
    rw [c1, openAll_congr (d := d) (d' := d0)]
    intro p hp
    obtain ⟨s, hs, rfl⟩ := List.mem_map.1 hp
    rw [hfind]
    exact ⟨(ho.shard _ _).symm, htg s hs⟩
  have hopen : Candy.openStore cfg clearBad d = (ops, .ok t) := by
    rw [← h1]
    unfold Candy.openStore
    rw [hload]
  have hrun : F.run ops = some d0'.find := by
    have := Dir.run_find ops d0
    rw [h2, hfind] at this
    exact this.symm
  obtain ⟨F', k1, k2⟩ := ho.run hrun (fun e => absurd e (by simp))
  obtain ⟨d', r1, r2, r3⟩ := Dir.run_of hn k1
  refine ⟨ops, d', t, hopen, r1, ⟨r2, d0'.find, h3.dirF.2, ?_⟩, h4, h5, h6, h7, h8, fun d'' hc => ?_⟩
  · rw [r3]; exact k2
  · obtain ⟨q1, q2⟩ := hc.find hn
    obtain ⟨G, g1, g2⟩ := ho.crash q2 (by rw [hrun]; simp) (fun e => absurd e (by simp))
    obtain ⟨d2, g3, g4⟩ := g1.dir hfind
    obtain ⟨_, l2, g5, g6⟩ := h9 d2 g3
    exact ⟨q1, G, l2, g4 ▸ g5, g6, g2⟩

theorem RestartD.spec {cfg : Cfg} {clearBad : Bool} {d d' : Dir} {t : Tree} (h : RestartD cfg clearBad d t d') : ∀ {m : Map}, RecJ cfg d m →
    Littered d' t.leaves ∧ Tree.OK cfg false 0 END_OF_SHARDS t ∧ t.NonDegenerate ∧ t.Small ∧ t.Quiet ∧ t.get cfg = m := by
  induction h with
  | @done d d' ops t hs h hd =>
    intro m hr
    obtain ⟨ops', d1, t', h1, h2, h3, h4, h5, h6, h7, h8, _⟩ := hr.openStore (clearBad := clearBad) hs
    rw [h] at h1
    simp only [Prod.mk.injEq, LRes.ok.injEq] at h1
    obtain ⟨rfl, rfl⟩ := h1
    rw [hd] at h2; simp only [Option.some.injEq] at h2; subst h2
    exact ⟨h3.littered, h4, h5, h6, h7, h8⟩
  | @again d d1 d' t hs h _ ih =>
    intro m hr
    obtain ⟨ops', d2, t', h1, h2, h3, h4⟩ := hr.openStore (clearBad := clearBad) hs
    rw [h1] at h
    exact ih (h4.2.2.2.2.2 _ h)

end Candy
