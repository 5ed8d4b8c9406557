import Verif.Model.MergeError
import Verif.Proofs.Errors
import Verif.Proofs.CrashLocal
/-!
# Failing merges
-/
namespace Candy
open Spec

theorem Dir.Crash.more {d d' : Dir} {os : List FOp} (h : Dir.Crash d os d') (os' : List FOp) : Dir.Crash d (os ++ os') d' := by
  induction h with
  | stop d os => exact .stop _ _
  | torn d n f off bs data os hf hd => exact .torn d n f off bs data _ hf hd
  | step h _ ih => exact .step h ih

theorem Dir.Crash.of_run {d d' : Dir} {os : List FOp} (h : d.run os = some d') : Dir.Crash d os d' := by
  induction os generalizing d with
  | nil => cases h; exact .stop _ _
  | cons o os ih =>
    unfold Dir.run at h
    cases e : o.app d with
    | none => rw [e] at h; cases h
    | some d1 => rw [e] at h; exact .step e (ih h)

theorem openStore_load (cfg : Cfg) (cb : Bool) (d : Dir) : ∃ os, (openStore cfg cb d).1 = (load cfg cb d).1 ++ os := by
  unfold openStore
  dsimp only
  cases e : (load cfg cb d).2 with
  | err => exact ⟨[], by simp⟩
  | panic => exact ⟨[], by simp⟩
  | ok l =>
    cases l with
    | nil =>
      dsimp only
      cases createInitialShards cfg with
      | none => exact ⟨[], by simp⟩
      | some l => exact ⟨_, rfl⟩
    | cons s l => exact ⟨[], by simp⟩

theorem MergeFails.facts {cfg : Cfg} {maxFill : Nat} {t u : Tree} {d : Dir} (h : MergeFails cfg maxFill t u d) (hs : Sane cfg false t) :
    Sane cfg false u ∧ u.get cfg = t.get cfg ∧ u.Quiet ∧ u.NonDegenerate ∧ Recov cfg d (u.get cfg) := by
  suffices H : ∀ d0 d1, MergeOK cfg maxFill t → t.finishAll cfg = some u → DirOf d0 u.leaves → Dir.Crash d0 (u.mergeSmallOps cfg maxFill) d1 →
      Sane cfg false u ∧ u.get cfg = t.get cfg ∧ u.Quiet ∧ u.NonDegenerate ∧ Recov cfg d1 (u.get cfg) by
    cases h with
    | @merging d0 hok hu hd hc => exact H d0 d hok hu hd hc
    | @loading d0 d1 cb hok hu hd hr hz hc =>
      obtain ⟨h1, h2, h3, h4, h5⟩ := H d0 d1 hok hu hd (Dir.Crash.of_run hr)
      refine ⟨h1, h2, h3, h4, ?_⟩
      obtain ⟨ops, d2, t2, g1, _, _, _, _, _, _, _, g2⟩ := h5.openStore (clearBad := cb) hz
      obtain ⟨os, e⟩ := openStore_load cfg cb d1
      rw [g1] at e
      dsimp only at e
      exact g2 d (by rw [e]; exact hc.more os)
  intro d0 d1 hok hu hd hc
  have key : ∀ ex, Tree.OK cfg ex 0 65536 t → ((ex = true ∧ maxFill ≤ 14745) ∨ t.pot < 4294967296) →
      Tree.OK cfg ex 0 65536 u ∧ u.get cfg = t.get cfg ∧ u.Quiet ∧ u.NonDegenerate ∧ Recov cfg d1 (u.get cfg) := by
    intro ex ho hf
    obtain ⟨uok, usm, uq, un, ug, _⟩ := finished_fits (maxFill := maxFill) ho hok.spans hok.small hf hu
    have hf' : (ex = true ∧ maxFill ≤ 14745) ∨ u.pot < 4294967296 := by
      rcases hf with hf | hf
      · exact Or.inl hf
      · have := Tree.pot_finishAll ho hok.small hu
        exact Or.inr (by omega)
    exact ⟨uok, funext ug, uq, un, MergeCrashDir.recov ⟨d0, d1, hd, hc, .refl _⟩ uok usm un hf'⟩
  rcases hok.fits with ⟨he, hm⟩ | hp
  · obtain ⟨h1, h2⟩ := key true (hs.ok.exact he) (Or.inl ⟨rfl, hm⟩)
    exact ⟨⟨hs.bound, h1.weaken⟩, h2⟩
  · obtain ⟨h1, h2⟩ := key false hs.ok (Or.inr hp)
    exact ⟨⟨hs.bound, h1⟩, h2⟩

theorem EEvent.asM_died (e : EEvent) : e.asM.asIfDied = e.asIfDied := by cases e <;> rfl

def Disk.OK (cfg : Cfg) (m : Map) : Disk → Prop
  | .left d => Recov cfg d m
  | _ => True

theorem MRun.refines {cfg : Cfg} {t t' : Tree} {k k' : Disk} {es : List MEvent} (h : MRun cfg t k es t' k') :
    ∀ w, Sane cfg false t → MAbs cfg (t.get cfg) w → k.OK cfg (t.get cfg) →
      ∃ w', SpecRun cfg w (es.map MEvent.asIfDied) w' ∧ Sane cfg false t' ∧ MAbs cfg (t'.get cfg) w' ∧ k'.OK cfg (t'.get cfg) := by
  induction h with
  | nil t k => exact fun w hs hm hk => ⟨w, .nil _, hs, hm, hk⟩
  | @other t t1 t2 x x' k es es' h _ ih =>
    intro w hs hm _
    obtain ⟨w1, h1, h2, h3⟩ := h.refines w hs hm
    obtain ⟨w2, h4, h5⟩ := ih w1 h2 h3 trivial
    refine ⟨w2, ?_, h5⟩
    rw [List.map_append, List.map_map, show MEvent.asIfDied ∘ EEvent.asM = EEvent.asIfDied from funext EEvent.asM_died]
    exact h1.append h4
  | mergeFails h _ ih =>
    intro w hs hm _
    obtain ⟨h1, h2, _, _, h3⟩ := h.facts hs
    obtain ⟨w2, h4, h5⟩ := ih w h1 (h2 ▸ hm) h3
    exact ⟨w2, .merge h4, h5⟩
  | call h hr hne hk _ ih =>
    intro w hs hm hd
    obtain ⟨h1, h2⟩ := h.sim hs.ok
    obtain ⟨w1, h3, h4⟩ := call_refines _ hm h2 hr hne
    obtain ⟨w2, h5, h6⟩ := ih w1 ⟨hs.bound, h1⟩ h4 (by
      rcases hk with ⟨rfl, rfl⟩ | rfl
      · exact hd
      · trivial)
    exact ⟨w2, .call h3 h5, h6⟩
  | failed h hk _ ih =>
    intro w hs hm hd
    obtain ⟨h1, p', h2⟩ := h.sim hs.ok
    obtain ⟨w1, h3, h4⟩ := call_crash _ hm h2
    obtain ⟨w2, h5, h6⟩ := ih w1 ⟨hs.bound, h1⟩ h4 (by
      rcases hk with ⟨rfl, rfl, _⟩ | rfl
      · exact hd
      · trivial)
    exact ⟨w2, .crash h3 h5, h6⟩
  | bg sel hsm h _ ih =>
    intro w hs hm _
    obtain ⟨h1, h2⟩ := bg_get hs.ok hsm h
    exact ih w ⟨hs.bound, h1⟩ (h2 ▸ hm) trivial
  | clear h _ ih =>
    intro w hs hm _
    obtain ⟨h1, h2⟩ := create_sane h
    obtain ⟨w2, h5, h6⟩ := ih World.new h1.weaken (h2 ▸ MAbs.new cfg) trivial
    exact ⟨w2, .clear h5, h6⟩
  | reopen h _ ih =>
    intro w hs hm hd
    obtain ⟨g1, _, _, _, g2⟩ := h.spec hd
    obtain ⟨w2, h7, h8⟩ := ih w ⟨hs.bound, g1⟩ (g2 ▸ hm) trivial
    exact ⟨w2, .reopen h7, h8⟩

theorem MReachable.world {cfg : Cfg} {es : List MEvent} {t : Tree} {k : Disk} (h : MReachable cfg es t k) :
    ∃ w, SpecRun cfg World.new (es.map MEvent.asIfDied) w ∧ Sane cfg false t ∧ MAbs cfg (t.get cfg) w ∧ k.OK cfg (t.get cfg) := by
  obtain ⟨t0, h1, h2⟩ := h
  obtain ⟨h3, h4⟩ := create_sane h1
  exact h2.refines World.new h3.weaken (h4 ▸ MAbs.new cfg) trivial

/-! ## Writing after a failed merge -/

theorem mergeLeavesOps_on (cfg : Cfg) (maxFill : Nat) (b t : Shard) : ∀ o ∈ mergeLeavesOps cfg maxFill b t, FOp.On (fun n => n.kind ≠ .compact) o := by
  have hc : ∀ o ∈ createOps ⟨.merge, b.lo, t.hi⟩, FOp.On (fun n => n.kind ≠ .compact) o := by
    intro o ho
    unfold createOps at ho
    simp only [List.mem_cons, List.not_mem_nil, or_false] at ho
    rcases ho with rfl | rfl | rfl <;> exact (by decide : Kind.merge ≠ .compact)
  have hp : ∀ ps, ∀ o ∈ onFile ⟨.merge, b.lo, t.hi⟩ ps, FOp.On (fun n => n.kind ≠ .compact) o := by
    intro ps o ho
    unfold onFile at ho
    obtain ⟨p, _, rfl⟩ := List.mem_map.1 ho
    exact (by decide : Kind.merge ≠ .compact)
  unfold mergeLeavesOps
  split
  · intro o ho; cases ho
  split
  · intro o ho; cases ho
  dsimp only
  cases b.merge cfg t with
  | panic => exact hc
  | rowTooFull =>
    dsimp only
    intro o ho
    simp only [List.mem_append, List.mem_singleton] at ho
    rcases ho with (ho | ho) | rfl
    · exact hc o ho
    · exact hp _ o ho
    · exact (by decide : Kind.merge ≠ .compact)
  | merged s =>
    dsimp only
    intro o ho
    simp only [List.mem_append, List.mem_cons, List.not_mem_nil, or_false] at ho
    rcases ho with (ho | ho) | rfl | rfl | rfl
    · exact hc o ho
    · exact hp _ o ho
    · exact ⟨(by decide : Kind.merge ≠ .compact), (by decide : Kind.shard ≠ .compact)⟩
    · exact (by decide : Kind.shard ≠ .compact)
    · exact (by decide : Kind.shard ≠ .compact)

theorem Tree.mergeRecOps_on (cfg : Cfg) (maxFill : Nat) : ∀ (t : Tree) (n : Nat), ∀ o ∈ t.mergeRecOps cfg maxFill n, FOp.On (fun n => n.kind ≠ .compact) o
  | .leaf _, _, o, ho => by unfold Tree.mergeRecOps at ho; cases ho
  | .vertex _ _, 0, o, ho => by unfold Tree.mergeRecOps at ho; cases ho
  | .vertex b t, n + 1, o, ho => by
    unfold Tree.mergeRecOps at ho
    cases hb : b.isLeaf with
    | some sb =>
      cases ht : t.isLeaf with
      | some st => rw [hb, ht] at ho; exact mergeLeavesOps_on _ _ _ _ o ho
      | none => rw [hb, ht] at ho; exact Tree.mergeRecOps_on cfg maxFill t (n + 1) o ho
    | none =>
      cases ht : t.isLeaf with
      | some st => rw [hb, ht] at ho; exact Tree.mergeRecOps_on cfg maxFill b (n + 1) o ho
      | none =>
        rw [hb, ht] at ho
        dsimp only at ho
        rcases List.mem_append.1 ho with ho | ho
        · exact Tree.mergeRecOps_on cfg maxFill b (n + 1) o ho
        · cases h1 : Tree.mergeRec cfg maxFill b (n + 1) with
          | ok r1 =>
            rw [h1] at ho
            dsimp only at ho
            rcases List.mem_append.1 ho with ho | ho
            · exact Tree.mergeRecOps_on cfg maxFill t _ o ho
            · cases h2 : Tree.mergeRec cfg maxFill t r1.remaining with
              | ok r2 =>
                rw [h2] at ho
                dsimp only at ho
                split at ho
                · exact mergeLeavesOps_on _ _ _ _ o ho
                · cases ho
              | _ => rw [h2] at ho; cases ho
          | _ => rw [h1] at ho; cases ho

theorem load_on (cfg : Cfg) (cb : Bool) (d : Dir) (hd : ∀ a b, d.find ⟨.compact, a, b⟩ = none) : ∀ o ∈ (load cfg cb d).1, FOp.On (fun n => n.kind ≠ .compact) o := by
  have hscan : ∀ d : Dir, ∀ o ∈ (scanDir d).1, FOp.On (fun n => n.kind ≠ .compact) o := by
    intro d
    induction d with
    | nil => intro o ho; cases ho
    | cons x d ih =>
      obtain ⟨n, f⟩ := x
      intro o ho
      unfold scanDir at ho
      dsimp only at ho
      cases hk : n.kind with
      | shard =>
        rw [hk] at ho
        dsimp only at ho
        split at ho
        · exact ih o ho
        · cases ho
      | compact => rw [hk] at ho; exact ih o ho
      | bottom =>
        rw [hk] at ho
        rcases List.mem_cons.1 ho with rfl | ho
        · show n.kind ≠ .compact
          rw [hk]; decide
        · exact ih o ho
      | top =>
        rw [hk] at ho
        rcases List.mem_cons.1 ho with rfl | ho
        · show n.kind ≠ .compact
          rw [hk]; decide
        · exact ih o ho
      | merge =>
        rw [hk] at ho
        rcases List.mem_cons.1 ho with rfl | ho
        · show n.kind ≠ .compact
          rw [hk]; decide
        · exact ih o ho
  have hsrc : ∀ (a b : Nat) (x : Option DFile), ∀ o ∈ (openSrc cb ⟨.shard, a, b⟩ x).1, FOp.On (fun n => n.kind ≠ .compact) o := by
    intro a b x o ho
    have hs : Kind.shard ≠ .compact := by decide
    have hcr : o ∈ createOps ⟨.shard, a, b⟩ → FOp.On (fun n => n.kind ≠ .compact) o := by
      intro ho
      unfold createOps at ho
      simp only [List.mem_cons, List.not_mem_nil, or_false] at ho
      rcases ho with rfl | rfl | rfl <;> exact hs
    cases x with
    | none => exact hcr ho
    | some y =>
      cases y with
      | zero =>
        unfold openSrc at ho
        simp only [List.mem_cons, List.not_mem_nil, or_false] at ho
        rcases ho with rfl | rfl <;> exact hs
      | blank =>
        unfold openSrc at ho
        dsimp only at ho
        split at ho
        · exact hcr ho
        · cases ho
      | good f =>
        unfold openSrc at ho
        simp only [List.mem_cons, List.not_mem_nil, or_false] at ho
        subst ho; exact hs
  have hopen : ∀ p : Span, ∀ o ∈ (openShard cfg cb d p).1, FOp.On (fun n => n.kind ≠ .compact) o := by
    intro p o ho
    refine hsrc p.1 p.2 (d.find ⟨.shard, p.1, p.2⟩) o ?_
    unfold openShard at ho
    dsimp only at ho
    cases e : (openSrc cb ⟨.shard, p.1, p.2⟩ (d.find ⟨.shard, p.1, p.2⟩)).2 with
    | none => rw [e] at ho; exact ho
    | some f => rw [e, hd] at ho; exact ho
  have hall : ∀ l : List Span, ∀ o ∈ (openAll cfg cb d l).1, FOp.On (fun n => n.kind ≠ .compact) o := by
    intro l
    induction l with
    | nil => intro o ho; cases ho
    | cons p l ih =>
      intro o ho
      unfold openAll at ho
      dsimp only at ho
      cases e : (openShard cfg cb d p).2 with
      | err => rw [e] at ho; exact hopen p o ho
      | panic => rw [e] at ho; exact hopen p o ho
      | ok s =>
        rw [e] at ho
        rcases List.mem_append.1 ho with ho | ho
        · exact hopen p o ho
        · exact ih o ho
  intro o ho
  unfold load at ho
  dsimp only at ho
  cases e : (scanDir d).2 with
  | none => rw [e] at ho; exact hscan d o ho
  | some found =>
    rw [e] at ho
    simp only [List.mem_append, List.mem_map] at ho
    rcases ho with (ho | ⟨p, _, rfl⟩) | ho
    · exact hscan d o ho
    · exact (by decide : Kind.shard ≠ .compact)
    · exact hall _ o ho

theorem Dir.Crash.compacts {d d' : Dir} {os : List FOp} (h : Dir.Crash d os d') (hn : d.Nodup) (ho : ∀ o ∈ os, FOp.On (fun n => n.kind ≠ .compact) o)
    (hd : ∀ a b, d.find ⟨.compact, a, b⟩ = none) : d'.Nodup ∧ ∀ a b, d'.find ⟨.compact, a, b⟩ = none := by
  obtain ⟨h1, h2⟩ := h.find hn
  obtain ⟨_, _, _, h3⟩ := h2.local ho (fun n _ => rfl)
  refine ⟨h1, fun a b => ?_⟩
  rw [h3 _ (fun e => e rfl)]
  exact hd a b

/-- A failed merge leaves no files of compactions. -/
theorem MergeFails.compacts {cfg : Cfg} {maxFill : Nat} {t u : Tree} {d : Dir} (h : MergeFails cfg maxFill t u d) (hq : u.Quiet) (a b : Nat) :
    d.find ⟨.compact, a, b⟩ = none := by
  have hops : ∀ o ∈ u.mergeSmallOps cfg maxFill, FOp.On (fun n => n.kind ≠ .compact) o := by
    intro o ho
    unfold Tree.mergeSmallOps at ho
    rcases List.mem_append.1 ho with ho | ho
    · unfold Tree.finishOps at ho
      obtain ⟨s, hs, ho⟩ := List.mem_flatMap.1 ho
      unfold Shard.finishOps at ho
      rw [hq s hs] at ho
      cases ho
    · cases hf : u.finishAll cfg with
      | none => rw [hf] at ho; cases ho
      | some t' =>
        rw [hf] at ho
        dsimp only at ho
        split at ho
        · cases ho
        · split at ho
          · cases ho
          · exact Tree.mergeRecOps_on _ _ _ _ o ho
  have hd0 : ∀ d0, DirOf d0 u.leaves → ∀ a b, d0.find ⟨.compact, a, b⟩ = none := by
    intro d0 hd a b
    rcases Classical.em (d0.find ⟨.compact, a, b⟩ = none) with h | h
    · exact h
    · obtain ⟨s, hs, e | e⟩ := hd.only _ h
      · cases e
      · rw [e, (hd.files s hs).2, hq s hs]; rfl
  cases h with
  | @merging d0 hok hu hd hc => exact (hc.compacts hd.nodup hops (hd0 d0 hd)).2 a b
  | @loading d0 d1 cb hok hu hd hr hz hc =>
    obtain ⟨h1, h2⟩ := (Dir.Crash.of_run hr).compacts hd.nodup hops (hd0 d0 hd)
    exact (hc.compacts h1 (load_on cfg cb d1 h2) h2).2 a b

/-- What the directory has for the keys of a shard. -/
theorem Follow.recov {cfg : Cfg} {d d' : Dir} {u' : Tree} {m : Map} (h : Follow d u' d') (hd : Recov cfg d m) (hc : ∀ a b, d.find ⟨.compact, a, b⟩ = none)
    (hok : Tree.OK cfg false 0 END_OF_SHARDS u') (hn : u'.NonDegenerate) (hq : u'.Quiet) :
    ∃ m' : Map, Recov cfg d' m' ∧ ∀ k, m' k = m k ∨ m' k = u'.get cfg k := by
  obtain ⟨hnd, l, hl, hm⟩ := hd
  have ht := hok.tiling hn dyadic_full
  have hnd' : d'.Nodup := by unfold Dir.Nodup at hnd ⊢; rw [h.names]; exact hnd
  have hfind : ∀ n, d'.find n ≠ none → d.find n ≠ none := by
    intro n hne
    rw [← Dir.mem_names] at hne ⊢
    rwa [h.names] at hne
  have hrok : ∀ x ∈ u'.leaves, ROK cfg x := fun x hx => (ht.mem hx).2.2.2.1.rok (ht.mem hx).2.2.2.2
  have hspan : ∀ s, ROK cfg s → ∀ {k v : Bytes}, s.val cfg k = some v → s.lo ≤ (cfg.ph k).shardSel ∧ (cfg.ph k).shardSel < s.hi := by
    intro s hs k v hv
    obtain ⟨c, hc, hlk⟩ := mem_liveRow.1 (hs.val_mem.1 hv)
    exact (hs.active _).span _ c (k, v) (cfg.ph k).rowSel_lt hc hlk
  let pick : Shard → Shard := fun s => (u'.leaves.find? (fun x => x.lo == s.lo && x.hi == s.hi)).getD s
  have hpick : ∀ s, (pick s = s ∧ (∀ x ∈ u'.leaves, x.srcName ≠ s.srcName)) ∨ (pick s ∈ u'.leaves ∧ (pick s).lo = s.lo ∧ (pick s).hi = s.hi) := by
    intro s
    show ((u'.leaves.find? (fun x => x.lo == s.lo && x.hi == s.hi)).getD s = s ∧ _) ∨ ((u'.leaves.find? (fun x => x.lo == s.lo && x.hi == s.hi)).getD s ∈ _ ∧
      ((u'.leaves.find? (fun x => x.lo == s.lo && x.hi == s.hi)).getD s).lo = _ ∧ ((u'.leaves.find? (fun x => x.lo == s.lo && x.hi == s.hi)).getD s).hi = _)
    cases e : u'.leaves.find? (fun x => x.lo == s.lo && x.hi == s.hi) with
    | none =>
      refine Or.inl ⟨rfl, fun x hx hne => ?_⟩
      have := List.find?_eq_none.1 e x hx
      simp only [Shard.srcName, FName.mk.injEq, true_and] at hne
      simp [hne.1, hne.2] at this
    | some x =>
      have h1 := List.mem_of_find?_eq_some e
      have h2 := List.find?_some e
      simp only [Bool.and_eq_true, beq_iff_eq] at h2
      exact Or.inr ⟨h1, h2.1, h2.2⟩
  have hpl : ∀ s, (pick s).lo = s.lo ∧ (pick s).hi = s.hi := by
    intro s
    rcases hpick s with ⟨e, _⟩ | ⟨_, e⟩
    · rw [e]; exact ⟨rfl, rfl⟩
    · exact e
  have hpn : ∀ s, (pick s).srcName = s.srcName ∧ (pick s).tgtName = s.tgtName := by
    intro s
    unfold Shard.srcName Shard.tgtName
    rw [(hpl s).1, (hpl s).2]
    exact ⟨rfl, rfl⟩
  have hltgt : ∀ s ∈ l, s.tgt = none := by
    intro s hs
    rw [← hl.tgt s hs, show s.tgtName = ⟨.compact, s.lo, s.hi⟩ from rfl, hc]; rfl
  have hok' : ∀ s ∈ l, ROK cfg (pick s) := by
    intro s hs
    rcases hpick s with ⟨e, _⟩ | ⟨e, _⟩
    · rw [e]; exact hl.ok s hs
    · exact hrok _ e
  have htiles : ∀ lo hi (l : List Shard), Tiles lo hi l → Tiles lo hi (l.map pick) := by
    intro lo hi l h
    induction h with
    | nil => exact .nil
    | @cons lo hi s l hlo hd _ ih =>
      refine .cons ((hpl s).1.trans hlo) ?_ ?_
      · rw [(hpl s).1, (hpl s).2]; exact hd
      · rw [(hpl s).2]; exact ih
  have hrec : RecF cfg d'.find (l.map pick) := by
    refine ⟨htiles _ _ _ hl.tiles, ?_, ?_, ?_, ?_, ?_⟩
    · intro x hx
      obtain ⟨s, hs, rfl⟩ := List.mem_map.1 hx
      exact hok' s hs
    · intro x hx
      obtain ⟨s, hs, rfl⟩ := List.mem_map.1 hx
      rcases hpick s with ⟨e, hne⟩ | ⟨e, _⟩
      · rw [e, h.other _ hne]; exact hl.src s hs
      · exact h.files _ e (by rw [(hpn s).1, hl.src s hs]; exact Option.some_ne_none _)
    · intro x hx
      obtain ⟨s, hs, rfl⟩ := List.mem_map.1 hx
      rw [(hpn s).2, h.other _ (by intro y _ e; cases e), show s.tgtName = ⟨.compact, s.lo, s.hi⟩ from rfl, hc]
      rcases hpick s with ⟨e, hne⟩ | ⟨e, _⟩
      · rw [e, hltgt s hs]; rfl
      · rw [hq _ e]; rfl
    · intro a b hne
      obtain ⟨h1, s, hs, h2⟩ := hl.shards a b (hfind _ hne)
      refine ⟨h1, pick s, List.mem_map.2 ⟨s, hs, rfl⟩, ?_⟩
      rw [(hpl s).1, (hpl s).2]; exact h2
    · intro a b hne
      exact absurd (hc a b) (hfind _ hne)
  let C : Bytes → Prop := fun k => ∃ s ∈ l, (s.lo ≤ (cfg.ph k).shardSel ∧ (cfg.ph k).shardSel < s.hi) ∧ pick s ∈ u'.leaves
  refine ⟨fun k => @ite _ (C k) (Classical.propDecidable _) (u'.get cfg k) (m k), ⟨hnd', l.map pick, hrec, fun k v => ?_⟩, fun k => ?_⟩
  · have hone : ∀ s s', s ∈ l → s' ∈ l → (s.lo ≤ (cfg.ph k).shardSel ∧ (cfg.ph k).shardSel < s.hi) → (s'.lo ≤ (cfg.ph k).shardSel ∧ (cfg.ph k).shardSel < s'.hi) → s = s' :=
      fun s s' hs hs' h1 h2 => hl.tiles.eq_of_overlap hs hs' h1.1 h1.2 h2.1 h2.2
    dsimp only
    by_cases hC : C k
    · rw [if_pos hC]
      obtain ⟨s0, hs0, hk0, hp0⟩ := hC
      rw [← hok.holds_get]
      constructor
      · rintro ⟨x, hx, hv⟩
        obtain ⟨s, hs, rfl⟩ := List.mem_map.1 hx
        have hk := hspan _ (hok' s hs) hv
        rw [(hpl s).1, (hpl s).2] at hk
        have e := hone s s0 hs hs0 hk hk0
        subst e
        exact ⟨pick s, hp0, hv⟩
      · rintro ⟨x, hx, hv⟩
        have hk := hspan _ (hrok x hx) hv
        have e : x = pick s0 := ht.tiles.eq_of_overlap hx hp0 hk.1 hk.2 (by rw [(hpl s0).1]; exact hk0.1) (by rw [(hpl s0).2]; exact hk0.2)
        subst e
        exact ⟨pick s0, List.mem_map.2 ⟨s0, hs0, rfl⟩, hv⟩
    · rw [if_neg hC, ← hm]
      constructor
      · rintro ⟨x, hx, hv⟩
        obtain ⟨s, hs, rfl⟩ := List.mem_map.1 hx
        have hk := hspan _ (hok' s hs) hv
        rw [(hpl s).1, (hpl s).2] at hk
        rcases hpick s with ⟨e, _⟩ | ⟨e, _⟩
        · rw [e] at hv; exact ⟨s, hs, hv⟩
        · exact absurd ⟨s, hs, hk, e⟩ hC
      · rintro ⟨s, hs, hv⟩
        have hk := hspan _ (hl.ok s hs) hv
        rcases hpick s with ⟨e, _⟩ | ⟨e, _⟩
        · exact ⟨pick s, List.mem_map.2 ⟨s, hs, rfl⟩, by rw [e]; exact hv⟩
        · exact absurd ⟨s, hs, hk, e⟩ hC
  · by_cases hC : C k
    · exact Or.inr (if_pos hC)
    · exact Or.inl (if_neg hC)

end Candy
