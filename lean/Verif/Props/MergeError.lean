import Verif.Proofs.MergeError
import Verif.Proofs.TreeRunner
import Verif.Proofs.CrashRunner
import Verif.Props.BgError
import Verif.Props.Errors
/-!
# C78: `merge_small_shards` fails
-/
namespace Candy.Props
open Candy.Spec

/-- **C78.** When `merge_small_shards` fails with an I/O error, at any point and any number of times, the store, still open, goes on answering like an ideal map; also when it is closed and
opened again, provided it has not been written to in between (see `MRun`; `C78_refuted` otherwise). -/
theorem C78_failed_merges_partial {cfg : Cfg} {es : List MEvent} {t : Tree} {k : Disk} (h : MReachable cfg es t k) :
    LikeIdealMap cfg Map.empty (es.map MEvent.asIfDied) := by
  obtain ⟨w, h1, _⟩ := h.world
  exact specRun_likeIdealMap h1

/-- The same for all the APIs. -/
theorem C78_failed_merges_world_partial {cfg : Cfg} {es : List MEvent} {t : Tree} {k : Disk} (h : MReachable cfg es t k) :
    ∃ w, SpecRun cfg World.new (es.map MEvent.asIfDied) w ∧ (∀ k, t.userGet cfg k = w.kv k) := by
  obtain ⟨w, h1, _, h2, _⟩ := h.world
  exact ⟨w, h1, h2.kv⟩

/-- **C78**, the failure itself: the store that stays open has the same values as before, and what is left in the directory can be opened and has the same values, too. -/
theorem C78_failed_merge {cfg : Cfg} {es : List MEvent} {t u : Tree} {x : Bool} {maxFill : Nat} {d : Dir} (h : MReachable cfg es t (.agrees x))
    (hf : MergeFails cfg maxFill t u d) :
    (∀ k, u.userGet cfg k = t.userGet cfg k) ∧
    ∀ clearBad, d.Sized → ∃ ops d' t', openStore cfg clearBad d = (ops, .ok t') ∧ d.run ops = some d' ∧ DirOf d' t'.leaves ∧ ∀ k, t'.userGet cfg k = t.userGet cfg k := by
  obtain ⟨w, _, hs, _⟩ := h.world
  obtain ⟨_, h2, _, _, h3⟩ := hf.facts hs
  refine ⟨fun k => by unfold Tree.userGet; rw [h2], fun clearBad hz => ?_⟩
  obtain ⟨ops, d', t', g1, g2, g3, _, _, _, _, g4, _⟩ := h3.openStore (clearBad := clearBad) hz
  exact ⟨ops, d', t', g1, g2, g3, fun k => by unfold Tree.userGet; rw [g4, h2]⟩

/-- **C78**, writes after a failed merge, if no shard is split or compacted afterwards (`Follow`): when the store is closed and opened, every key has the value last written or that
from the time of the failed merge. -/
theorem C78_old_or_current {cfg : Cfg} {es es' : List MEvent} {t u u' t' : Tree} {x : Bool} {k' : Disk} {maxFill : Nat} {d d' : Dir} {clearBad : Bool}
    (h : MReachable cfg es t (.agrees x)) (hf : MergeFails cfg maxFill t u d) (hr : MRun cfg u (.left d) es' u' k')
    (hspans : u'.leaves.map Shard.place = u.leaves.map Shard.place) (hq : ∀ s ∈ u'.leaves, s.tgt = none) (hw : Follow d u' d') (ho : Restart cfg clearBad d' t') (k : Bytes) :
    t'.userGet cfg k = u'.userGet cfg k ∨ t'.userGet cfg k = t.userGet cfg k := by
  obtain ⟨w, _, hs, hm, _⟩ := h.world
  obtain ⟨h1, h2, uq, un, h3⟩ := hf.facts hs
  obtain ⟨w', _, h5, _⟩ := hr.refines w h1 (h2 ▸ hm) h3
  have hn : u'.NonDegenerate := by
    intro s hs
    have : s.place ∈ u'.leaves.map Shard.place := List.mem_map.2 ⟨s, hs, rfl⟩
    rw [hspans, List.mem_map] at this
    obtain ⟨y, hy, hye⟩ := this
    have := un y hy
    simp only [Shard.place, Prod.mk.injEq] at hye
    omega
  obtain ⟨m', h6, h7⟩ := hw.recov h3 (hf.compacts uq) h5.ok hn hq
  obtain ⟨_, _, _, _, h8⟩ := ho.spec h6
  unfold Tree.userGet
  rw [h8, ← h2]
  exact (h7 _).symm

/-! ## Acknowledged writes may be lost -/

theorem quiet_finishAll {cfg : Cfg} : ∀ t : Tree, (∀ s ∈ t.leaves, s.tgt = none) → t.finishAll cfg = some t
  | .leaf s, h => by
    unfold Tree.finishAll Shard.finish
    rw [h s (List.mem_singleton.2 rfl)]; rfl
  | .vertex b t, h => by
    unfold Tree.finishAll
    rw [quiet_finishAll b (fun s hs => h s (List.mem_append.2 (Or.inl hs))), quiet_finishAll t (fun s hs => h s (List.mem_append.2 (Or.inr hs)))]

/-- The directory with the files of the leaves that are still there brought up to date. -/
def followDir (l : List Shard) (d : Dir) : Dir :=
  d.map fun e => (e.1, match l.find? (fun s => decide (s.srcName = e.1)) with
    | some s => .good s.src
    | none => e.2)

theorem followDir_find (l : List Shard) (n : FName) : ∀ d : Dir, (followDir l d).find n = (d.find n).map fun x => match l.find? (fun s => decide (s.srcName = n)) with
    | some s => .good s.src
    | none => x
  | [] => rfl
  | (m, x) :: d => by
    show (if m = n then _ else _) = Option.map _ (if m = n then _ else _)
    by_cases e : m = n
    · subst e; rw [if_pos rfl, if_pos rfl]; rfl
    · rw [if_neg e, if_neg e]; exact followDir_find l n d

theorem followDir_follow {u' : Tree} (d : Dir) (hp : ∀ a ∈ u'.leaves, ∀ b ∈ u'.leaves, a.srcName = b.srcName → a = b) : Follow d u' (followDir u'.leaves d) := by
  refine ⟨?_, fun s hs hne => ?_, fun n hn => ?_⟩
  · unfold followDir
    rw [List.map_map]; rfl
  · rw [followDir_find]
    cases e : d.find s.srcName with
    | none => exact absurd e hne
    | some x =>
      cases e' : u'.leaves.find? (fun y => decide (y.srcName = s.srcName)) with
      | none => exact absurd (List.find?_eq_none.1 e' s hs) (by simp)
      | some y =>
        have h1 := List.mem_of_find?_eq_some e'
        have h2 := List.find?_some e'
        simp only [decide_eq_true_eq] at h2
        rw [hp y h1 s hs h2]; rfl
  · rw [followDir_find]
    cases e : d.find n with
    | none => rfl
    | some x =>
      cases e' : u'.leaves.find? (fun y => decide (y.srcName = n)) with
      | none => rfl
      | some y =>
        have h2 := List.find?_some e'
        simp only [decide_eq_true_eq] at h2
        exact absurd h2 (hn y (List.mem_of_find?_eq_some e'))

theorem MReachable.of_reachable {cfg : Cfg} {es : List Event} {t : Tree} (h : Reachable cfg es t) : MReachable cfg (es.map .done) t (.agrees false) := by
  obtain ⟨t0, h1, h2⟩ := h
  refine ⟨t0, h1, ?_⟩
  have h3 := MRun.other (ERun.clean h2 (.nil t false)) (.nil t (.agrees false))
  rw [List.append_nil, List.append_nil, List.map_map] at h3
  exact h3

def isCall : Event → Bool
  | .call _ _ => true
  | _ => false

theorem MRun.of_calls {cfg : Cfg} {t t' : Tree} {es : List Event} (h : Run cfg t es t') : (es.all isCall = true) → ∀ k, ∃ k', MRun cfg t k (es.map .done) t' k' := by
  induction h with
  | nil t => exact fun _ k => ⟨k, .nil _ _⟩
  | call h hr hne _ ih =>
    intro ha k
    obtain ⟨k', h2⟩ := ih (by simpa [isCall] using ha) .lost
    exact ⟨k', .call h hr hne (Or.inr rfl) h2⟩
  | bg sel hs h _ ih =>
    intro ha k
    obtain ⟨k', h2⟩ := ih ha .lost
    exact ⟨k', .bg sel hs h h2⟩
  | merge => intro ha; simp [isCall] at ha
  | clear => intro ha; simp [isCall] at ha
  | reopen => intro ha; simp [isCall] at ha
  | crash => intro ha; simp [isCall] at ha

theorem runT_calls {cfg : Cfg} : ∀ (cs : List Cmd) (n : Nat) (t : Tree) {n' : Nat} {t' : Tree} {es : List Event}, runT cfg cs n t = some (n', t', es) → es.all isCall = true
  | [], n, t, n', t', es, h => by cases h; rfl
  | .call c :: cs, n, t, n', t', es, h => by
    unfold runT at h
    cases he : (c.prog cfg).execT cfg n t with
    | none => rw [he] at h; cases h
    | some x =>
      obtain ⟨n1, t1, r⟩ := x
      rw [he] at h
      have key : (match runT cfg cs n1 t1 with | none => none | some (n'', t'', es) => some (n'', t'', Event.call c r :: es)) = some (n', t', es) → es.all isCall = true := by
        intro h
        cases hr : runT cfg cs n1 t1 with
        | none => rw [hr] at h; cases h
        | some y =>
          obtain ⟨n2, t2, es2⟩ := y
          rw [hr] at h
          simp only [Option.some.injEq, Prod.mk.injEq] at h
          obtain ⟨_, _, rfl⟩ := h
          show (isCall (.call c r) && es2.all isCall) = true
          rw [runT_calls cs n1 t1 hr]; rfl
      cases r with
      | exhausted => cases h
      | ok a => exact key h
      | err a => exact key h
      | panic => exact key h
  | .bg sel :: cs, n, t, n', t', es, h => by
    unfold runT at h
    cases he : t.bgStep cfg sel with
    | none => rw [he] at h; cases h
    | some t1 => rw [he] at h; exact runT_calls cs n t1 h

def lightDir (d : Dir) : Bool := d.all (fun e => decide (e.1.kind ≠ .compact) && (match e.2 with | .good f => decide (f.writeOff < 1000000) | _ => true))

/-- What is checked of a failing merge: the store is quiet; `merge_small_shards` fails when it opens the merged files; then the store
comes to `t'`, and is opened. -/
def mergeFailsAt (cfg : Cfg) (maxFill : Nat) (k v v' : Bytes) (t t' : Tree) : Bool :=
  t.lightB && t.leaves.all (fun s => s.tgt.isNone) && t.leaves.all (fun s => decide (s.lo < s.hi)) && decide ((t.leaves.map Shard.proj).sum < 4294967296) &&
  decide ((t.leaves.map (fun s => s.getStats.numItems)).sum ≤ 65536 * 29491) && decide (t.leaves.Pairwise (fun a b => a.srcName ≠ b.srcName)) &&
  t'.leaves.all (fun s => decide (s.lo < s.hi)) && decide (t'.userGet cfg k = some v') &&
  (match (filesOf t.leaves).run (t.mergeSmallOps cfg maxFill) with
    | none => false
    | some d => lightDir d && lightDir (followDir t'.leaves d) &&
      (match openStore cfg false (followDir t'.leaves d) with
        | (_, .ok t'') => decide (t''.userGet cfg k = some v)
        | _ => false))

theorem light_sized {d : Dir} (h : lightDir d = true) : d.Sized := by
  unfold lightDir at h
  have hmem : ∀ (d : Dir) n x, d.find n = some x → (n, x) ∈ d := by
    intro d n x
    induction d with
    | nil => intro h; cases (h : (none : Option DFile) = some x)
    | cons e d ih =>
      obtain ⟨m, y⟩ := e
      intro h
      change (if m = n then some y else Dir.find d n) = some x at h
      by_cases hm : m = n
      · rw [if_pos hm] at h; cases h; subst hm; exact List.mem_cons_self
      · rw [if_neg hm] at h; exact List.mem_cons_of_mem _ (ih h)
  intro a b f hf
  have h1 := List.all_eq_true.1 h _ (hmem d _ _ hf)
  have h2 : d.find ⟨.compact, a, b⟩ = none := by
    cases e : d.find ⟨.compact, a, b⟩ with
    | none => rfl
    | some x =>
      have := List.all_eq_true.1 h _ (hmem d _ _ e)
      simp at this
  simp only [Bool.and_eq_true, decide_eq_true_eq] at h1
  refine ⟨?_, fun t ht => by rw [h2] at ht; cases ht⟩
  show f.writeOff < _
  omega

theorem mergeFailsAt_sound {cfg : Cfg} {maxFill : Nat} {k v v' : Bytes} {es es' : List Event} {t t' : Tree} (h1 : Reachable cfg es t) (h2 : Run cfg t es' t')
    (h : mergeFailsAt cfg maxFill k v v' t t' = true) :
    ∃ d d' t'', d.Sized ∧ MergeFails cfg maxFill t t d ∧ t'.userGet cfg k = some v' ∧ Follow d t' d' ∧ Restart cfg false d' t'' ∧ t''.userGet cfg k = some v := by
  unfold mergeFailsAt at h
  simp only [Bool.and_eq_true, decide_eq_true_eq] at h
  obtain ⟨⟨⟨⟨⟨⟨⟨⟨a1, a2⟩, a3⟩, a4⟩, a5⟩, a6⟩, a7⟩, a8⟩, a9⟩ := h
  obtain ⟨t0, hc, hr⟩ := h1
  obtain ⟨hs0, hg0⟩ := create_sane hc
  obtain ⟨w, _, hs, hm⟩ := hr.refines true World.new hs0 (hg0 ▸ MAbs.new cfg)
  obtain ⟨w', _, hs', _⟩ := h2.refines _ w hs hm
  have hq : ∀ s ∈ t.leaves, s.tgt = none := fun s hs => Option.isNone_iff_eq_none.1 (List.all_eq_true.1 a2 s hs)
  have hfin := quiet_finishAll (cfg := cfg) t hq
  have hok : MergeOK cfg maxFill t := ⟨light_quiet a1 a2, fun s hs => by simpa using List.all_eq_true.1 a3 s hs, Or.inr a4, fun u e => by
    rw [hfin] at e; simp only [Option.some.injEq] at e; subst e; exact a5⟩
  have htl := (hs'.ok.tiling (fun s hs => by simpa using List.all_eq_true.1 a7 s hs) dyadic_full).tiles
  cases hd : (filesOf t.leaves).run (t.mergeSmallOps cfg maxFill) with
  | none => rw [hd] at a9; cases a9
  | some d =>
    rw [hd] at a9
    simp only [Bool.and_eq_true] at a9
    obtain ⟨⟨b0, b1⟩, b2⟩ := a9
    cases ho : openStore cfg false (followDir t'.leaves d) with
    | mk ops r =>
      rw [ho] at b2
      cases r with
      | err => cases b2
      | panic => cases b2
      | ok t'' =>
        simp only [decide_eq_true_eq] at b2
        refine ⟨d, followDir t'.leaves d, t'', light_sized b0, .loading (clearBad := false) hok hfin (filesOf_dirOf _ a6) hd (light_sized b0) (.stop _ _), a8, followDir_follow d ?_, .done (light_sized b1) ho, b2⟩
        · intro a ha b hb e
          simp only [Shard.srcName, FName.mk.injEq, true_and] at e
          have hb' := htl.mem hb
          exact htl.eq_of_overlap ha hb (x := b.lo) (by omega) (by omega) (Nat.le_refl _) hb'.2.1

/-- Acknowledged writes are lost: `merge_small_shards` merges two shards, deletes their files and then fails to open the merged one (too many open files, say); the store goes on with the deleted
files, a key is set, and when the store is closed and opened, it has its old value. -/
theorem C78_refuted : ∃ (cfg : Cfg) (es es' : List MEvent) (t u u' t' : Tree) (k' : Disk) (maxFill : Nat) (d d' : Dir) (k v v' : Bytes), MReachable cfg es t (.agrees false) ∧
    MergeFails cfg maxFill t u d ∧ MRun cfg u (.left d) es' u' k' ∧ u'.userGet cfg k = some v' ∧ Follow d u' d' ∧ Restart cfg false d' t' ∧ t'.userGet cfg k = some v ∧ v ≠ v' := by
  obtain ⟨es, t, es', t', h1, h2, h3, t0, n, n', h4, h5, h6⟩ := checkT2_sound (cfg := byteCfg 9 5) (cs := [.call (.kv [1] (.set [1])), .call (.kv [255] (.set [1])), .call (.kv [255] (.set [2])),
    .call (.kv [255] (.set [3]))]) (cs' := [.call (.kv [1] (.set [5]))]) (chk := mergeFailsAt (byteCfg 9 5) 100 [1] [1] [5]) (by decide +kernel)
  obtain ⟨d, d', t'', _, g1, g2, g3, g4, g5⟩ := mergeFailsAt_sound h1 h2 h3
  have hc := runT_calls _ _ _ h6
  obtain ⟨k', g6⟩ := MRun.of_calls h2 hc (.left d)
  exact ⟨_, _, _, t, t, t', t'', k', 100, d, d', [1], [1], [5], MReachable.of_reachable h1, g1, g6, g2, g3, g4, g5, by decide⟩

/-- Not vacuous: two shards; `merge_small_shards` fails, the store is closed and opened, and has its values. -/
example : ∃ (es : List MEvent) (t t' : Tree), MReachable (byteCfg 9 5) es t (.agrees false) ∧ MRun (byteCfg 9 5) t (.agrees false) [.mergeFailed, .done .reopen] t' (.agrees false) ∧
    t'.userGet (byteCfg 9 5) [1] = some [1] := by
  obtain ⟨es, t, h1, h3⟩ := checkT_sound (cfg := byteCfg 9 5) (cs := [.call (.kv [1] (.set [1])), .call (.kv [255] (.set [1])), .call (.kv [255] (.set [2])), .call (.kv [255] (.set [3]))])
    (chk := fun t => mergeFailsAt (byteCfg 9 5) 100 [1] [1] [1] t t) (by decide +kernel)
  obtain ⟨d, d', t'', g0, g1, g2, g3, g4, g5⟩ := mergeFailsAt_sound h1 (.nil t) h3
  have hm := MReachable.of_reachable h1
  obtain ⟨ops, _, t', k1, _, _, k2⟩ := (C78_failed_merge hm g1).2 false g0
  exact ⟨_, t, t', hm, .mergeFails g1 (.reopen (.done g0 k1) (.nil _ _)), (k2 [1]).trans g2⟩

end Candy.Props
