import Verif.Proofs.Retune
import Verif.Props.MergeError
/-!
# C79: the configuration may be changed between openings
-/
namespace Candy.Props
open Candy.Spec

/-- The answers of the key-value calls are those of an ideal map; which pairs are too large is decided by the configuration of the time. -/
def LikeIdealMapV : Cfg → Map → List VEvent → Prop
  | _, _, [] => True
  | cfg, m, .done (.call (.kv k op) r) :: es =>
    match kvError cfg k op with
    | some e => r = .err e ∧ LikeIdealMapV cfg m es
    | none => r = .ok (kvAnswer (m k) op).1 ∧ LikeIdealMapV cfg (m.upd k (kvAnswer (m k) op).2) es
  | cfg, _, .done .clear :: es => LikeIdealMapV cfg Map.empty es
  | cfg, m, .done (.crash (some (.kv k op))) :: es =>
    LikeIdealMapV cfg m es ∨ (kvError cfg k op = none ∧ LikeIdealMapV cfg (m.upd k (kvAnswer (m k) op).2) es)
  | cfg, m, .done _ :: es => LikeIdealMapV cfg m es
  | _, m, .reopened cfg' :: es => LikeIdealMapV cfg' m es
  | cfg, m, .crashed (some (.kv k op)) cfg' :: es =>
    LikeIdealMapV cfg' m es ∨ (kvError cfg k op = none ∧ LikeIdealMapV cfg' (m.upd k (kvAnswer (m k) op).2) es)
  | _, m, .crashed _ cfg' :: es => LikeIdealMapV cfg' m es

theorem specRun_likeV {cfg : Cfg} {w w' : World} {es : List Event} (h : SpecRun cfg w es w') (es' : List VEvent) (h' : LikeIdealMapV cfg w'.kv es') :
    LikeIdealMapV cfg w.kv (es.map .done ++ es') := by
  induction h with
  | nil => exact h'
  | @call w w1 w2 c r es h _ ih =>
    have ih := ih h'
    cases c with
    | kv k op =>
      obtain ⟨m', h1, rfl⟩ := h
      rw [List.map_cons, List.cons_append]
      unfold LikeIdealMapV
      unfold kvStep at h1
      cases he : kvError cfg k op with
      | some e => rw [he] at h1; exact ⟨h1.1, h1.2 ▸ ih⟩
      | none => rw [he] at h1; exact ⟨h1.1, h1.2 ▸ ih⟩
    | typed k op => obtain ⟨m', _, rfl⟩ := h; exact ih
    | list k op => obtain ⟨m', _, rfl⟩ := h; exact ih
    | queue k op => obtain ⟨m', _, rfl⟩ := h; exact ih
  | merge _ ih => exact ih h'
  | clear _ ih => exact ih h'
  | reopen _ ih => exact ih h'
  | @crash w w1 w2 c es h _ ih =>
    have ih := ih h'
    cases c with
    | none => cases h; exact ih
    | some c =>
      cases c with
      | kv k op =>
        obtain ⟨m', h1, rfl⟩ := h
        rcases h1 with rfl | ⟨e, rfl⟩
        · exact Or.inl ih
        · exact Or.inr ⟨e, ih⟩
      | typed k op => obtain ⟨m', _, rfl⟩ := h; exact ih
      | list k op => obtain ⟨m', _, rfl⟩ := h; exact ih
      | queue k op => obtain ⟨m', _, rfl⟩ := h; exact ih

theorem vspecRun_likeV {cfg cfg' : Cfg} {w w' : World} {es : List VEvent} (h : VSpecRun cfg w es cfg' w') : LikeIdealMapV cfg w.kv es := by
  induction h with
  | nil => unfold LikeIdealMapV; trivial
  | same h _ ih => exact specRun_likeV h _ ih
  | reopened _ ih => unfold LikeIdealMapV; exact ih
  | @crashed cfg cfg' cfg'' w w1 w2 c es h _ ih =>
    cases c with
    | none => cases h; exact ih
    | some c =>
      cases c with
      | kv k op =>
        obtain ⟨m', h1, rfl⟩ := h
        rcases h1 with rfl | ⟨e, rfl⟩
        · exact Or.inl ih
        · exact Or.inr ⟨e, ih⟩
      | typed k op => obtain ⟨m', _, rfl⟩ := h; exact ih
      | list k op => obtain ⟨m', _, rfl⟩ := h; exact ih
      | queue k op => obtain ⟨m', _, rfl⟩ := h; exact ih

/-- **C79.** Whenever a store is opened - after closing it, or after a crash - the settings other than the hash seed may be changed (`Retuned`): through any number of openings, each with its own
configuration, the answers of the key-value calls are those of one ideal map. -/
theorem C79_settings_may_change {cfg0 cfg : Cfg} {es : List VEvent} {t : Tree} (h : VReachable cfg0 es cfg t) : LikeIdealMapV cfg0 Map.empty es := by
  obtain ⟨w, h1, _⟩ := h.world
  exact vspecRun_likeV h1

/-- The same for all the APIs. -/
theorem C79_settings_may_change_world {cfg0 cfg : Cfg} {es : List VEvent} {t : Tree} (h : VReachable cfg0 es cfg t) :
    ∃ w, VSpecRun cfg0 World.new es cfg w ∧ ∀ k, t.userGet cfg k = w.kv k := by
  obtain ⟨w, h1, _, h2⟩ := h.world
  exact ⟨w, h1, h2.kv⟩

/-- **C79**, the opening itself: it succeeds, and all the values are there. -/
theorem C79_reopen {cfg0 cfg cfg' : Cfg} {es : List VEvent} {t u : Tree} {d : Dir} {clearBad : Bool} (h : VReachable cfg0 es cfg t) (hc : Retuned cfg cfg') (hs : t.Small)
    (hn : ∀ s ∈ t.leaves, s.lo < s.hi) (hu : t.finishAll cfg = some u) (hd : DirOf d u.leaves) :
    ∃ ops t', openStore cfg' clearBad d = (ops, .ok t') ∧ ∀ k, t'.userGet cfg' k = t.userGet cfg k := by
  obtain ⟨w, _, hsane, _⟩ := h.world
  obtain ⟨u', e', uok, usm, uq, uspan, uval⟩ := Tree.finishAll_spec hsane.ok hs
  rw [hu] at e'; simp only [Option.some.injEq] at e'; subst e'
  have un : u.NonDegenerate := by
    intro s hs
    have : (s.lo, s.hi) ∈ u.leaves.map (fun s => (s.lo, s.hi)) := List.mem_map.2 ⟨s, hs, rfl⟩
    rw [uspan, List.mem_map] at this
    obtain ⟨x, hx, hxe⟩ := this
    have := hn x hx
    simp only [Prod.mk.injEq] at hxe
    omega
  obtain ⟨ops, d', t', h1, _, _, _, _, _, _, _, h8⟩ := hd.reopen (clearBad := clearBad) (hc.treeOK uok) un uq usm
  refine ⟨ops, t', h1, fun k => ?_⟩
  unfold Tree.userGet
  rw [h8, hc.get]
  exact uval _ ⟨Nat.zero_le _, (cfg.ph _).shardSel_lt⟩

/-- Another hash function: every hash is complemented. -/
def otherSeed (cfg : Cfg) : Cfg := { cfg with hash := fun k => ⟨~~~ (cfg.hash k).h1, (cfg.hash k).h2⟩ }

/-- What is checked of a reopening with another seed. -/
def seedChanged (cfg cfg' : Cfg) (k v : Bytes) (t : Tree) : Bool :=
  t.lightB && t.leaves.all (fun s => s.tgt.isNone) && t.leaves.all (fun s => decide (s.lo < s.hi)) && decide (t.leaves.Pairwise (fun a b => a.srcName ≠ b.srcName)) &&
  decide (t.userGet cfg k = some v) &&
  (match openStore cfg' false (filesOf t.leaves) with
    | (_, .ok t') => decide (t'.userGet cfg' k = none)
    | _ => false)

/-- The hash seed must not be changed, and the store does not notice if it is: it opens without an error, and a key that was set is not found. -/
theorem C79_seed_refuted : ∃ (cfg cfg' : Cfg) (es : List VEvent) (t u t' : Tree) (d : Dir) (ops : List FOp) (k v : Bytes), VReachable cfg es cfg t ∧ t.Small ∧
    t.finishAll cfg = some u ∧ DirOf d u.leaves ∧ t.userGet cfg k = some v ∧
    cfg' = { cfg with hash := cfg'.hash } ∧ openStore cfg' false d = (ops, .ok t') ∧ t'.userGet cfg' k = none := by
  obtain ⟨es, t, h1, h3⟩ := checkT_sound (cfg := byteCfg 67108864 8388608) (cs := [.call (.kv [1] (.set [5]))])
    (chk := seedChanged (byteCfg 67108864 8388608) (otherSeed (byteCfg 67108864 8388608)) [1] [5]) (by decide +kernel)
  unfold seedChanged at h3
  simp only [Bool.and_eq_true, decide_eq_true_eq] at h3
  obtain ⟨⟨⟨⟨⟨a1, a2⟩, a3⟩, a4⟩, a5⟩, a6⟩ := h3
  have hq : ∀ s ∈ t.leaves, s.tgt = none := fun s hs => Option.isNone_iff_eq_none.1 (List.all_eq_true.1 a2 s hs)
  cases ho : openStore (otherSeed (byteCfg 67108864 8388608)) false (filesOf t.leaves) with
  | mk ops r =>
    rw [ho] at a6
    cases r with
    | err => cases a6
    | panic => cases a6
    | ok t' =>
      simp only [decide_eq_true_eq] at a6
      obtain ⟨t0, hc, hr⟩ := h1
      refine ⟨byteCfg 67108864 8388608, otherSeed (byteCfg 67108864 8388608), _, t, t, t', filesOf t.leaves, ops, [1], [5], ⟨t0, hc, .same hr (.nil _ _)⟩, light_quiet a1 a2, quiet_finishAll t hq,
        filesOf_dirOf _ a4, a5, rfl, ho, a6⟩

def roomyCfg : Cfg := { byteCfg 67108864 8388608 with expectedKeys := 1000000, maxListOps := 256 }

def closable (t : Tree) : Bool :=
  t.lightB && t.leaves.all (fun s => s.tgt.isNone) && t.leaves.all (fun s => decide (s.lo < s.hi)) && decide (t.leaves.Pairwise (fun a b => a.srcName ≠ b.srcName)) &&
  decide (t.userGet (byteCfg 9 5) [1] = some [1]) && decide (t.leaves.length = 2)

/-- Not vacuous: a store with two shards, made with `max_shard_size` 9, is opened with `max_shard_size` 67108864, another compaction threshold and room for a million keys. -/
example : ∃ (es : List Event) (t t' : Tree), Reachable (byteCfg 9 5) es t ∧ t.leaves.length = 2 ∧
    VRun (byteCfg 9 5) t [.reopened roomyCfg] roomyCfg t' ∧
    t'.userGet roomyCfg [1] = some [1] := by
  obtain ⟨es, t, h1, h3⟩ := checkT_sound (cfg := byteCfg 9 5) (cs := [.call (.kv [1] (.set [1])), .call (.kv [255] (.set [1])), .call (.kv [255] (.set [2])), .call (.kv [255] (.set [3]))])
    (chk := closable) (by decide +kernel)
  unfold closable at h3
  simp only [Bool.and_eq_true, decide_eq_true_eq] at h3
  obtain ⟨⟨⟨⟨⟨a1, a2⟩, a3⟩, a4⟩, a5⟩, a6⟩ := h3
  have hq : ∀ s ∈ t.leaves, s.tgt = none := fun s hs => Option.isNone_iff_eq_none.1 (List.all_eq_true.1 a2 s hs)
  have hsm : t.Small := light_quiet a1 a2
  have hn : ∀ s ∈ t.leaves, s.lo < s.hi := fun s hs => by simpa using List.all_eq_true.1 a3 s hs
  have hv : VReachable (byteCfg 9 5) (es.map .done ++ []) (byteCfg 9 5) t := by
    obtain ⟨t0, hc, hr⟩ := h1
    exact ⟨t0, hc, .same hr (.nil _ _)⟩
  have hret : Retuned (byteCfg 9 5) roomyCfg := ⟨rfl, Or.inl (by decide), by decide⟩
  obtain ⟨ops, t', g1, g2⟩ := C79_reopen (clearBad := false) hv hret hsm hn (quiet_finishAll t hq) (filesOf_dirOf _ a4)
  exact ⟨es, t, t', h1, a6, .reopen hret hsm hn (quiet_finishAll t hq) (filesOf_dirOf _ a4) g1 (.nil _ _), (g2 [1]).trans a5⟩

end Candy.Props
