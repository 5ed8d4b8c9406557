import Verif.Model.Flush
import Verif.Props.Crash
import Verif.Props.Iter
import Verif.Props.Create
/-!
# C45: flush
-/
namespace Candy.Props

/-- **C45** (partial: no compaction is running when `flush` is called, nothing is written between `flush` and the machine crash; no shard
of empty span, files below 4 GiB as in C10). After `flush`, whatever had been synced before and whatever the machine crash does to the
files that are not clean, the directory opens, with the same contents. -/
theorem C45_flush_partial {cfg : Cfg} {es : List Event} {t : Tree} (hr : Reachable cfg es t) (hsm : t.Small) (hn : ∀ s ∈ t.leaves, s.lo < s.hi)
    (hq : ∀ s ∈ t.leaves, s.tgt = none) {d d' : Dir} (hd : DirOf d t.leaves) {c : FName → Bool} (hp : PowerLoss (afterFlush c t) d d')
    (clearBad : Bool) : ∃ ops t', openStore cfg clearBad d' = (ops, .ok t') ∧ ∀ k, t'.userGet cfg k = t.userGet cfg k := by
  have hfl : ∀ s ∈ t.leaves, afterFlush c t s.srcName = true := by
    intro s hs
    unfold afterFlush Tree.flushed
    simp only [Bool.or_eq_true, List.contains_iff_mem]
    exact .inr (List.mem_map_of_mem hs)
  have hd' : DirOf d' t.leaves := by
    refine ⟨hp.nodup, fun s hs => ⟨?_, ?_⟩, fun n hx => ?_⟩
    · rw [hp.kept _ (hfl s hs)]
      exact (hd.files s hs).1
    · have h1 := (hd.files s hs).2
      rw [hq s hs] at h1 ⊢
      exact (hp.names _).2 h1
    · exact hd.only n (fun e => hx ((hp.names n).2 e))
  obtain ⟨_, _, hs, _⟩ := hr.world
  obtain ⟨ops, _, t', h1, _, _, _, _, _, _, _, h2⟩ := hd'.reopen (clearBad := clearBad) hs.ok hn hq hsm
  exact ⟨ops, t', h1, fun k => congrFun h2 _⟩

/-- the hypotheses are met by a store with a key -/
example : ∃ es s d, Reachable runCfg es (.leaf s) ∧ s.tgt = none ∧ (Tree.leaf s).userGet runCfg [97] = some [1] ∧ DirOf d [s] ∧
    PowerLoss (afterFlush (fun _ => false) (.leaf s)) d d := by
  obtain ⟨es, t, hr, hc⟩ := checkT_sound (cfg := runCfg) (cs := [.call (.kv [97] (.set [1]))]) (chk := oneLeaf runCfg) (by decide +kernel)
  match t, hc with
  | .leaf s, hc =>
    simp only [oneLeaf, Bool.and_eq_true, decide_eq_true_eq, Option.isNone_iff_eq_none] at hc
    have hd := filesOf_dirOf [s] (by simp)
    exact ⟨es, s, filesOf [s], hr, hc.1.1, hc.2, hd, ⟨hd.nodup, fun n => Iff.rfl, fun n _ => rfl⟩⟩

/-- The counterexample: `b` is overwritten while nothing is compacted, which starts a compaction; after the first row has been compacted,
`c` is set. -/
def flushScript : List Cmd := [.call (.kv [97] (.set [1])), .call (.kv [97] .remove), .call (.kv [98] (.set [2])), .bg 0, .call (.kv [99] (.set [3]))]

/-- The directory with the target of the compaction as it was created. -/
def flushLoss (s : Shard) : Dir := [(s.srcName, .good s.src), (s.tgtName, .blank)]

def flushCheck (t : Tree) : Bool := match t with
  | .leaf s => s.tgt.isSome && decide (t.userGet iterCfg [99] = some [3]) && match (openStore iterCfg false (flushLoss s)).2 with
    | .ok t' => decide (t'.userGet iterCfg [99] = none)
    | _ => false
  | _ => false

set_option maxRecDepth 100000 in
theorem flush_run : checkT iterCfg flushScript flushCheck = true := by decide +kernel

theorem flushLoss_find (s : Shard) : (flushLoss s).find s.srcName = some (.good s.src) ∧ (flushLoss s).find s.tgtName = some .blank ∧
    ∀ n, n ≠ s.srcName → n ≠ s.tgtName → (flushLoss s).find n = none := by
  have e : ¬ s.srcName = s.tgtName := src_ne_tgt s s
  refine ⟨by simp [flushLoss, Dir.find], by simp [flushLoss, Dir.find, e], fun n h1 h2 => ?_⟩
  simp [flushLoss, Dir.find, Ne.symm h1, Ne.symm h2]

/-- **C45 is false of the code**: there is a reachable store with a key `c` (its `set` has returned), such that after a `flush`, a machine
crash may leave a directory that opens without `c`. A compaction is running, and `c` is in its target file, which `flush` does not sync. -/
theorem C45_refuted : ∃ (cfg : Cfg) (es : List Event) (t : Tree) (k v : Bytes) (d d' : Dir) (ops : List FOp) (t' : Tree),
    Reachable cfg es t ∧ t.userGet cfg k = some v ∧ DirOf d t.leaves ∧ PowerLoss (afterFlush (fun _ => false) t) d d' ∧
    openStore cfg false d' = (ops, .ok t') ∧ t'.userGet cfg k = none := by
  obtain ⟨es, t, hr, hc⟩ := checkT_sound flush_run
  match t, hc with
  | .leaf s, hc =>
    unfold flushCheck at hc
    simp only [Bool.and_eq_true, decide_eq_true_eq] at hc
    obtain ⟨⟨h1, h2⟩, h3⟩ := hc
    have hd := filesOf_dirOf [s] (by simp)
    obtain ⟨f1, f2, f3⟩ := flushLoss_find s
    have hp : PowerLoss (afterFlush (fun _ => false) (.leaf s)) (filesOf [s]) (flushLoss s) := by
      refine ⟨?_, fun n => ?_, fun n hn => ?_⟩
      · simp [flushLoss, src_ne_tgt s s]
      · by_cases e1 : n = s.srcName
        · subst e1
          rw [f1, (hd.files s (by simp)).1]
        · by_cases e2 : n = s.tgtName
          · subst e2
            rw [f2, (hd.files s (by simp)).2]
            obtain ⟨x, hx⟩ := Option.isSome_iff_exists.1 h1
            rw [hx]
            simp
          · rw [f3 n e1 e2]
            refine ⟨fun _ => ?_, fun _ => rfl⟩
            cases hx : (filesOf [s]).find n with
            | none => rfl
            | some y =>
              obtain ⟨s', hs', e⟩ := hd.only n (by rw [hx]; simp)
              rw [List.mem_singleton] at hs'
              subst hs'
              rcases e with e | e
              · exact absurd e e1
              · exact absurd e e2
      · simp only [afterFlush, Tree.flushed, Tree.leaves, List.map_cons, List.map_nil, Bool.false_or, List.contains_iff_mem, List.mem_singleton] at hn
        subst hn
        rw [f1, (hd.files s (by simp)).1]
    cases ho : openStore iterCfg false (flushLoss s) with
    | mk ops r =>
      rw [ho] at h3
      cases r with
      | err => cases h3
      | panic => cases h3
      | ok t' => exact ⟨iterCfg, es, .leaf s, [99], [3], _, _, ops, t', hr, h2, hd, hp, ho, by simpa using h3⟩

/-! ## A later compaction -/

/-- A sequence of raw steps of the store with their traces. -/
inductive RawSteps (cfg : Cfg) : Tree → List FOp → Tree → Prop
  | nil (t : Tree) : RawSteps cfg t [] t
  | cons {t t1 t' : Tree} {o os : List FOp} (h : RawStep cfg t o t1) (hs : RawSteps cfg t1 os t') : RawSteps cfg t (o ++ os) t'

/-- Some steps of the background thread. -/
def bgMany (cfg : Cfg) : Nat → Tree → Option (List FOp × Tree)
  | 0, t => some ([], t)
  | n + 1, t => match t.bgStep cfg 0 with
    | none => none
    | some t1 => (bgMany cfg n t1).map (fun p => (t.bgOps cfg 0 ++ p.1, p.2))

theorem bgMany_sound {cfg : Cfg} : ∀ (n : Nat) (t : Tree) {os : List FOp} {t' : Tree}, bgMany cfg n t = some (os, t') → RawSteps cfg t os t'
  | 0, t, os, t', h => by cases h; exact .nil t
  | n + 1, t, os, t', h => by
    unfold bgMany at h
    cases hb : t.bgStep cfg 0 with
    | none => rw [hb] at h; cases h
    | some t1 =>
      rw [hb] at h
      simp only [Option.map_eq_some_iff] at h
      obtain ⟨⟨o, t2⟩, h1, h2⟩ := h
      cases h2
      exact .cons (.bg hb) (bgMany_sound n t1 h1)

/-- `a` and `z` are set, `a` is removed. -/
def laterScript : List Cmd := [.call (.kv [97] (.set [1])), .call (.kv [122] (.set [9])), .call (.kv [97] .remove)]

def laterName : FName := ⟨.shard, 0, 65536⟩

/-- Then `b` is set, which starts a compaction, and the background thread finishes it. -/
def laterCheck (t : Tree) : Bool := match t with
  | .leaf s => s.tgt.isNone && decide (t.userGet iterCfg [122] = some [9]) && decide (s.lo = 0 ∧ s.hi = 65536) && decide (s.src.writeOff < 100) &&
      match t.insert iterCfg (iterCfg.ph (userKey [98])) (userKey [98]) [2] .set 1 with
      | .ok (.leaf s1, _) => decide (s1.lo < s1.hi) && match bgMany iterCfg 65 (.leaf s1) with
        | some (os, .leaf s2) => s2.tgt.isNone && decide (s2.lo = 0 ∧ s2.hi = 65536) &&
            !(cleanAfter (afterFlush (fun _ => true) t) (t.insertOps iterCfg (iterCfg.ph (userKey [98])) (userKey [98]) [2] .set 1 ++ os) laterName)
        | _ => false
      | _ => false
  | _ => false

set_option maxRecDepth 100000 in
theorem later_run : checkT iterCfg laterScript laterCheck = true := by decide +kernel

/-- **C45 is false of the code** also when no compaction is running at the time of the `flush`: `t` is a reachable store that is not being
compacted, with a key `z`, and all its files have been synced by `flush`. Then another key is set, which starts a compaction, and the
compaction finishes: it renames its target, which has never been synced, over the shard file. A machine crash now may lose `z`. -/
theorem C45_refuted_later_compaction : ∃ (cfg : Cfg) (es : List Event) (t t' : Tree) (k v : Bytes) (os : List FOp) (d d' : Dir) (ops : List FOp) (u : Tree),
    Reachable cfg es t ∧ (∀ s ∈ t.leaves, s.tgt = none) ∧ t.userGet cfg k = some v ∧ RawSteps cfg t os t' ∧ (∀ s ∈ t'.leaves, s.tgt = none) ∧ DirOf d t'.leaves ∧
    PowerLoss (cleanAfter (afterFlush (fun _ => true) t) os) d d' ∧ openStore cfg false d' = (ops, .ok u) ∧ u.userGet cfg k = none := by
  obtain ⟨es, t, hr, hc⟩ := checkT_sound later_run
  match t, hc with
  | .leaf s, hc =>
    unfold laterCheck at hc
    simp only [Bool.and_eq_true, decide_eq_true_eq, Option.isNone_iff_eq_none] at hc
    obtain ⟨⟨⟨⟨h1, h2⟩, h3⟩, h4⟩, h5⟩ := hc
    cases hi : (Tree.leaf s).insert iterCfg (iterCfg.ph (userKey [98])) (userKey [98]) [2] .set 1 with
    | panic => rw [hi] at h5; cases h5
    | diverge => rw [hi] at h5; cases h5
    | deadlock => rw [hi] at h5; cases h5
    | ok r =>
      rw [hi] at h5
      match r, hi, h5 with
      | (.leaf s1, st), hi, h5 =>
        simp only [Bool.and_eq_true, decide_eq_true_eq] at h5
        obtain ⟨h5, h6⟩ := h5
        cases hb : bgMany iterCfg 65 (.leaf s1) with
        | none => rw [hb] at h6; cases h6
        | some x =>
          rw [hb] at h6
          match x, hb, h6 with
          | (os, .leaf s2), hb, h6 =>
            simp only [Bool.and_eq_true, decide_eq_true_eq, Option.isNone_iff_eq_none, Bool.not_eq_true'] at h6
            obtain ⟨⟨h7, h8⟩, h9⟩ := h6
            have hd := filesOf_dirOf [s2] (by simp)
            have hn : s2.srcName = laterName := by unfold Shard.srcName laterName; rw [h8.1, h8.2]
            have hk : iterCfg.expectedKeys ≤ 29491 := by decide
            obtain ⟨ops, ho⟩ := open_one (cfg := iterCfg) (clearBad := false) (x := .zero) (.inr (by simp)) (.inl rfl)
            refine ⟨iterCfg, es, .leaf s, .leaf s2, [122], [9], _, filesOf [s2], [(laterName, .zero)], ops, _, hr, ?_, h2,
              .cons (.ins (n := 1) (by decide) hi ?_) (bgMany_sound 65 _ hb), ?_, hd, ⟨by simp, fun n => ?_, fun n hx => ?_⟩, ho, ?_⟩
            · intro x hx
              simp only [Tree.leaves, List.mem_singleton] at hx
              subst hx
              exact h1
            · intro x hx
              simp only [Tree.leaves, List.mem_singleton] at hx
              subst hx
              exact h5
            · intro x hx
              simp only [Tree.leaves, List.mem_singleton] at hx
              subst hx
              exact h7
            · by_cases e : n = laterName
              · subst e
                rw [← hn, (hd.files s2 (by simp)).1, hn]
                exact ⟨fun h => (by cases h), fun h => (by cases h)⟩
              · have : Dir.find [(laterName, DFile.zero)] n = none := by simp [Dir.find, Ne.symm e]
                rw [this]
                refine ⟨fun _ => ?_, fun _ => rfl⟩
                cases hx : (filesOf [s2]).find n with
                | none => rfl
                | some y =>
                  obtain ⟨s', hs', e'⟩ := hd.only n (by rw [hx]; simp)
                  rw [List.mem_singleton] at hs'
                  subst hs'
                  rcases e' with e' | e'
                  · exact absurd (e'.trans hn) e
                  · rw [e', (hd.files s' (by simp)).2, h7] at hx
                    cases hx
            · by_cases e : n = laterName
              · subst e
                rw [h9] at hx
                cases hx
              · have : Dir.find [(laterName, DFile.zero)] n = none := by simp [Dir.find, Ne.symm e]
                rw [this]
                cases hx : (filesOf [s2]).find n with
                | none => rfl
                | some y =>
                  obtain ⟨s', hs', e'⟩ := hd.only n (by rw [hx]; simp)
                  rw [List.mem_singleton] at hs'
                  subst hs'
                  rcases e' with e' | e'
                  · exact absurd (e'.trans hn) e
                  · rw [e', (hd.files s' (by simp)).2, h7] at hx
                    cases hx
            · obtain ⟨t', g1, _, _, _, _, _, _, g8⟩ := Tree.create_spec (cfg := iterCfg) (Nat.le_trans hk (by decide)) true
              rw [create_one hk] at g1
              injection g1 with g1
              rw [g1]
              exact g8 _

end Candy.Props
