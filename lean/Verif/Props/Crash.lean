import Verif.Props.Isolation
import Verif.Proofs.CrashRunner
import Verif.Proofs.ListCrash
/-!
# C10 - C13, C29, C30, C51, C56 - C59: files, reopening, crashes

`Dies cfg t c d`: the process dies in state `t`, inside call `c` (or outside any call: in background work, in `merge_small_shards`), and
leaves the directory `d`. `Restart cfg clearBad d t'`: the store is opened again in state `t'`, possibly after more crashes during opening.
See `Verif.Model.Crash` and `Verif.Model.History`.
-/
namespace Candy.Props
open Candy.Spec

/-! ## Helpers (proofs only) -/

/-- A crash inside a call leaves the contents after some of its raw operations. -/
theorem dies_exec {cfg ex t c} {d : Dir} (hs : Sane cfg ex t) (h : Dies cfg t (some c) d) :
    ∃ m' p', AExec cfg (t.get cfg) (c.prog cfg) m' p' ∧ Recov cfg d m' := by
  cases h with
  | call h hsm hn hd =>
    obtain ⟨h1, h2⟩ := h.sim hs.ok
    obtain ⟨m', p', h3, h4⟩ := hd.recov h1 hsm hn
    exact ⟨m', p', h2.trans h3, h4⟩

theorem dies_none {cfg ex t} {d : Dir} (hs : Sane cfg ex t) (h : Dies cfg t none d) : Recov cfg d (t.get cfg) := by
  cases h with
  | idle hsm hn hd =>
    obtain ⟨m', p', h3, h4⟩ := hd.recov hs.ok hsm hn
    have e := h3.ret_eq
    subst e
    exact h4
  | merge hok hd =>
    obtain ⟨ex', ho, hf⟩ := hok.cases hs
    exact hd.recov ho hok.small hok.spans hf

theorem dies_recov {cfg ex t c} {d : Dir} (hs : Sane cfg ex t) (h : Dies cfg t c d) : ∃ m, Recov cfg d m := by
  cases c with
  | none => exact ⟨_, dies_none hs h⟩
  | some c => obtain ⟨m', _, _, h⟩ := dies_exec hs h; exact ⟨m', h⟩

theorem restart_sane {cfg ex t cb} {d : Dir} {t' m} (hs : Sane cfg ex t) (hr : Recov cfg d m) (h : Restart cfg cb d t') :
    Sane cfg false t' ∧ t'.get cfg = m := by
  obtain ⟨h1, _, _, _, h2⟩ := h.spec hr
  exact ⟨⟨hs.bound, h1⟩, h2⟩

/-! ## C10 -/

/-- **C10**, the files: an opened directory that was empty holds exactly the files of the new store. -/
theorem C10_files_of_new_store {cfg : Cfg} {t : Tree} (h : Tree.create cfg = some t) (clearBad : Bool) :
    ∃ ops d, openStore cfg clearBad [] = (ops, .ok t) ∧ Dir.run [] ops = some d ∧ DirOf d t.leaves := openStore_new h clearBad

/-- **C10**, the files: if the directory holds exactly the files of a state, then after the file operations of an insertion (with all its
splits), a removal, a background step, closing, or `merge_small_shards`, it holds exactly the files of the next state. -/
theorem C10_files_follow {cfg : Cfg} {es : List Event} {t t' : Tree} {ops : List FOp} {d : Dir} (hr : Reachable cfg es t) (hd : DirOf d t.leaves)
    (hsm : t.Small) (hn : ∀ s ∈ t.leaves, s.lo < s.hi) (h : RawStep cfg t ops t') : ∃ d', d.run ops = some d' ∧ DirOf d' t'.leaves := by
  obtain ⟨_, _, hs, _⟩ := hr.world
  exact h.files hd hs hsm hn

/-- **C10** (partial: shards with an empty span - which only arise when a shard covering a single selector value is split - are
excluded, see `C10_refuted_width_one`; and files stay below 4 GiB). Closing succeeds; and opening the directory then succeeds, whatever
the options, leaves exactly the files of the opened store, and gives a store with the same contents, in a state of the same history. -/
theorem C10_reopen_partial {cfg : Cfg} {es : List Event} {t : Tree} (hr : Reachable cfg es t) (hsm : t.Small)
    (hn : ∀ s ∈ t.leaves, s.lo < s.hi) :
    ∃ u, t.finishAll cfg = some u ∧ ∀ (clearBad : Bool) (d : Dir), DirOf d u.leaves →
      ∃ ops d' t', openStore cfg clearBad d = (ops, .ok t') ∧ d.run ops = some d' ∧ DirOf d' t'.leaves ∧
        (∀ k, t'.userGet cfg k = t.userGet cfg k) ∧ t'.get cfg = t.get cfg ∧ Reachable cfg (es ++ [.reopen]) t' := by
  obtain ⟨_, _, hs, _⟩ := hr.world
  obtain ⟨u, e1, e2, e3, e4, e5, e6⟩ := Tree.finishAll_spec hs.ok hsm
  have hun : u.NonDegenerate := by
    intro s hs
    have : (s.lo, s.hi) ∈ u.leaves.map (fun s => (s.lo, s.hi)) := List.mem_map_of_mem (f := fun s : Shard => (s.lo, s.hi)) hs
    rw [e5, List.mem_map] at this
    obtain ⟨s', h1, h2⟩ := this
    have := hn s' h1
    simp only [Prod.mk.injEq] at h2
    omega
  refine ⟨u, e1, fun clearBad d hd => ?_⟩
  obtain ⟨ops, d', t', f1, f2, f3, f4, f5, f6, f7, f8, f9⟩ := hd.reopen (clearBad := clearBad) e2 hun e4 e3
  have eg : t'.get cfg = t.get cfg := by rw [f9]; funext k; exact e6 k (inSpan_full _)
  obtain ⟨t0, g1, g2⟩ := hr
  exact ⟨ops, d', t', f1, f2, f3, fun k => congrFun eg _, eg, t0, g1, g2.append (.reopen hsm hn e1 hd f1 (.nil _))⟩

/-- Splitting a shard that covers a single selector value leaves a directory that cannot be opened any more. -/
theorem scanDir_bad {d : Dir} {a : Nat} (h : d.find ⟨.shard, a, a⟩ ≠ none) : (scanDir d).2 = none := by
  induction d with
  | nil => simp [Dir.find] at h
  | cons e d ih =>
    obtain ⟨n, x⟩ := e
    rw [Dir.find] at h
    unfold scanDir
    split at h
    · rename_i he
      subst he
      dsimp only
      rw [if_neg (by omega)]
    · have := ih h
      dsimp only
      cases n.kind with
      | bottom => exact this
      | top => exact this
      | merge => exact this
      | compact => exact this
      | shard =>
        dsimp only
        split
        · rw [this]; rfl
        · rfl

theorem run_append (xs ys : List FOp) : ∀ d : Dir, d.run (xs ++ ys) = (d.run xs).bind (fun d' => d'.run ys) := by
  induction xs with
  | nil => intro d; rfl
  | cons o xs ih =>
    intro d
    rw [List.cons_append, Dir.run, Dir.run]
    cases o.app d with
    | none => rfl
    | some d' => exact ih d'

/-- **C10 does not hold** for shards that cover a single selector value (65536 pre-split shards, or a store split as far): when such a
shard is split (`Shard.splitOps` are the file operations of the split, `d'` the directory after them), the directory cannot be opened
any more. -/
theorem C10_refuted_width_one {cfg : Cfg} {s : Shard} {d d' : Dir} (hw : s.hi = s.lo + 1) (hh : s.hi ≤ 65536) (hq : s.tgt = none)
    (h : d.run (s.splitOps cfg) = some d') (clearBad : Bool) : ∃ ops, openStore cfg clearBad d' = (ops, .err) := by
  have hm : midOf s.lo s.hi = s.lo := by unfold midOf; omega
  have hf : s.finish cfg = some s := by unfold Shard.finish; rw [hq]
  have key : d'.find ⟨.shard, s.lo, s.lo⟩ ≠ none := by
    unfold Shard.splitOps at h
    rw [hf] at h
    dsimp only at h
    rw [hm, ← List.append_assoc, run_append] at h
    rw [Option.bind_eq_some_iff] at h
    obtain ⟨d1, _, h⟩ := h
    simp only [Dir.run, FOp.app] at h
    split at h
    · cases h
    · rename_i d2 h2
      split at h2
      · cases h2
      · rename_i x hx
        cases h2
        split at h
        · cases h
        · rename_i d3 h3
          split at h3
          · cases h3
          · rename_i y hy
            cases h3
            split at h
            · cases h
            · rename_i d4 h4
              split at h4
              · cases h4
              · cases h4
                cases h
                rw [Dir.find_filter, if_neg (by simp only [Shard.srcName, FName.mk.injEq, true_and]; omega), Dir.find_put,
                  if_neg (by simp only [FName.mk.injEq, true_and]; omega), Dir.find_filter, if_neg (by simp), Dir.find_put, if_pos rfl]
                simp
  have hl : load cfg clearBad d' = ((scanDir d').1, .err) := by
    unfold load; simp only [scanDir_bad key]
  unfold openStore
  rw [hl]
  exact ⟨_, rfl⟩

/-- The split of such a shard does run (here without data, in a directory that holds only this shard). -/
example : ((filesOf [⟨5, 6, MFile.empty, none⟩]).run (Shard.splitOps runCfg ⟨5, 6, MFile.empty, none⟩)).isSome = true := by
  decide +kernel

/-- A store (with data, a compaction having run) is closed and reopened. -/
example : ∃ t, Reachable runCfg (XCmd.events [.call (.kv [97] (.set [1])) (.ok (.setStatus .createdNew)),
    .call (.kv [98] (.set [2])) (.ok (.setStatus .createdNew)), .reopen, .call (.kv [97] .get) (.ok (.val (some [1]))),
    .call (.kv [98] (.set [3])) (.ok (.setStatus (.prevValue [2])))]) t := checkX_sound (by decide +kernel)

/-! ## C11 -/

/-- **C11.** The process dies at any point inside a key-value call and the store is opened again: it holds exactly what it held before the
call, or exactly what it holds after the call (`Spec.kvAnswer`); in both cases the contents of all other APIs (all raw
pairs other than that of the key) are those before the call; and the history goes on. -/
theorem C11_kv_crash {cfg : Cfg} {es : List Event} {t t' : Tree} {k : Bytes} {op : KvOp} {d : Dir} {clearBad : Bool} (h : Reachable cfg es t)
    (hd : Dies cfg t (some (.kv k op)) d) (hr : Restart cfg clearBad d t') :
    ((∀ k', t'.userGet cfg k' = t.userGet cfg k') ∨
     (kvError cfg k op = none ∧ t'.userGet cfg k = (kvAnswer (t.userGet cfg k) op).2 ∧ ∀ k', k' ≠ k → t'.userGet cfg k' = t.userGet cfg k')) ∧
    (∀ raw, raw ≠ userKey k → t'.get cfg raw = t.get cfg raw) ∧ Reachable cfg (es ++ [.crash (some (.kv k op))]) t' := by
  obtain ⟨_, _, hs, _⟩ := h.world
  obtain ⟨m', p', h1, h2⟩ := dies_exec hs hd
  obtain ⟨_, h3⟩ := restart_sane hs h2 hr
  have hw := wp_kvOp' cfg (fun m' => m' = t.get cfg ∨ (kvError cfg k op = none ∧
    m' = Map.upd (t.get cfg) (userKey k) (kvAnswer (t.get cfg (userKey k)) op).2)) k op (t.get cfg) (Or.inl rfl) (fun e => Or.inr ⟨e, rfl⟩)
  have hreach : Reachable cfg (es ++ [.crash (some (.kv k op))]) t' := by
    obtain ⟨t0, g1, g2⟩ := h
    exact ⟨t0, g1, g2.append (.crash hd hr (.nil _))⟩
  rcases (wp.exec h1 hw).inv with rfl | ⟨e, rfl⟩
  · exact ⟨Or.inl (fun k' => congrFun h3 _), fun raw _ => congrFun h3 _, hreach⟩
  · refine ⟨Or.inr ⟨e, ?_, fun k' hk' => ?_⟩, fun raw hraw => ?_, hreach⟩
    · unfold Tree.userGet; rw [h3, Map.upd_same]
    · unfold Tree.userGet; rw [h3, Map.upd_other _ _ (fun x => hk' (userKey_inj x))]
    · rw [h3, Map.upd_other _ _ hraw]

/-- The same for typed calls. -/
theorem C11_typed_crash {cfg : Cfg} {es : List Event} {t t' : Tree} {k : Bytes} {op : KvOp} {d : Dir} {clearBad : Bool} (h : Reachable cfg es t)
    (hd : Dies cfg t (some (.typed k op)) d) (hr : Restart cfg clearBad d t') :
    ((∀ k', typedGet cfg t' k' = typedGet cfg t k') ∨
     (typedError cfg k op = none ∧ typedGet cfg t' k = (kvAnswer (typedGet cfg t k) op).2 ∧ ∀ k', k' ≠ k → typedGet cfg t' k' = typedGet cfg t k')) ∧
    (∀ raw, raw ≠ typedKey k → t'.get cfg raw = t.get cfg raw) := by
  obtain ⟨_, _, hs, _⟩ := h.world
  obtain ⟨m', p', h1, h2⟩ := dies_exec hs hd
  obtain ⟨_, h3⟩ := restart_sane hs h2 hr
  have hw := wp_typedOp' cfg (fun m' => m' = t.get cfg ∨ (typedError cfg k op = none ∧
    m' = Map.upd (t.get cfg) (typedKey k) (kvAnswer (t.get cfg (typedKey k)) op).2)) k op (t.get cfg) (Or.inl rfl) (fun e => Or.inr ⟨e, rfl⟩)
  rcases (wp.exec h1 hw).inv with rfl | ⟨e, rfl⟩
  · exact ⟨Or.inl (fun k' => congrFun h3 _), fun raw _ => congrFun h3 _⟩
  · refine ⟨Or.inr ⟨e, ?_, fun k' hk' => ?_⟩, fun raw hraw => ?_⟩
    · unfold typedGet; rw [h3, Map.upd_same]
    · unfold typedGet; rw [h3, Map.upd_other _ _ (fun x => hk' (typedKey_inj x))]
    · rw [h3, Map.upd_other _ _ hraw]

/-- A crash inside a call of another API changes no key-value pair. -/
theorem C11_other_crash {cfg : Cfg} {es : List Event} {t t' : Tree} {c : Call} {d : Dir} {clearBad : Bool} (h : Reachable cfg es t)
    (hd : Dies cfg t (some c) d) (hr : Restart cfg clearBad d t') (hc : apiOf c ≠ .kv) (k : Bytes) :
    t'.userGet cfg k = t.userGet cfg k := by
  obtain ⟨_, _, hs, _⟩ := h.world
  obtain ⟨m', p', h1, h2⟩ := dies_exec hs hd
  obtain ⟨_, h3⟩ := restart_sane hs h2 hr
  have hf := ((within_call cfg c).exec h1).1
  unfold Tree.userGet
  rw [h3]
  cases c with
  | kv => exact absurd rfl hc
  | typed tk op => exact hf _ (fun e => ne_of_ns (a := k) (b := tk) (x := 1) (y := 2) (by decide) e)
  | list lk op => exact hf _ user_notL
  | queue qk op => exact hf _ user_notQ

/-- Whatever the crash point, the directory can be opened (as long as its files are below 4 GiB). -/
theorem C11_opens {cfg : Cfg} {es : List Event} {t : Tree} {c : Option Call} {d : Dir} (h : Reachable cfg es t) (hd : Dies cfg t c d)
    (hz : d.Sized) (clearBad : Bool) :
    ∃ ops d' t', openStore cfg clearBad d = (ops, .ok t') ∧ d.run ops = some d' ∧ DirOf d' t'.leaves ∧ Restart cfg clearBad d t' := by
  obtain ⟨_, _, hs, _⟩ := h.world
  obtain ⟨m, hm⟩ := dies_recov hs hd
  obtain ⟨ops, d', t', h1, h2, h3, _⟩ := hm.openStore (clearBad := clearBad) hz
  exact ⟨ops, d', t', h1, h2, h3, .done hz h1⟩

/-- A store with a pair in which the process dies in the middle of a `set` - of another key, after the data was written, but before the
slot was - or of the same key between the write of the new pair and the switch of the slot. -/
example : ∃ t, Reachable runCfg (XCmd.events [.call (.kv [97] (.set [1])) (.ok (.setStatus .createdNew)), .crash (.kv [98] (.set [2])) 1,
    .call (.kv [98] .get) (.ok (.val (some [2]))), .crash (.kv [98] (.set [3])) 0, .call (.kv [98] .get) (.ok (.val (some [2])))]) t :=
  checkX_sound (by decide +kernel)

/-! ## C12 -/

/-- **C12.** The process dies outside any call - while background compactions are under way, at any point in them, or at any point of
`merge_small_shards` - and the store is opened again: it has exactly the contents it had. -/
theorem C12_background_crash {cfg : Cfg} {es : List Event} {t t' : Tree} {d : Dir} {clearBad : Bool} (h : Reachable cfg es t)
    (hd : Dies cfg t none d) (hr : Restart cfg clearBad d t') :
    (∀ k, t'.userGet cfg k = t.userGet cfg k) ∧ t'.get cfg = t.get cfg ∧ Reachable cfg (es ++ [.crash none]) t' := by
  obtain ⟨_, _, hs, _⟩ := h.world
  obtain ⟨_, h3⟩ := restart_sane hs (dies_none hs hd) hr
  obtain ⟨t0, g1, g2⟩ := h
  exact ⟨fun k => congrFun h3 _, h3, t0, g1, g2.append (.crash hd hr (.nil _))⟩

/-- **C12**, splits: the process dies at any point of the split of a shard. -/
theorem C12_split_crash {cfg : Cfg} {es : List Event} {t t' : Tree} {d d' : Dir} {s : Shard} {clearBad : Bool} (h : Reachable cfg es t)
    (hsm : t.Small) (hn : ∀ s ∈ t.leaves, s.lo < s.hi) (hd : DirOf d t.leaves) (hs : s ∈ t.leaves) (hw : s.lo + 1 < s.hi)
    (hc : Dir.Crash d (s.splitOps cfg) d') (hr : Restart cfg clearBad d' t') : t'.get cfg = t.get cfg := by
  obtain ⟨_, _, hsane, _⟩ := h.world
  obtain ⟨hd1, hd2⟩ := hd.dirF
  have hctx := hsane.ok.ctx hn hd2
  obtain ⟨pre, post, e⟩ := List.append_of_mem hs
  have hctx' : Ctx cfg d.find pre [s] post := by
    have e' : pre ++ [s] ++ post = [] ++ t.leaves ++ [] := by rw [e]; simp
    exact ⟨e' ▸ hctx.dir, e' ▸ hctx.tiles, e' ▸ hctx.ok⟩
  have hinv : s.Inv cfg := ((hsane.ok.tiling hn dyadic_full).mem hs).2.2.2.1
  obtain ⟨F', b, x, h1, h2, h3⟩ := hctx'.split hinv (hsm s hs) (by unfold midOf; omega)
  obtain ⟨hn', hcr⟩ := hc.find hd1
  obtain ⟨l, h4, h5⟩ := h2.2 _ hcr
  have hm : Recov cfg d' (t.get cfg) := by
    refine ⟨hn', _, h4, fun k v => ?_⟩
    rw [← hsane.ok.holds_get, show t.leaves = pre ++ [s] ++ post by rw [e]; simp, Holds.three, Holds.append, Holds.append, h5 k v, or_assoc]
  exact (restart_sane hsane hm hr).2

/-! ## C13 -/

/-- **C13.** After a crash, the store has the same contents however the recovery goes: two recoveries from the same directory, each with any
number of crashes at any points of it (and any value of `clear_on_unsupported_version`), end in stores with the same contents. -/
theorem C13_recovery_is_idempotent {cfg : Cfg} {es : List Event} {t t1 t2 : Tree} {c : Option Call} {d : Dir} {cb1 cb2 : Bool}
    (h : Reachable cfg es t) (hd : Dies cfg t c d) (h1 : Restart cfg cb1 d t1) (h2 : Restart cfg cb2 d t2) :
    (∀ k, t1.userGet cfg k = t2.userGet cfg k) ∧ t1.get cfg = t2.get cfg := by
  obtain ⟨_, _, hs, _⟩ := h.world
  obtain ⟨m, hm⟩ := dies_recov hs hd
  have e := (restart_sane hs hm h1).2.trans (restart_sane hs hm h2).2.symm
  exact ⟨fun k => congrFun e _, e⟩

/-- A recovery that dies at any point leaves a directory that can be opened, with the contents an undisturbed recovery gives. -/
theorem C13_recovery_is_crash_safe {cfg : Cfg} {es : List Event} {t t1 : Tree} {c : Option Call} {d d' : Dir} {clearBad : Bool} {ops : List FOp}
    (h : Reachable cfg es t) (hd : Dies cfg t c d) (hz : d.Sized) (h1 : openStore cfg clearBad d = (ops, .ok t1))
    (hc : Dir.Crash d ops d') (hz' : d'.Sized) :
    ∃ ops' t2, openStore cfg clearBad d' = (ops', .ok t2) ∧ t2.get cfg = t1.get cfg := by
  obtain ⟨_, _, hs, _⟩ := h.world
  obtain ⟨m, hm⟩ := dies_recov hs hd
  obtain ⟨ops', d1, t', e1, _, _, _, _, _, _, e2, e3⟩ := hm.openStore (clearBad := clearBad) hz
  rw [h1] at e1
  simp only [Prod.mk.injEq, LRes.ok.injEq] at e1
  obtain ⟨rfl, rfl⟩ := e1
  obtain ⟨ops2, d2, t2, f1, _, _, _, _, _, _, f2, _⟩ := (e3 _ hc).openStore (clearBad := clearBad) hz'
  exact ⟨ops2, t2, f1, f2.trans e2.symm⟩

/-- Reopening an undamaged directory does not change its contents either. -/
theorem C13_open_twice {cfg : Cfg} {es : List Event} {t t1 : Tree} {c : Option Call} {d d1 : Dir} {clearBad : Bool} {ops : List FOp}
    (h : Reachable cfg es t) (hd : Dies cfg t c d) (hz : d.Sized) (h1 : openStore cfg clearBad d = (ops, .ok t1)) (hr : d.run ops = some d1) :
    ∃ ops' t2, openStore cfg clearBad d1 = (ops', .ok t2) ∧ t2.leaves = t1.leaves ∧ t2.get cfg = t1.get cfg := by
  obtain ⟨_, _, hs, _⟩ := h.world
  obtain ⟨m, hm⟩ := dies_recov hs hd
  obtain ⟨ops', d', t', e1, e2, e3, e4, e5, e6, e7, e8, _⟩ := hm.openStore (clearBad := clearBad) hz
  rw [h1] at e1
  simp only [Prod.mk.injEq, LRes.ok.injEq] at e1
  obtain ⟨rfl, rfl⟩ := e1
  rw [hr] at e2
  cases e2
  obtain ⟨ops2, d2, t2, f1, _, _, f2, _, _, _, _, f3⟩ := e3.reopen (clearBad := clearBad) e4 e5 e7 e6
  exact ⟨ops2, t2, f1, f2, f3⟩

/-! ## C29, C30 -/

theorem get_absent {l : OList} {k : Bytes} (h : l.get k = none) : ∀ p ∈ l, p.1 ≠ k := by
  unfold OList.get at h
  rw [Option.map_eq_none_iff, List.find?_eq_none] at h
  intro p hp
  simpa using h p hp

theorem get_split : ∀ {l : OList} {k old : Bytes}, l.get k = some old → ∃ a b, l = a ++ (k, old) :: b
  | [], k, old, h => by simp [OList.get] at h
  | (k', v') :: l, k, old, h => by
    by_cases e : k' = k
    · subst e
      have : v' = old := by simpa [OList.get] using h
      subst this
      exact ⟨[], l, rfl⟩
    · have h' : OList.get l k = some old := by
        unfold OList.get at h ⊢
        rwa [List.find?_cons_of_neg (by simpa using e)] at h
      obtain ⟨a, b, rfl⟩ := get_split h'
      exact ⟨(k', v') :: a, b, rfl⟩

theorem set_mid {a b : OList} {k old v : Bytes} (h : OList.Distinct (a ++ (k, old) :: b)) :
    OList.set (a ++ (k, old) :: b) k v = a ++ (k, v) :: b := by
  have h1 := List.pairwise_append.1 h
  have h2 := List.pairwise_cons.1 h1.2.1
  have hid : ∀ z : OList, (∀ p ∈ z, p.1 ≠ k) → z.map (fun p => if p.1 = k then (k, v) else p) = z := by
    intro z hz
    refine (List.map_congr_left (g := id) ?_).trans (List.map_id _)
    intro p hp; rw [if_neg (hz p hp)]; rfl
  unfold OList.set
  rw [get_mid h, if_pos Option.isSome_some, List.map_append, List.map_cons, hid a (fun p hp => h1.2.2 p hp _ List.mem_cons_self),
    hid b (fun p hp => (h2.1 p hp).symm), if_pos rfl]

theorem get_mem {l : OList} {k v : Bytes} (h : OList.Distinct l) : l.get k = some v ↔ (k, v) ∈ l := by
  constructor
  · intro hg
    obtain ⟨a, b, rfl⟩ := get_split hg
    simp
  · intro hm
    obtain ⟨a, b, rfl⟩ := List.append_of_mem hm
    exact get_mid h

/-- A list after a crash inside a call on it. -/
theorem LI.crash {cfg lk t s op t'} {d : Dir} {clearBad : Bool} (h : LI cfg lk t s) (hd : Dies cfg t (some (.list lk op)) d)
    (hr : Restart cfg clearBad d t') : ∃ x, lCrash s op x ∧ ∀ s', x = some s' → LI cfg lk t' s' := by
  obtain ⟨⟨ex, hs⟩, ha⟩ := h
  obtain ⟨m', p', h1, h2⟩ := dies_exec hs hd
  obtain ⟨h3, h4⟩ := restart_sane hs h2 hr
  obtain ⟨x, h5, h6⟩ := list_crash op ha h1
  exact ⟨x, h5, fun s' e => ⟨⟨false, h3⟩, by rw [h4]; exact h6 s' e⟩⟩

/-- `get_from_list` says what the iteration says. -/
theorem LI.getItem {cfg lk t s ik r t'} (h : LI cfg lk t s) (hc : Calls cfg t (.list lk (.get ik)) r t') (hne : r ≠ .exhausted) :
    r = .ok (.val (s.items.get ik)) := by
  obtain ⟨s', h1, _⟩ := h.step hc hne
  obtain ⟨a, rfl, h2, _⟩ := ok_of_lStep h1 rfl hne
  rw [h2.2]

/-- **C29.** The process dies at any point inside `set_in_list` and the store is opened again. Then `iter_list` shows the items from
before, or those from after the call, and `get_from_list` agrees with it for every item. -/
theorem C29_set_crash {cfg : Cfg} {es : List Event} {t t1 t2 t3 : Tree} {lk ik v : Bytes} {l : List KV} {r : Res Resp} {d : Dir} {clearBad : Bool}
    (h : Reachable cfg es t) (hn : Orderly cfg lk es)
    (h1 : Calls cfg t (.list lk (.iter true)) (.ok (.items l)) t1) (hd : Dies cfg t1 (some (.list lk (.set ik v))) d)
    (hr : Restart cfg clearBad d t2) (h3 : Calls cfg t2 (.list lk (.iter true)) r t3) (hne : r ≠ .exhausted) :
    ∃ l', r = .ok (.items l') ∧
      (l' = l ∨ ((∀ p ∈ l, p.1 ≠ ik) ∧ l' = l ++ [(ik, v)]) ∨ ∃ a b old, l = a ++ (ik, old) :: b ∧ l' = a ++ (ik, v) :: b) ∧
      ∀ ik' r' t4, Calls cfg t3 (.list lk (.get ik')) r' t4 → r' ≠ .exhausted →
        ∃ x, r' = .ok (.val x) ∧ ∀ v', x = some v' ↔ (ik', v') ∈ l' := by
  obtain ⟨s, a1, _⟩ := list_state lk h hn
  obtain ⟨e1, s1, b1, b2, _⟩ := a1.iter h1 (by simp)
  obtain ⟨x, c1, c2⟩ := b1.crash hd hr
  obtain ⟨l', hl', rfl⟩ := c1
  have c3 := c2 _ rfl
  obtain ⟨e2, s3, d1, d2, _⟩ := c3.iter h3 hne
  simp only [OList.dir, if_true, Res.ok.injEq, Resp.items.injEq] at e1 e2
  subst e1
  rw [b2] at hl'
  refine ⟨l', e2, ?_, fun ik' r' t4 hg hne' => ⟨_, d1.getItem hg hne', fun v' => ?_⟩⟩
  · have hdist : s.items.Distinct := a1.distinct
    rcases hl' with rfl | ⟨a, ha, _⟩
    · exact Or.inl rfl
    · rw [b2] at ha
      right
      cases hg : s.items.get ik with
      | none =>
        left
        refine ⟨get_absent hg, ?_⟩
        rw [ha, set_append hg]
      | some old =>
        right
        obtain ⟨a, b, e⟩ := get_split hg
        exact ⟨a, b, old, e, by rw [ha, e]; exact set_mid (e ▸ hdist)⟩
  · rw [d2]
    exact get_mem (show OList.Distinct l' from c3.distinct)

/-- The process dies inside a `set_in_list` of a new item after its record was written: the list is as before. -/
example : ∃ t, Reachable runCfg (XCmd.events [.call (.list [76] (.set [97] [1])) (.ok (.setStatus .createdNew)),
    .call (.list [76] (.iter true)) (.ok (.items [([97], [1])])), .crash (.list [76] (.set [98] [2])) 4,
    .call (.list [76] (.iter true)) (.ok (.items [([97], [1])])), .call (.list [76] (.get [98])) (.ok (.val none)),
    .call (.list [76] (.set [98] [2])) (.ok (.setStatus .createdNew)), .call (.list [76] (.iter true)) (.ok (.items [([97], [1]), ([98], [2])]))]) t :=
  checkX_sound (by decide +kernel)

theorem LI.crashOther {cfg lk t s c t'} {d : Dir} {clearBad : Bool} (h : LI cfg lk t s) (hd : Dies cfg t (some c) d)
    (hr : Restart cfg clearBad d t') (ha : LeavesList cfg lk c) : LI cfg lk t' s := by
  obtain ⟨⟨ex, hs⟩, h2⟩ := h
  obtain ⟨m', p', g1, g2⟩ := dies_exec hs hd
  obtain ⟨g3, g4⟩ := restart_sane hs g2 hr
  have f2 := ((within_call cfg c).exec g1).1
  rw [← g4] at f2
  refine ⟨⟨false, g3⟩, h2.congr (fun k hk => f2 k (fun hk' => ?_))⟩
  cases c with
  | kv k' op => exact user_notL (cfg := cfg) (lk := lk) (k := k') (by rw [← show k = userKey k' from hk']; exact hk)
  | typed k' op => exact typed_notL (cfg := cfg) (lk := lk) (k := k') (by rw [← show k = typedKey k' from hk']; exact hk)
  | list lk' op => exact foot_LL hk' hk (fun e => ha (by rw [e])) ha
  | queue qk op => exact foot_LQ hk hk'

/-- **C29**, other lists: a crash inside a call of another API, or on a list with another hash, changes neither the items nor the length of a
list. -/
theorem C29_other_lists {cfg : Cfg} {es : List Event} {t t0 t1 t2 t3 t4 : Tree} {lk : Bytes} {c : Call} {n : Nat} {l : List KV} {r' r'' : Res Resp}
    {d : Dir} {clearBad : Bool} (h : Reachable cfg es t) (hn : Orderly cfg lk es) (hf : NoFailedList lk es)
    (h0 : Calls cfg t (.list lk .len) (.ok (.num n)) t0) (h1 : Calls cfg t0 (.list lk (.iter true)) (.ok (.items l)) t1)
    (hd : Dies cfg t1 (some c) d) (hr : Restart cfg clearBad d t2) (ha : LeavesList cfg lk c)
    (h3 : Calls cfg t2 (.list lk (.iter true)) r' t3) (hne : r' ≠ .exhausted)
    (h4 : Calls cfg t3 (.list lk .len) r'' t4) (hne' : r'' ≠ .exhausted) : r' = .ok (.items l) ∧ r'' = .ok (.num n) := by
  obtain ⟨s, a1, a2⟩ := list_state lk h hn
  obtain ⟨s0, z1, z2⟩ := a1.step h0 (by simp)
  obtain ⟨x, ex, ⟨y1, m, y2, y3⟩, y4⟩ := ok_of_lStep z1 rfl (by simp)
  obtain ⟨e1, s1, b1, b2, b3⟩ := z2.iter h1 (by simp)
  obtain ⟨e2, s3, c1, c2, c3⟩ := (b1.crashOther hd hr ha).iter h3 hne
  obtain ⟨s4, d1, d2⟩ := c1.step h4 hne'
  obtain ⟨x', rfl, ⟨_, m', w2, w3⟩, _⟩ := ok_of_lStep d1 rfl hne'
  simp only [OList.dir, if_true, Res.ok.injEq, Resp.items.injEq] at e1
  have hcl := a2 hf
  simp only [Res.ok.injEq] at ex
  rw [y2, y3 hcl] at ex
  simp only [Resp.num.injEq] at ex
  refine ⟨by rw [e2, b2, e1]; rfl, ?_⟩
  rw [w2, w3 (c3.trans (b3.trans (y4.trans hcl))), c2, b2, y1, ex]

/-- A crash in the middle of a call on list `M` between two looks at list `L`. -/
example : ∃ t, Reachable runCfg (XCmd.events [.call (.list [76] (.set [97] [1])) (.ok (.setStatus .createdNew)), .call (.list [76] .len) (.ok (.num 1)),
    .call (.list [76] (.iter true)) (.ok (.items [([97], [1])])), .crash (.list [77] (.set [98] [2])) 4,
    .call (.list [76] (.iter true)) (.ok (.items [([97], [1])])), .call (.list [76] .len) (.ok (.num 1))]) t := checkX_sound (by decide +kernel)

/-- **C30 does not hold**: the process dies inside `remove_from_list`; afterwards the item is gone from the iteration, but `get_from_list` still
returns it - and a `set_in_list` of it, acknowledged, remains invisible to the iteration. -/
theorem C30_refuted : ∃ t, Reachable runCfg [.call (.list [76] (.set [97] [1])) (.ok (.setStatus .createdNew)),
    .call (.list [76] (.set [98] [2])) (.ok (.setStatus .createdNew)), .crash (some (.list [76] (.remove [97]))),
    .call (.list [76] (.iter true)) (.ok (.items [([98], [2])])), .call (.list [76] (.get [97])) (.ok (.val (some [1]))),
    .call (.list [76] (.set [97] [9])) (.ok (.setStatus (.prevValue [1]))), .call (.list [76] (.iter true)) (.ok (.items [([98], [2])]))] t :=
  checkX_sound (cs := [.call (.list [76] (.set [97] [1])) (.ok (.setStatus .createdNew)),
    .call (.list [76] (.set [98] [2])) (.ok (.setStatus .createdNew)), .crash (.list [76] (.remove [97])) 4,
    .call (.list [76] (.iter true)) (.ok (.items [([98], [2])])), .call (.list [76] (.get [97])) (.ok (.val (some [1]))),
    .call (.list [76] (.set [97] [9])) (.ok (.setStatus (.prevValue [1]))), .call (.list [76] (.iter true)) (.ok (.items [([98], [2])]))])
    (by decide +kernel)

/-- The item a removing call is about to take out of a list with items `l`, if any. -/
def victim (l : List KV) : LOp → Option Bytes
  | .remove ik => some ik
  | .pop fwd => ((if fwd then l else l.reverse).head?).map Prod.fst
  | _ => none

theorem shows_calls {cfg ex t lk l fwd r t'} (hs : Sane cfg ex t) (h : ShowsList cfg lk l (t.get cfg))
    (hc : Calls cfg t (.list lk (.iter fwd)) r t') : r = .ok (.items (OList.dir l fwd)) ∧ Sane cfg ex t' ∧ t'.get cfg = t.get cfg := by
  obtain ⟨p, h1, h2⟩ := hc
  obtain ⟨h3, h4⟩ := h1.sim hs.ok
  refine ⟨?_, ⟨hs.bound, h3⟩, (nw_list (.iter fwd) rfl).same h4⟩
  have : wp cfg noInv ((iterList cfg lk fwd).tag .items) (t.get cfg) (fun _ r => r = .ok (.items (OList.dir l fwd))) := by
    unfold Prog.tag
    rw [wp_bind']
    refine (h fwd).conseq ?_
    rintro m' r rfl
    exact ⟨trivial, rfl⟩
  exact this.sound h4 h2

theorem getFromList_calls {cfg ex t lk ik r t'} (hs : Sane cfg ex t) (hc : Calls cfg t (.list lk (.get ik)) r t') :
    (t.get cfg (itemKey (cfg.listPh lk) ik) = none → r = .ok (.val none)) ∧
    ∀ v i, t.get cfg (itemKey (cfg.listPh lk) ik) = some (v ++ enc64 i) → r = .ok (.val (some v)) := by
  obtain ⟨p, h1, h2⟩ := hc
  obtain ⟨h3, h4⟩ := h1.sim hs.ok
  constructor
  · intro hm
    have : wp cfg noInv ((getFromList cfg lk ik).tag .val) (t.get cfg) (fun _ r => r = .ok (.val none)) := by
      unfold Prog.tag getFromList
      rw [wp_bind', wp_bind, wp_getRaw]
      refine ⟨trivial, ?_⟩
      dsimp only [seqPost]
      rw [hm]
      exact ⟨trivial, trivial, rfl⟩
    exact this.sound h4 h2
  · intro v i hm
    have : wp cfg noInv ((getFromList cfg lk ik).tag .val) (t.get cfg) (fun _ r => r = .ok (.val (some v))) := by
      unfold Prog.tag getFromList
      rw [wp_bind', wp_bind, wp_getRaw]
      refine ⟨trivial, ?_⟩
      dsimp only [seqPost]
      rw [hm]
      dsimp only
      rw [splitVal_append, wp_bind]
      exact ⟨trivial, trivial, trivial, rfl⟩
    exact this.sound h4 h2

/-- **C30** (partial: the item that is being removed may be gone from the iteration while `get_from_list` still returns it, see `C30_refuted`). The
process dies at any point inside `remove_from_list`, `pop_list_head` or `pop_list_tail`. Then `iter_list` shows the items from before, or
those without the one that was being removed; `get_from_list` gives the same value as before for every other item, and for that
item the old value or none. (With nothing to remove, nothing changes.) -/
theorem C30_remove_crash_partial {cfg : Cfg} {es : List Event} {t t1 t2 t3 : Tree} {lk : Bytes} {op : LOp} {l : List KV} {r : Res Resp} {d : Dir}
    {clearBad : Bool} (h : Reachable cfg es t) (hn : Orderly cfg lk es) (hop : (∃ ik, op = .remove ik) ∨ ∃ fwd, op = .pop fwd)
    (h1 : Calls cfg t (.list lk (.iter true)) (.ok (.items l)) t1) (hd : Dies cfg t1 (some (.list lk op)) d)
    (hr : Restart cfg clearBad d t2) (h3 : Calls cfg t2 (.list lk (.iter true)) r t3) :
    ∃ l', r = .ok (.items l') ∧ (l' = l ∨ ∃ ik, victim l op = some ik ∧ l' = l.filter (fun p => decide (p.1 ≠ ik))) ∧
      ∀ ik' r' t4, Calls cfg t3 (.list lk (.get ik')) r' t4 →
        ∃ x, r' = .ok (.val x) ∧ ((∀ v', x = some v' ↔ (ik', v') ∈ l) ∨ (victim l op = some ik' ∧ x = none)) := by
  obtain ⟨s, a1, _⟩ := list_state lk h hn
  obtain ⟨e1, s1, b1, b2, _⟩ := a1.iter h1 (by simp)
  simp only [OList.dir, if_true, Res.ok.injEq, Resp.items.injEq] at e1
  have hdist : OList.Distinct l := e1 ▸ a1.distinct
  obtain ⟨⟨ex, hs⟩, ha⟩ := b1
  obtain ⟨m', p', g1, g2⟩ := dies_exec hs hd
  obtain ⟨g3, g4⟩ := restart_sane hs g2 hr
  obtain ⟨μ, L, hL, hv, _⟩ := id ha
  have hvl : vis L = l := by rw [hv, b2, e1]
  have hitem : ∀ k, (t1.get cfg (itemKey (cfg.listPh lk) k) = none ∧ ∀ v', (k, v') ∉ l) ∨
      ∃ v i, t1.get cfg (itemKey (cfg.listPh lk) k) = some (v ++ enc64 i) ∧ (k, v) ∈ l := by
    intro k
    rw [hL.items.get_item, ← hvl]
    cases hb : LItems.byKey L k with
    | none =>
      refine Or.inl ⟨rfl, fun v' hm => ?_⟩
      obtain ⟨e, he, hee⟩ := List.mem_map.1 hm
      exact LItems.byKey_none hb e he (by rw [hee])
    | some e =>
      obtain ⟨q1, q2⟩ := LItems.byKey_some hb
      exact Or.inr ⟨e.2.2, e.1, rfl, List.mem_map.2 ⟨e, q1, by rw [← q2]⟩⟩
  have hmid : m' = t1.get cfg ∨ ∃ ik, victim l op = some ik ∧ RemMid cfg lk (t1.get cfg) l ik m' := by
    rcases hop with ⟨ik, rfl⟩ | ⟨fwd, rfl⟩
    · right
      have := listRemove_crash ha g1
      rw [b2, ← e1] at this
      exact ⟨ik, rfl, this⟩
    · rcases listPop_crash ha g1 with e | ⟨e, he, hm⟩
      · exact Or.inl e
      · right
        rw [b2, ← e1] at hm he
        refine ⟨e.1, ?_, hm⟩
        unfold OList.dir at he
        show ((if fwd then l else l.reverse).head?).map Prod.fst = _
        rw [he]; rfl
  have old : ∀ k x, t2.get cfg (itemKey (cfg.listPh lk) k) = t1.get cfg (itemKey (cfg.listPh lk) k) → ∀ r' t4, Calls cfg t3 (.list lk (.get k)) r' t4 →
      Sane cfg false t3 → t3.get cfg = t2.get cfg → r' = .ok (.val x) → ∀ v', x = some v' ↔ (k, v') ∈ l := by
    intro k x hk r' t4 hc hs3 e3 hx v'
    obtain ⟨q1, q2⟩ := getFromList_calls hs3 hc
    rw [e3, hk] at q1 q2
    rcases hitem k with ⟨i1, i2⟩ | ⟨v, i, i1, i2⟩
    · have := q1 i1
      rw [hx] at this
      simp only [Res.ok.injEq, Resp.val.injEq] at this
      subst this
      exact ⟨fun h => (by simp at h), fun h => absurd h (i2 v')⟩
    · have := q2 v i i1
      rw [hx] at this
      simp only [Res.ok.injEq, Resp.val.injEq] at this
      subst this
      rw [Option.some.injEq]
      constructor
      · rintro rfl; exact i2
      · intro hm
        have := (get_mem hdist).2 i2
        rw [(get_mem hdist).2 hm] at this
        simpa using this.symm
  have total : ∀ k r' t4, Calls cfg t3 (.list lk (.get k)) r' t4 → Sane cfg false t3 → (t3.get cfg (itemKey (cfg.listPh lk) k) = none ∨
      ∃ v i, t3.get cfg (itemKey (cfg.listPh lk) k) = some (v ++ enc64 i)) → ∃ x, r' = .ok (.val x) := by
    intro k r' t4 hc hs3 hk
    obtain ⟨q1, q2⟩ := getFromList_calls hs3 hc
    rcases hk with hk | ⟨v, i, hk⟩
    · exact ⟨_, q1 hk⟩
    · exact ⟨_, q2 v i hk⟩
  have hstart : ∀ k, t1.get cfg (itemKey (cfg.listPh lk) k) = none ∨ ∃ v i, t1.get cfg (itemKey (cfg.listPh lk) k) = some (v ++ enc64 i) :=
    fun k => (hitem k).imp (fun h => h.1) (fun ⟨v, i, h, _⟩ => ⟨v, i, h⟩)
  rcases hmid with rfl | ⟨ik, hik, hsh, ho, hv'⟩
  · have hsh : ShowsList cfg lk l (t2.get cfg) := by rw [g4, ← hvl]; exact hL.shows
    obtain ⟨q1, q2, q3⟩ := shows_calls g3 hsh h3
    refine ⟨l, q1, Or.inl rfl, fun k r' t4 hc => ?_⟩
    obtain ⟨x, hx⟩ := total k r' t4 hc q2 (by rw [q3, g4]; exact hstart k)
    exact ⟨x, hx, Or.inl (old k x (by rw [g4]) r' t4 hc q2 q3 hx)⟩
  · have hsh' : ∃ l', (l' = l ∨ l' = OList.erase l ik) ∧ ShowsList cfg lk l' (t2.get cfg) := by
      rw [g4]
      rcases hsh with h | h
      · exact ⟨l, Or.inl rfl, h⟩
      · exact ⟨_, Or.inr rfl, h⟩
    obtain ⟨l', hl', hsh'⟩ := hsh'
    obtain ⟨q1, q2, q3⟩ := shows_calls g3 hsh' h3
    refine ⟨l', q1, hl'.imp id (fun e => ⟨ik, hik, e⟩), fun k r' t4 hc => ?_⟩
    by_cases hk : k = ik
    · subst hk
      rcases hv' with hv' | hv'
      · obtain ⟨x, hx⟩ := total k r' t4 hc q2 (by rw [q3, g4, hv']; exact hstart k)
        exact ⟨x, hx, Or.inl (old k x (by rw [g4]; exact hv') r' t4 hc q2 q3 hx)⟩
      · refine ⟨none, (getFromList_calls q2 hc).1 (by rw [q3, g4]; exact hv'), Or.inr ⟨hik, rfl⟩⟩
    · obtain ⟨x, hx⟩ := total k r' t4 hc q2 (by rw [q3, g4, ho k hk]; exact hstart k)
      exact ⟨x, hx, Or.inl (old k x (by rw [g4]; exact ho k hk) r' t4 hc q2 q3 hx)⟩

/-- The process dies in the middle of a removal after the iteration was looked at; then the iteration and `get_from_list` are asked again. -/
example : ∃ t, Reachable runCfg (XCmd.events [.call (.list [76] (.set [97] [1])) (.ok (.setStatus .createdNew)),
    .call (.list [76] (.set [98] [2])) (.ok (.setStatus .createdNew)), .call (.list [76] (.iter true)) (.ok (.items [([97], [1]), ([98], [2])])),
    .crash (.list [76] (.pop true)) 9, .call (.list [76] (.iter true)) (.ok (.items [([98], [2])])),
    .call (.list [76] (.get [98])) (.ok (.val (some [2])))]) t := checkX_sound (by decide +kernel)

end Candy.Props
