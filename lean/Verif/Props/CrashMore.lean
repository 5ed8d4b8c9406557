import Verif.Proofs.DiscardCrash
import Verif.Props.Crash
import Verif.Props.Iter
/-!
# C51, C56 - C59: clear, queues and crashes, big values and crashes, reopening with other options, further list calls and crashes
-/
namespace Candy.Props
open Candy.Spec

/-! ## C51 -/

/-- **C51.** `clear` succeeds on every reachable store, and the result is a new store: every `get` answers none, the iterations return nothing, the
statistics are zero, the contents of all APIs are empty, and whatever is done with it later is a history of a new store. -/
theorem C51_clear {cfg : Cfg} {es : List Event} {t : Tree} (h : Reachable cfg es t) :
    ∃ t', t.clear cfg = some t' ∧ (∀ k, t'.userGet cfg k = none) ∧ (∀ raw, t'.get cfg raw = none) ∧
      (∀ raw, ∃ N, ∀ n, N ≤ n → It.collect t' n (It.new raw) = []) ∧
      (∃ u st, t'.stats cfg = some (u, st) ∧ st.numEntries = 0 ∧ st.dataBytes = 0) ∧
      (∀ es' t'', Run cfg t' es' t'' → Reachable cfg es' t'') ∧ Reachable cfg (es ++ [.clear]) t' := by
  obtain ⟨_, _, hs, _⟩ := h.world
  obtain ⟨t', h1, _, _, hsm, _, _, _, h8⟩ := Tree.create_spec hs.bound true
  have hr : Reachable cfg [] t' := ⟨t', h1, .nil _⟩
  have hemp : ∀ L : List KV, (∀ k v, (k, v) ∈ L → False) → L = [] := fun L hL => List.eq_nil_iff_forall_not_mem.2 (fun p hp => hL p.1 p.2 hp)
  refine ⟨t', h1, fun k => h8 _, h8, ?_, ?_, fun es' t'' x => ⟨t', h1, x⟩, ?_⟩
  · intro raw
    cases raw with
    | false =>
      obtain ⟨L, ⟨N, hN⟩, _, hm⟩ := C14_iter_exact hr
      have : L = [] := hemp L (fun k v hk => by have := (hm k v).1 hk; rw [Tree.userGet, h8] at this; cases this)
      subst this
      exact ⟨N, hN⟩
    | true =>
      obtain ⟨L, ⟨N, hN⟩, _, hm⟩ := C14_iter_raw_exact hr
      have : L = [] := hemp L (fun k v hk => by have := (hm k v).1 hk; rw [h8] at this; cases this)
      subst this
      exact ⟨N, hN⟩
  · obtain ⟨u, st, g1, _, _, _, _, g2⟩ := C20_stats_exact hr rfl hsm
    obtain ⟨g3, g4⟩ := g2 [] List.Pairwise.nil (fun k v => by rw [h8]; simp)
    exact ⟨u, st, g1, g3, g4⟩
  · obtain ⟨t0, g1, g2⟩ := h
    exact ⟨t0, g1, g2.append (.clear h1 (.nil _))⟩

/-- **C51**, the files: the old files are removed, and those of the new store are there. -/
theorem C51_clear_files {cfg : Cfg} {t t' : Tree} {d : Dir} (hd : DirOf d t.leaves) (h : t.clear cfg = some t') :
    ∃ d', d.run (clearOps cfg d) = some d' ∧ DirOf d' t'.leaves := clear_files hd h

/-- A store with data is cleared and used again. -/
example : ∃ t t', Reachable runCfg [.call (.kv [97] (.set [1])) (.ok (.setStatus .createdNew))] t ∧ t.clear runCfg = some t' := by
  obtain ⟨t, h⟩ := checkX_sound (cfg := runCfg) (cs := [.call (.kv [97] (.set [1])) (.ok (.setStatus .createdNew))]) (by decide +kernel)
  obtain ⟨t', h', _⟩ := C51_clear h
  exact ⟨t, t', h, h'⟩

/-! ## C56 -/

/-- A queue after a crash inside a call on it. -/
theorem QI.crash {cfg qk t s op t'} {d : Dir} {clearBad : Bool} (h : QI cfg qk t s) (hpre : qPre s op) (hr0 : QOp.reads op = false)
    (hd : Dies cfg t (some (.queue qk op)) d) (hr : Restart cfg clearBad d t') :
    ∃ q', (q' = s.dq ∨ (∃ a, qAnswer s op a q') ∨ qPartial s op q') ∧ QI cfg qk t' ⟨q', false, s.used + QOp.cost op⟩ := by
  obtain ⟨⟨ex, hs⟩, ha⟩ := h
  obtain ⟨m', p', h1, h2⟩ := dies_exec hs hd
  obtain ⟨h3, h4⟩ := restart_sane hs h2 hr
  obtain ⟨q', n', g1, g2, g3⟩ := (wp.exec h1 (queue_mid op hpre ha hr0)).inv
  exact ⟨q', g3, ⟨false, h3⟩, n', by rw [h4]; exact g1, by simp, g2⟩

/-- What `iter_queue` shows after a crash inside a call, given what it showed before. -/
theorem queue_crash_shows {cfg : Cfg} {es : List Event} {t t1 t2 t3 : Tree} {qk : Bytes} {op : QOp} {l : List (Nat × Bytes)} {r : Res Resp} {d : Dir}
    {clearBad : Bool} (h : Reachable cfg es t) (hn : NoQRemove qk es) (hf : NoFailedQueue qk es) (hop : ∀ i, op ≠ .remove i)
    (hrd : QOp.reads op = false)
    (h1 : Calls cfg t (.queue qk (.iter true)) (.ok (.elems l)) t1) (hd : Dies cfg t1 (some (.queue qk op)) d)
    (hr : Restart cfg clearBad d t2) (h3 : Calls cfg t2 (.queue qk (.iter true)) r t3) (hne : r ≠ .exhausted) :
    ∃ s q', s.clean = true ∧ s.dq.WF ∧ s.dq.elems = l ∧ r = .ok (.elems q'.elems) ∧
      (q' = s.dq ∨ (∃ a, qAnswer s op a q') ∨ qPartial s op q') := by
  obtain ⟨s, a1, a2⟩ := queue_state qk h hn
  obtain ⟨e1, s1, b1, b2, b3⟩ := a1.iter h1 (by simp)
  have hpre : qPre s1 op := by
    cases op with
    | remove i => exact absurd rfl (hop i)
    | _ => trivial
  obtain ⟨q', c1, c2⟩ := b1.crash hpre hrd hd hr
  obtain ⟨e2, _⟩ := c2.iter h3 hne
  simp only [Deque.dir, if_true, Res.ok.injEq, Resp.elems.injEq] at e1 e2
  exact ⟨s1, q', b3.trans (a2 hf), b1.wf, by rw [b2, e1], e2, c1⟩

/-- **C56.** The process dies at any point inside `push_to_queue_head/tail`, and the store is opened again: `iter_queue` shows the elements
from before, or those with the new element at the end of the queue. -/
theorem C56_push_crash {cfg : Cfg} {es : List Event} {t t1 t2 t3 : Tree} {qk v : Bytes} {pos : QPos} {l : List (Nat × Bytes)} {r : Res Resp} {d : Dir}
    {clearBad : Bool} (h : Reachable cfg es t) (hn : NoQRemove qk es) (hf : NoFailedQueue qk es)
    (h1 : Calls cfg t (.queue qk (.iter true)) (.ok (.elems l)) t1) (hd : Dies cfg t1 (some (.queue qk (.push pos v))) d)
    (hr : Restart cfg clearBad d t2) (h3 : Calls cfg t2 (.queue qk (.iter true)) r t3) (hne : r ≠ .exhausted) :
    r = .ok (.elems l) ∨ ∃ i, match pos with
      | .head => r = .ok (.elems ((i, v) :: l))
      | .tail => r = .ok (.elems (l ++ [(i, v)])) := by
  obtain ⟨s, q', hcl, _, rfl, rfl, hq⟩ := queue_crash_shows h hn hf (by simp) rfl h1 hd hr h3 hne
  rcases hq with rfl | ⟨a, ha⟩ | hp
  · exact Or.inl rfl
  · right
    cases pos with
    | head => exact ⟨_, by rw [ha.1]; rfl⟩
    | tail => exact ⟨_, by rw [ha.1]; rfl⟩
  · left
    cases pos with
    | head =>
      rcases hp with rfl | ⟨hc, _⟩
      · rfl
      · rw [hcl] at hc; cases hc
    | tail =>
      rcases hp with rfl | ⟨hc, _⟩
      · rfl
      · rw [hcl] at hc; cases hc

/-- **C56**, pops: the element is still there, or it is gone; nothing else changes. -/
theorem C56_pop_crash {cfg : Cfg} {es : List Event} {t t1 t2 t3 : Tree} {qk : Bytes} {pos : QPos} {l : List (Nat × Bytes)} {r : Res Resp} {d : Dir}
    {clearBad : Bool} (h : Reachable cfg es t) (hn : NoQRemove qk es) (hf : NoFailedQueue qk es)
    (h1 : Calls cfg t (.queue qk (.iter true)) (.ok (.elems l)) t1) (hd : Dies cfg t1 (some (.queue qk (.pop pos))) d)
    (hr : Restart cfg clearBad d t2) (h3 : Calls cfg t2 (.queue qk (.iter true)) r t3) (hne : r ≠ .exhausted) :
    r = .ok (.elems l) ∨ match pos with
      | .head => r = .ok (.elems l.tail)
      | .tail => r = .ok (.elems l.dropLast) := by
  obtain ⟨s, q', hcl, hw, rfl, rfl, hq⟩ := queue_crash_shows h hn hf (by simp) rfl h1 hd hr h3 hne
  obtain ⟨e1, e2⟩ := popped_elems s.dq hw
  rcases hq with rfl | ⟨a, ha⟩ | hp
  · exact Or.inl rfl
  · right
    cases pos with
    | head => rw [ha.1]; exact congrArg (fun x => Res.ok (Resp.elems x)) e1
    | tail => rw [ha.1]; exact congrArg (fun x => Res.ok (Resp.elems x)) e2
  · right
    cases pos with
    | head => rw [show q' = _ from hp]
    | tail => rw [show q' = _ from hp]

/-- **C56**, `extend_queue`: all of the elements are there, in order at the tail, or none of them. -/
theorem C56_extend_crash {cfg : Cfg} {es : List Event} {t t1 t2 t3 : Tree} {qk : Bytes} {vs : List Bytes} {l : List (Nat × Bytes)} {r : Res Resp} {d : Dir}
    {clearBad : Bool} (h : Reachable cfg es t) (hn : NoQRemove qk es) (hf : NoFailedQueue qk es)
    (h1 : Calls cfg t (.queue qk (.iter true)) (.ok (.elems l)) t1) (hd : Dies cfg t1 (some (.queue qk (.extend vs))) d)
    (hr : Restart cfg clearBad d t2) (h3 : Calls cfg t2 (.queue qk (.iter true)) r t3) (hne : r ≠ .exhausted) :
    r = .ok (.elems l) ∨ ∃ i, r = .ok (.elems (l ++ vs.mapIdx (fun j v => (i + j, v)))) := by
  obtain ⟨s, q', hcl, hw, rfl, rfl, hq⟩ := queue_crash_shows h hn hf (by simp) rfl h1 hd hr h3 hne
  rcases hq with rfl | ⟨a, ha⟩ | hp
  · exact Or.inl rfl
  · right
    exact ⟨s.dq.tailIdx, by rw [ha.1, extend_elems]⟩
  · left
    rw [show q' = _ from hp]
    rfl

/-- **C56**, `discard_queue`: what is left is an end of the queue (elements are removed from the head). -/
theorem C56_discard_crash {cfg : Cfg} {es : List Event} {t t1 t2 t3 : Tree} {qk : Bytes} {l : List (Nat × Bytes)} {r : Res Resp} {d : Dir}
    {clearBad : Bool} (h : Reachable cfg es t) (hn : NoQRemove qk es) (hf : NoFailedQueue qk es)
    (h1 : Calls cfg t (.queue qk (.iter true)) (.ok (.elems l)) t1) (hd : Dies cfg t1 (some (.queue qk .discard)) d)
    (hr : Restart cfg clearBad d t2) (h3 : Calls cfg t2 (.queue qk (.iter true)) r t3) (hne : r ≠ .exhausted) :
    ∃ n, r = .ok (.elems (l.drop n)) := by
  obtain ⟨s, q', hcl, hw, rfl, rfl, hq⟩ := queue_crash_shows h hn hf (by simp) rfl h1 hd hr h3 hne
  rcases hq with rfl | ⟨a, ha⟩ | ⟨n, hp⟩
  · exact ⟨0, rfl⟩
  · exact ⟨s.dq.elems.length, by rw [ha.1, List.drop_length]; rfl⟩
  · exact ⟨n, by rw [hp]⟩

theorem QI.crashOther {cfg qk t s c t'} {d : Dir} {clearBad : Bool} (h : QI cfg qk t s) (hd : Dies cfg t (some c) d)
    (hr : Restart cfg clearBad d t') (ha : LeavesQueue qk c) : QI cfg qk t' s := by
  obtain ⟨⟨ex, hs⟩, h2⟩ := h
  obtain ⟨m', p', g1, g2⟩ := dies_exec hs hd
  obtain ⟨g3, g4⟩ := restart_sane hs g2 hr
  have f2 := ((within_call cfg c).exec g1).1
  rw [← g4] at f2
  refine ⟨⟨false, g3⟩, h2.congr (fun k hk => f2 k (fun hk' => ?_))⟩
  cases c with
  | kv k' op => exact user_notQ (qk := qk) (k := k') (by rw [← show k = userKey k' from hk']; exact hk)
  | typed k' op => exact typed_notQ (qk := qk) (k := k') (by rw [← show k = typedKey k' from hk']; exact hk)
  | list lk op => exact foot_LQ hk' hk
  | queue qk' op => exact foot_QQ hk' hk (fun e => ha (by rw [e]))

/-- **C56**, other queues: a crash inside a call of another API or on another queue changes neither the elements nor the length nor the range of a
queue. -/
theorem C56_other_queues {cfg : Cfg} {es : List Event} {t t1 t2 t3 t4 t5 : Tree} {qk : Bytes} {c : Call} {l : List (Nat × Bytes)} {r r' r'' : Res Resp}
    {d : Dir} {clearBad : Bool} (h : Reachable cfg es t) (hn : NoQRemove qk es) (hf : NoFailedQueue qk es)
    (h1 : Calls cfg t (.queue qk (.iter true)) (.ok (.elems l)) t1)
    (hd : Dies cfg t1 (some c) d) (hr : Restart cfg clearBad d t2) (ha : LeavesQueue qk c)
    (h3 : Calls cfg t2 (.queue qk (.iter true)) r t3) (hne : r ≠ .exhausted)
    (h4 : Calls cfg t3 (.queue qk .len) r' t4) (hne' : r' ≠ .exhausted)
    (h5 : Calls cfg t1 (.queue qk .range) r'' t5) (hne'' : r'' ≠ .exhausted) :
    r = .ok (.elems l) ∧ r' = .ok (.num l.length) ∧
    ∀ rr t6, Calls cfg t2 (.queue qk .range) rr t6 → rr ≠ .exhausted → rr = r'' := by
  obtain ⟨s, a1, a2⟩ := queue_state qk h hn
  obtain ⟨e1, s1, b1, b2, b3⟩ := a1.iter h1 (by simp)
  have b4 := b1.crashOther hd hr ha
  obtain ⟨e2, s3, c1, c2, c3⟩ := b4.iter h3 hne
  obtain ⟨s4, d1, d2⟩ := c1.step h4 hne' trivial
  obtain ⟨x', rfl, ⟨_, m', w2, w3⟩, _⟩ := ok_of_qStep d1 trivial hne'
  simp only [Deque.dir, if_true, Res.ok.injEq, Resp.elems.injEq] at e1
  refine ⟨by rw [e2, b2, e1]; rfl, ?_, fun rr t6 h6 hne6 => ?_⟩
  · rw [w2, w3 (c3.trans (b3.trans (a2 hf))), c2, b2, e1]
  · rw [(b4.range h6 hne6).1, (b1.range h5 hne'').1]

/-- The process dies in `push_to_queue_tail` after the index was reserved, before the element was stored; and in `pop_queue_head` after
the element was removed, before the record was adjusted. -/
example : ∃ t, Reachable runCfg (XCmd.events [.call (.queue [81] (.push .tail [1])) (.ok (.num 9223372036854775808)),
    .call (.queue [81] (.iter true)) (.ok (.elems [(9223372036854775808, [1])])), .crash (.queue [81] (.push .tail [2])) 3,
    .call (.queue [81] (.iter true)) (.ok (.elems [(9223372036854775808, [1])])),
    .call (.queue [81] (.push .tail [3])) (.ok (.num 9223372036854775810)),
    .call (.queue [81] (.iter true)) (.ok (.elems [(9223372036854775808, [1]), (9223372036854775810, [3])])),
    .crash (.queue [81] (.pop .head)) 3,
    .call (.queue [81] (.iter true)) (.ok (.elems [(9223372036854775810, [3])]))]) t := checkX_sound (by decide +kernel)

/-! ## C57 -/

/-- **C57 does not hold**: the process dies inside `set_big` of a key that had a value; afterwards the key has neither the old nor the new value. -/
theorem C57_refuted : ∃ t, Reachable runCfg [.call (.queue [66] (.setBig [1])) (.ok (.flag false)), .call (.queue [66] .getBig) (.ok (.val (some [1]))),
    .crash (some (.queue [66] (.setBig [2]))), .call (.queue [66] .getBig) (.ok (.val none))] t :=
  checkX_sound (cs := [.call (.queue [66] (.setBig [1])) (.ok (.flag false)), .call (.queue [66] .getBig) (.ok (.val (some [1]))),
    .crash (.queue [66] (.setBig [2])) 3, .call (.queue [66] .getBig) (.ok (.val none))]) (by decide +kernel)

theorem getBig_of {s : QState} {cs : List Bytes} (h : s.dq = Deque.empty.extend cs) : (s.dq.elems.map Prod.snd) = cs := by
  rw [h, extend_elems]
  apply List.ext_getElem?
  intro i
  show (((([] : List (Nat × Bytes)) ++ _).map Prod.snd))[i]? = _
  simp only [List.nil_append, List.getElem?_map, List.getElem?_mapIdx]
  cases cs[i]? <;> rfl

/-- **C57** (partial: the old value may be lost, in whole or in its beginning, before the new one is there, see `C57_refuted`). After a crash
inside `set_big` and reopening, `get_big` returns the new value, or an end of the old one, or nothing: never a mixture of the two, and
never a part of the new value. (`w` is the value before: the key had been set with `set_big w`.) -/
theorem C57_set_big_crash_partial {cfg : Cfg} {es : List Event} {t t1 t2 t3 : Tree} {qk v w : Bytes} {r : Res Resp} {d : Dir}
    {clearBad : Bool} (h : Reachable cfg es t) (hn : NoQRemove qk es)
    (h1 : Calls cfg t (.queue qk .getBig) (.ok (.val (some w))) t1) (hd : Dies cfg t1 (some (.queue qk (.setBig v))) d)
    (hr : Restart cfg clearBad d t2) (h3 : Calls cfg t2 (.queue qk .getBig) r t3) (hne : r ≠ .exhausted) :
    ∃ x, r = .ok (.val x) ∧ (x = some v ∨ x = none ∨ ∃ w' n, x = some w' ∧ w' = w.drop n) := by
  obtain ⟨s, a1, a2⟩ := queue_state qk h hn
  obtain ⟨s1, b1, b2⟩ := a1.step h1 (by simp) trivial
  obtain ⟨a, ea, ⟨b3, b4⟩, _⟩ := ok_of_qStep b1 trivial (by simp)
  obtain ⟨q', c1, c2⟩ := b2.crash (op := .setBig v) trivial rfl hd hr
  obtain ⟨s2, d1, d2⟩ := c2.step h3 hne trivial
  obtain ⟨a', rfl, ⟨_, d4⟩, _⟩ := ok_of_qStep d1 trivial hne
  simp only [Res.ok.injEq] at ea
  rw [← ea] at b4
  simp only [Resp.val.injEq] at b4
  refine ⟨_, by rw [d4], ?_⟩
  have old : ∀ n, (if s1.dq.elems.drop n = [] then none else some ((s1.dq.elems.drop n).map Prod.snd).flatten) = none ∨
      ∃ w' k, (if s1.dq.elems.drop n = [] then none else some ((s1.dq.elems.drop n).map Prod.snd).flatten) = some w' ∧ w' = w.drop k := by
    intro n
    split at b4
    · cases b4
    · split
      · exact Or.inl rfl
      · simp only [Option.some.injEq] at b4
        refine Or.inr ⟨_, ((s1.dq.elems.take n).map Prod.snd).flatten.length, rfl, ?_⟩
        have e : w = ((s1.dq.elems.take n).map Prod.snd).flatten ++ ((s1.dq.elems.drop n).map Prod.snd).flatten := by
          rw [← List.flatten_append, ← List.map_append, List.take_append_drop, b4, b3]
        rw [e, List.drop_left]
  show (if q'.elems = [] then none else some (q'.elems.map Prod.snd).flatten) = some v ∨ _
  rcases c1 with rfl | ⟨a, ⟨⟨cs, e1, e2, e3⟩, _⟩⟩ | e | e | ⟨n, e⟩
  · exact Or.inr (old 0)
  · split
    · exact Or.inr (Or.inl rfl)
    · left
      have := getBig_of (s := ⟨q', true, 0⟩) e1
      rw [this, e2]
  · rw [e]; exact Or.inr (Or.inl rfl)
  · rw [e]; exact Or.inr (Or.inl rfl)
  · rw [e]; exact Or.inr (old n)

/-! ## C58 -/

theorem fileOK_other {cfg cfg' : Cfg} {lo hi : Nat} {f : MFile} (hh : cfg'.hash = cfg.hash) (h : FileOK cfg lo hi f) : FileOK cfg' lo hi f := by
  have e : cfg'.ph = cfg.ph := by funext b; unfold Cfg.ph; rw [hh]
  exact ⟨h.ext, by rw [e]; exact h.sig, by rw [e]; exact h.row, by rw [e]; exact h.span, h.inj⟩

theorem treeOK_other {cfg cfg' : Cfg} {ex : Bool} {lo hi : Nat} {t : Tree} (hh : cfg'.hash = cfg.hash) (h : Tree.OK cfg ex lo hi t) :
    Tree.OK cfg' ex lo hi t := by
  induction h with
  | leaf a b c d e => exact .leaf a b c ⟨fileOK_other hh d.src, fun t ht => fileOK_other hh (d.tgt t ht), d.cu, d.fresh⟩ e
  | vertex a _ _ ih1 ih2 => exact .vertex a ih1 ih2

theorem sizeErr_mono {cfg cfg' : Cfg} (hm : cfg.maxShardSize.toNat ≤ cfg'.maxShardSize.toNat) {k v : Bytes} (h : sizeErr cfg k v = none) :
    sizeErr cfg' k v = none := by
  unfold sizeErr at h ⊢
  split at h
  · cases h
  · split at h
    · cases h
    · split at h
      · cases h
      · rw [if_neg (by omega), if_neg (by omega), if_neg (by omega)]

theorem mabs_other {cfg cfg' : Cfg} {m : Map} {w : World} (hh : cfg'.hash = cfg.hash) (hm : cfg.maxShardSize.toNat ≤ cfg'.maxShardSize.toNat)
    (h : MAbs cfg m w) : MAbs cfg' m w := by
  have e : cfg'.ph = cfg.ph := by funext b; unfold Cfg.ph; rw [hh]
  have e' : cfg'.listPh = cfg.listPh := by funext b; unfold Cfg.listPh; rw [e]
  refine ⟨h.kv, h.typed, fun lk s hs => ?_, fun qk s hs => ?_⟩
  · obtain ⟨μ, L, h1, h2, h3, h4⟩ := h.lists lk s hs
    refine ⟨μ, L, ⟨?_, h1.record, h1.nil, h1.tail_lt, h1.cnt, h1.span, h1.bnd, fun x hx => sizeErr_mono hm (h1.fit x hx)⟩, h2, h3, h4⟩
    have hi := h1.items
    rw [e']
    exact ⟨hi.sorted, hi.lt, hi.item, by rw [e]; exact hi.chain, hi.only, by rw [e]; exact hi.chainVal,
      fun x hx => sizeErr_mono hm (hi.fits x hx), fun x => sizeErr_mono hm (hi.chainFits x)⟩
  · obtain ⟨n, h1, h2, h3⟩ := h.queues qk s hs
    exact ⟨n, ⟨h1.wf, h1.record, h1.tail_lt, h1.cnt, h1.item, fun a b hab => sizeErr_mono hm (h1.fit a b hab)⟩, h2, h3⟩

theorem tree_get_other {cfg cfg' : Cfg} (hh : cfg'.hash = cfg.hash) (t : Tree) : t.get cfg' = t.get cfg := by
  have e : cfg'.ph = cfg.ph := by funext b; unfold Cfg.ph; rw [hh]
  funext k
  unfold Tree.get
  rw [e]

/-- **C58.** A store is closed and opened again with other options, but the same hash seed (the options do not matter otherwise: shard
size, compaction threshold, expected number of keys - if creation does not panic for it, C49 -, number of list locks). Opening
succeeds, the contents are the same, and later calls answer as an ideal map with these contents; if the shard size is not smaller than before, all APIs
go on as the ideal store `w` reached by the history so far. -/
theorem C58_other_options {cfg cfg' : Cfg} {es : List Event} {t u : Tree} (hh : cfg'.hash = cfg.hash) (hk : cfg'.expectedKeys ≤ 65536 * 29491)
    (hr : Reachable cfg es t) (hsm : t.Small) (hn : ∀ s ∈ t.leaves, s.lo < s.hi) (hu : t.finishAll cfg = some u) (clearBad : Bool) (d : Dir)
    (hd : DirOf d u.leaves) :
    ∃ ops d' t', openStore cfg' clearBad d = (ops, .ok t') ∧ d.run ops = some d' ∧ DirOf d' t'.leaves ∧
      (∀ k, t'.userGet cfg' k = t.userGet cfg k) ∧ t'.get cfg' = t.get cfg ∧
      (∀ es' t'', Run cfg' t' es' t'' → LikeIdealMap cfg' (t.userGet cfg) es') ∧
      (cfg.maxShardSize.toNat ≤ cfg'.maxShardSize.toNat → ∃ w, SpecRun cfg World.new es w ∧
        ∀ es' t'', Run cfg' t' es' t'' → ∃ w', SpecRun cfg' w es' w') := by
  obtain ⟨w, hw, hs, hm⟩ := hr.world
  obtain ⟨u', e1, e2, e3, e4, e5, e6⟩ := Tree.finishAll_spec hs.ok hsm
  rw [hu] at e1; cases e1
  have hun : u.NonDegenerate := by
    intro s hs
    have : (s.lo, s.hi) ∈ u.leaves.map (fun s => (s.lo, s.hi)) := List.mem_map_of_mem (f := fun s : Shard => (s.lo, s.hi)) hs
    rw [e5, List.mem_map] at this
    obtain ⟨s', h1, h2⟩ := this
    have := hn s' h1
    simp only [Prod.mk.injEq] at h2
    omega
  obtain ⟨ops, d', t', f1, f2, f3, f4, f5, f6, f7, f8, f9⟩ := hd.reopen (cfg := cfg') (clearBad := clearBad) (treeOK_other hh e2) hun e4 e3
  have eg : t'.get cfg' = t.get cfg := by
    rw [f9, tree_get_other hh]; funext k; exact e6 k (inSpan_full _)
  have hs' : Sane cfg' false t' := ⟨hk, f5⟩
  refine ⟨ops, d', t', f1, f2, f3, fun k => congrFun eg _, eg, fun es' t'' hrun => ?_, fun hmx => ⟨w, hw, fun es' t'' hrun => ?_⟩⟩
  · have hab : MAbs cfg' (t'.get cfg') ⟨t.userGet cfg, fun k => t.get cfg (typedKey k), fun _ => none, fun _ => none⟩ := by
      rw [eg]; exact ⟨fun _ => rfl, fun _ => rfl, by simp, by simp⟩
    obtain ⟨w', g1, _⟩ := hrun.refines false _ hs' hab
    exact specRun_likeIdealMap g1
  · obtain ⟨w', g1, _⟩ := hrun.refines false w hs' (by rw [eg]; exact mabs_other hh hmx hm)
    exact ⟨w', g1⟩

/-- A store with data that is ready to be closed and reopened, and options that differ in everything but the hash. -/
example : ∃ (cfg' : Cfg) (t u : Tree) (d : Dir), cfg'.hash = runCfg.hash ∧ cfg'.maxShardSize ≠ runCfg.maxShardSize ∧
    Reachable runCfg [.call (.kv [97] (.set [1])) (.ok (.setStatus .createdNew)), .call (.kv [97] .get) (.ok (.val (some [1])))] t ∧
    t.Small ∧ (∀ s ∈ t.leaves, s.lo < s.hi) ∧ t.finishAll runCfg = some u ∧ DirOf d u.leaves := by
  obtain ⟨t, t0, h1, h2⟩ : ∃ t, Reachable runCfg ([.call (.kv [97] (.set [1])) (.ok (.setStatus .createdNew)),
      .call (.kv [97] .get) (.ok (.val (some [1])))] ++ [.reopen]) t :=
    checkX_sound (cs := [.call (.kv [97] (.set [1])) (.ok (.setStatus .createdNew)), .call (.kv [97] .get) (.ok (.val (some [1]))), .reopen])
      (by decide +kernel)
  obtain ⟨t1, h3, h4⟩ := h2.split
  have key : ∀ {a es b}, Run runCfg a es b → es = [.reopen] → Reachable runCfg [.call (.kv [97] (.set [1])) (.ok (.setStatus .createdNew)),
      .call (.kv [97] .get) (.ok (.val (some [1])))] a → ∃ (t u : Tree) (d : Dir),
      Reachable runCfg [.call (.kv [97] (.set [1])) (.ok (.setStatus .createdNew)), .call (.kv [97] .get) (.ok (.val (some [1])))] t ∧
      t.Small ∧ (∀ s ∈ t.leaves, s.lo < s.hi) ∧ t.finishAll runCfg = some u ∧ DirOf d u.leaves := by
    intro a es b h
    induction h with
    | nil => intro e; cases e
    | call => intro e; cases e
    | bg sel hs h _ ih =>
      rintro e ⟨x, y, z⟩
      have := z.append (.bg sel hs h (.nil _))
      rw [List.append_nil] at this
      exact ih e ⟨x, y, this⟩
    | merge => intro e; cases e
    | clear => intro e; cases e
    | reopen hs hn hu hd _ _ _ => intro _ hr; exact ⟨_, _, _, hr, hs, hn, hu, hd⟩
    | crash => intro e; cases e
  obtain ⟨t, u, d, g⟩ := key h4 rfl ⟨t0, h1, h3⟩
  exact ⟨{ runCfg with maxShardSize := runCfg.maxShardSize + 1, minCompaction := 0, expectedKeys := 1000000, maxListOps := 1 }, t, u, d, rfl,
    by decide +kernel, g⟩

/-! ## C59 -/

/-- **C59 does not hold** for `compact_list_if_needed`: the process dies inside it, and items of the list are gone from the iteration. -/
theorem C59_refuted_compact : ∃ t, Reachable runCfg [.call (.list [76] (.set [97] [1])) (.ok (.setStatus .createdNew)),
    .call (.list [76] (.set [98] [2])) (.ok (.setStatus .createdNew)), .call (.list [76] (.set [99] [3])) (.ok (.setStatus .createdNew)),
    .call (.list [76] (.remove [98])) (.ok (.val (some [2]))), .crash (some (.list [76] (.compact ⟨1, fun _ _ => false⟩))),
    .call (.list [76] (.iter true)) (.ok (.items []))] t :=
  checkX_sound (cs := [.call (.list [76] (.set [97] [1])) (.ok (.setStatus .createdNew)),
    .call (.list [76] (.set [98] [2])) (.ok (.setStatus .createdNew)), .call (.list [76] (.set [99] [3])) (.ok (.setStatus .createdNew)),
    .call (.list [76] (.remove [98])) (.ok (.val (some [2]))), .crash (.list [76] (.compact ⟨1, fun _ _ => false⟩)) 12,
    .call (.list [76] (.iter true)) (.ok (.items []))]) (by decide +kernel)

/-- **C59 does not hold** for `set_in_list_promoting`: the process dies inside it, and the item is gone. -/
theorem C59_refuted_promoting : ∃ t, Reachable runCfg [.call (.list [76] (.set [97] [1])) (.ok (.setStatus .createdNew)),
    .call (.list [76] (.set [98] [2])) (.ok (.setStatus .createdNew)), .crash (some (.list [76] (.setPromoting [97] [9]))),
    .call (.list [76] (.iter true)) (.ok (.items [([98], [2])])), .call (.list [76] (.get [97])) (.ok (.val none))] t :=
  checkX_sound (cs := [.call (.list [76] (.set [97] [1])) (.ok (.setStatus .createdNew)),
    .call (.list [76] (.set [98] [2])) (.ok (.setStatus .createdNew)), .crash (.list [76] (.setPromoting [97] [9])) 6,
    .call (.list [76] (.iter true)) (.ok (.items [([98], [2])])), .call (.list [76] (.get [97])) (.ok (.val none))]) (by decide +kernel)

/-- **C59 does not hold** for `discard_list`: a part of the list remains. -/
theorem C59_refuted_discard : ∃ t, Reachable runCfg [.call (.list [76] (.set [97] [1])) (.ok (.setStatus .createdNew)),
    .call (.list [76] (.set [98] [2])) (.ok (.setStatus .createdNew)), .crash (some (.list [76] .discard)),
    .call (.list [76] (.iter true)) (.ok (.items [([98], [2])]))] t :=
  checkX_sound (cs := [.call (.list [76] (.set [97] [1])) (.ok (.setStatus .createdNew)),
    .call (.list [76] (.set [98] [2])) (.ok (.setStatus .createdNew)), .crash (.list [76] .discard) 5,
    .call (.list [76] (.iter true)) (.ok (.items [([98], [2])]))]) (by decide +kernel)

/-- Helper: the answer of `get_from_list` as determined by the stored item. -/
theorem get_calls_of {cfg ex t lk k x i r t'} (hs : Sane cfg ex t) (hc : Calls cfg t (.list lk (.get k)) r t')
    (hk : t.get cfg (itemKey (cfg.listPh lk) k) = x.map (fun v => v ++ enc64 i)) : r = .ok (.val x) := by
  obtain ⟨q1, q2⟩ := getFromList_calls hs hc
  cases x with
  | none => exact q1 hk
  | some v => exact q2 v i hk

theorem item_state {cfg : Cfg} {t : Tree} {lk : Bytes} {s : LState} (ha : ListAbs cfg (t.get cfg) lk s) (k : Bytes) :
    ∃ i, t.get cfg (itemKey (cfg.listPh lk) k) = (s.items.get k).map (fun v => v ++ enc64 i) := by
  obtain ⟨μ, L, h1, h2, _⟩ := ha
  rw [h1.items.get_item, ← h2, vis_get]
  cases hb : LItems.byKey L k with
  | none => exact ⟨0, rfl⟩
  | some e => exact ⟨e.1, rfl⟩

/-- **C59** (partial, `compact_list_if_needed`: the iteration may have lost items, see `C59_refuted_compact`). After a crash at any point inside
`compact_list_if_needed`, `get_from_list` answers for every item of the list as before. -/
theorem C59_compact_crash_partial {cfg : Cfg} {es : List Event} {t t1 t2 t3 : Tree} {lk k : Bytes} {par : CompactParams} {l : List KV} {r : Res Resp}
    {d : Dir} {clearBad : Bool} (h : Reachable cfg es t) (hn : Orderly cfg lk es)
    (h1 : Calls cfg t (.list lk (.iter true)) (.ok (.items l)) t1) (hd : Dies cfg t1 (some (.list lk (.compact par))) d)
    (hr : Restart cfg clearBad d t2) (h3 : Calls cfg t2 (.list lk (.get k)) r t3) :
    ∃ x, r = .ok (.val x) ∧ ∀ v, x = some v ↔ (k, v) ∈ l := by
  obtain ⟨s, a1, _⟩ := list_state lk h hn
  obtain ⟨e1, s1, b1, b2, _⟩ := a1.iter h1 (by simp)
  simp only [OList.dir, if_true, Res.ok.injEq, Resp.items.injEq] at e1
  have hdist : OList.Distinct l := e1 ▸ a1.distinct
  obtain ⟨⟨ex, hs⟩, ha⟩ := b1
  obtain ⟨m', p', g1, g2⟩ := dies_exec hs hd
  obtain ⟨g3, g4⟩ := restart_sane hs g2 hr
  obtain ⟨i, hi⟩ := item_state ha k
  rw [b2, ← e1] at hi
  have hit := listCompact_crash ha g1 k
  rw [← g4] at hit
  refine ⟨OList.get l k, ?_, fun v => get_mem hdist⟩
  cases hg : OList.get l k with
  | none => rw [hg] at hi; exact get_calls_of (i := 0) g3 h3 (hit.1 hi)
  | some v =>
    rw [hg] at hi
    obtain ⟨j, hj⟩ := hit.2 v i hi
    exact get_calls_of (i := j) g3 h3 hj

/-- **C59** (partial, `set_in_list_promoting`: the item itself may be gone, see `C59_refuted_promoting`). After a crash at any point inside
`set_in_list_promoting(k, v)` the iteration shows the items before, or these without `k`, or those with `(k, v)` at the end; every other item is as before, through
`get_from_list` too. -/
theorem C59_promoting_crash_partial {cfg : Cfg} {es : List Event} {t t1 t2 t3 : Tree} {lk ik v : Bytes} {l : List KV} {r : Res Resp}
    {d : Dir} {clearBad : Bool} (h : Reachable cfg es t) (hn : Orderly cfg lk es)
    (h1 : Calls cfg t (.list lk (.iter true)) (.ok (.items l)) t1) (hd : Dies cfg t1 (some (.list lk (.setPromoting ik v))) d)
    (hr : Restart cfg clearBad d t2) (h3 : Calls cfg t2 (.list lk (.iter true)) r t3) :
    ∃ l', r = .ok (.items l') ∧
      (l' = l ∨ l' = l.filter (fun p => decide (p.1 ≠ ik)) ∨ l' = l.filter (fun p => decide (p.1 ≠ ik)) ++ [(ik, v)]) ∧
      ∀ k r' t4, k ≠ ik → Calls cfg t3 (.list lk (.get k)) r' t4 → ∃ x, r' = .ok (.val x) ∧ ∀ v, x = some v ↔ (k, v) ∈ l := by
  obtain ⟨s, a1, _⟩ := list_state lk h hn
  obtain ⟨e1, s1, b1, b2, _⟩ := a1.iter h1 (by simp)
  simp only [OList.dir, if_true, Res.ok.injEq, Resp.items.injEq] at e1
  have hdist : OList.Distinct l := e1 ▸ a1.distinct
  obtain ⟨⟨ex, hs⟩, ha⟩ := b1
  obtain ⟨m', p', g1, g2⟩ := dies_exec hs hd
  obtain ⟨g3, g4⟩ := restart_sane hs g2 hr
  have hc := listPromote_crash ha g1
  rw [b2, ← e1] at hc
  have hshow : ∃ l', (l' = l ∨ l' = OList.erase l ik ∨ l' = OList.erase l ik ++ [(ik, v)]) ∧ ShowsList cfg lk l' (t2.get cfg) ∧
      ∀ k, k ≠ ik → ∃ i, t2.get cfg (itemKey (cfg.listPh lk) k) = (OList.get l k).map (fun v => v ++ enc64 i) := by
    rw [g4]
    rcases hc with ⟨hsh, ho, _⟩ | ⟨μ, L, hL, hv⟩
    · have ho' : ∀ k, k ≠ ik → ∃ i, m' (itemKey (cfg.listPh lk) k) = (OList.get l k).map (fun v => v ++ enc64 i) := by
        intro k hk
        obtain ⟨i, hi⟩ := item_state ha k
        rw [b2, ← e1] at hi
        exact ⟨i, by rw [ho k hk, hi]⟩
      rcases hsh with hsh | hsh
      · exact ⟨_, Or.inl rfl, hsh, ho'⟩
      · exact ⟨_, Or.inr (Or.inl rfl), hsh, ho'⟩
    · refine ⟨vis L, Or.inr hv, hL.shows, fun k hk => ?_⟩
      have hgk : OList.get (vis L) k = OList.get l k := by
        have he : OList.get (OList.erase l ik) k = OList.get l k := by
          unfold OList.get OList.erase
          rw [List.find?_filter]
          congr 2
          funext p
          by_cases hp : p.1 = k
          · simp [hp, hk]
          · simp [hp]
        rcases hv with hv | hv
        · rw [hv, he]
        · rw [hv]
          unfold OList.get at he ⊢
          rw [List.find?_append, Option.map_or, he]
          simp [Ne.symm hk]
      rw [hL.items.get_item, ← hgk, vis_get]
      cases hb : LItems.byKey L k with
      | none => exact ⟨0, rfl⟩
      | some e => exact ⟨e.1, rfl⟩
  obtain ⟨l', hl', hsh, hit⟩ := hshow
  obtain ⟨q1, q2, q3⟩ := shows_calls g3 hsh h3
  refine ⟨l', q1, hl', fun k r' t4 hk hg => ?_⟩
  obtain ⟨i, hi⟩ := hit k hk
  exact ⟨OList.get l k, get_calls_of (i := i) q2 hg (by rw [q3]; exact hi), fun v => get_mem hdist⟩

/-- **C59** (partial, `discard_list`: a part of the list may remain, see `C59_refuted_discard`). After a crash at any point inside `discard_list` the iteration shows a
final part of the list: the discarded items are the first ones. `get_from_list` still answers for the items of the final part, and for none of the others, except that the last of
the discarded ones may still be there (with its value). -/
theorem C59_discard_crash_partial {cfg : Cfg} {es : List Event} {t t1 t2 t3 : Tree} {lk : Bytes} {l : List KV} {r : Res Resp}
    {d : Dir} {clearBad : Bool} (h : Reachable cfg es t) (hn : Orderly cfg lk es)
    (h1 : Calls cfg t (.list lk (.iter true)) (.ok (.items l)) t1) (hd : Dies cfg t1 (some (.list lk .discard)) d)
    (hr : Restart cfg clearBad d t2) (h3 : Calls cfg t2 (.list lk (.iter true)) r t3) :
    ∃ gone l', l = gone ++ l' ∧ r = .ok (.items l') ∧
      ∀ k r' t4, Calls cfg t3 (.list lk (.get k)) r' t4 → ∃ x, r' = .ok (.val x) ∧ (∀ v, x = some v → (k, v) ∈ l) ∧
        (∀ v, (k, v) ∈ l' → x = some v) ∧ ∀ v, (k, v) ∈ gone.dropLast → x = none := by
  obtain ⟨s, a1, _⟩ := list_state lk h hn
  obtain ⟨e1, s1, b1, b2, _⟩ := a1.iter h1 (by simp)
  simp only [OList.dir, if_true, Res.ok.injEq, Resp.items.injEq] at e1
  have hdist : OList.Distinct l := e1 ▸ a1.distinct
  obtain ⟨⟨ex, hs⟩, ha⟩ := b1
  obtain ⟨m', p', g1, g2⟩ := dies_exec hs hd
  obtain ⟨g3, g4⟩ := restart_sane hs g2 hr
  obtain ⟨L, hL, P, R, hPR, hsh, hk, hp, hor⟩ := listDiscard_crash ha g1
  rw [b2, ← e1] at hL
  rw [← g4] at hsh hk hp hor
  have hvis : ∀ X : List Entry, vis X = X.map Prod.snd := fun _ => rfl
  have hll : l = vis P ++ vis R := by rw [hL, hPR, hvis, hvis, hvis, List.map_append]
  obtain ⟨q1, q2, q3⟩ := shows_calls g3 hsh h3
  refine ⟨vis P, vis R, hll, by rw [q1]; rfl, fun k r' t4 hg => ?_⟩
  -- what `get_from_list` finds
  obtain ⟨i, hi⟩ := item_state ha k
  rw [b2, ← e1] at hi
  rcases hor k with ho | ho
  · refine ⟨OList.get l k, get_calls_of (i := i) q2 hg (by rw [q3, ho]; exact hi), fun v hv => (get_mem hdist).1 hv, fun v hv => ?_, fun v hv => ?_⟩
    · exact (get_mem hdist).2 (by rw [hll]; exact List.mem_append_right _ hv)
    · rw [hvis, ← List.map_dropLast] at hv
      obtain ⟨e, he, hev⟩ := List.mem_map.1 hv
      have hz := hp e he
      rw [hev, ho, hi] at hz
      cases hx : OList.get l k with
      | none => rfl
      | some y => rw [hx] at hz; cases hz
  · refine ⟨none, get_calls_of (i := 0) q2 hg (by rw [q3]; exact ho), (fun v hv => by cases hv), fun v hv => ?_, fun v hv => rfl⟩
    obtain ⟨e, he, hev⟩ := List.mem_map.1 (hvis R ▸ hv)
    have hz := hk e he
    have hg' : OList.get l k = some v := (get_mem hdist).2 (by rw [hll]; exact List.mem_append_right _ hv)
    rw [hev, ho, hi, hg'] at hz
    cases hz

end Candy.Props
