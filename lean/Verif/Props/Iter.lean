import Verif.Proofs.Iter
import Verif.Proofs.TreeRunner
import Verif.Proofs.Demo
/-!
# C14 - C16, C20, C48: iteration and statistics
-/
namespace Candy.Props
open Candy.Spec

/-! ## C14 -/

theorem show_user_mem {l : List KV} {k v : Bytes} : (k, v) ∈ l.filterMap (It.show false) ↔ (userKey k, v) ∈ l := by
  rw [List.mem_filterMap]
  constructor
  · rintro ⟨kv, h1, h2⟩
    unfold It.show at h2
    rw [if_neg (by simp)] at h2
    by_cases he : endsWith kv.1 USER_NS = true
    · rw [if_pos he] at h2
      obtain ⟨p, hp⟩ := endsWith_iff.1 he
      simp only [Option.some.injEq, Prod.mk.injEq] at h2
      have : kv.1.take (kv.1.length - USER_NS.length) = p := by rw [hp]; simp
      rw [this] at h2
      have e : kv = (userKey k, v) := by
        rw [← h2.1, ← h2.2]; unfold userKey; rw [← hp]
      exact e ▸ h1
    · rw [if_neg he] at h2; cases h2
  · intro h
    refine ⟨_, h, ?_⟩
    unfold It.show
    rw [if_neg (by simp), if_pos (show endsWith (userKey k) USER_NS = true from endsWith_iff.2 ⟨k, rfl⟩)]
    simp [userKey]

theorem show_user_distinct {l : List KV} (h : DistinctKeys l) : DistinctKeys (l.filterMap (It.show false)) := by
  induction l with
  | nil => exact List.Pairwise.nil
  | cons a l ih =>
    rw [DistinctKeys, List.pairwise_cons] at h
    have ih := ih h.2
    rw [List.filterMap_cons]
    cases hs : It.show false a with
    | none => exact ih
    | some kv =>
      refine List.pairwise_cons.2 ⟨?_, ih⟩
      intro b hb e
      have hb' := (show_user_mem (k := b.1) (v := b.2)).1 hb
      have ha := (show_user_mem (l := [a]) (k := kv.1) (v := kv.2)).1 (by rw [List.filterMap_cons, hs]; simp)
      rw [List.mem_singleton] at ha
      refine h.1 _ hb' ?_
      rw [← ha, e]

theorem filterMap_show_raw (l : List KV) : l.filterMap (It.show true) = l := by
  induction l with
  | nil => rfl
  | cons a l ih => rw [List.filterMap_cons, ih]; rfl

/-- **C14.** In every reachable store that is not modified meanwhile, calling `next` on `iter()` until it returns `None` yields a list `L`
without repeated keys, which contains a pair iff `get` returns it; so every pair of the key-value API once, and nothing else. -/
theorem C14_iter_exact {cfg : Cfg} {es : List Event} {t : Tree} (h : Reachable cfg es t) :
    ∃ L : List KV, (∃ N, ∀ n, N ≤ n → It.collect t n (It.new false) = L) ∧ L.Pairwise (fun a b => a.1 ≠ b.1) ∧
      ∀ k v, (k, v) ∈ L ↔ t.userGet cfg k = some v := by
  obtain ⟨w, _, hs, _⟩ := h.world
  refine ⟨t.pairs.filterMap (It.show false), ⟨(It.rest t (It.new false)).length + 1, fun n hn => ?_⟩, show_user_distinct hs.ok.pairs_distinct, fun k v => ?_⟩
  · have := It.collect_spec hs.ok n _ (It.OK.new hs.ok false) (Nat.lt_of_succ_le hn)
    rw [this, It.rest_new hs.ok]
  · rw [show_user_mem, hs.ok.mem_pairs]; rfl

theorem iter_raw_of_ok {cfg : Cfg} {ex : Bool} {t : Tree} (hs : Sane cfg ex t) :
    ∃ L : List KV, (∃ N, ∀ n, N ≤ n → It.collect t n (It.new true) = L) ∧ L.Pairwise (fun a b => a.1 ≠ b.1) ∧
      ∀ k v, (k, v) ∈ L ↔ t.get cfg k = some v := by
  refine ⟨t.pairs, ⟨(It.rest t (It.new true)).length + 1, fun n hn => ?_⟩, hs.ok.pairs_distinct, fun k v => hs.ok.mem_pairs⟩
  have := It.collect_spec hs.ok n _ (It.OK.new hs.ok true) (Nat.lt_of_succ_le hn)
  rw [this, It.rest_new hs.ok, filterMap_show_raw]

/-- **C14**, `iter_raw`: every stored pair (of all APIs, with its full key) exactly once. -/
theorem C14_iter_raw_exact {cfg : Cfg} {es : List Event} {t : Tree} (h : Reachable cfg es t) :
    ∃ L : List KV, (∃ N, ∀ n, N ≤ n → It.collect t n (It.new true) = L) ∧ L.Pairwise (fun a b => a.1 ≠ b.1) ∧
      ∀ k v, (k, v) ∈ L ↔ t.get cfg k = some v := by
  obtain ⟨w, _, hs, _⟩ := h.world
  exact iter_raw_of_ok hs

/-- Not vacuous: a store with one pair, which is what is returned. -/
example : ∃ es t, Reachable demoCfg es t ∧ ∃ N, ∀ n, N ≤ n → It.collect t n (It.new false) = [([97], [98])] := by
  obtain ⟨es, t, h, _, m, ht, hm⟩ := demo_ab
  obtain ⟨L, hL, hd, hmem⟩ := C14_iter_exact h
  have hall : ∀ k v, (k, v) ∈ L → k = [97] ∧ v = [98] := by
    intro k v hkv
    rw [hmem] at hkv
    unfold Tree.userGet at hkv
    rw [ht.get, hm] at hkv
    by_cases e : k = [97]
    · subst e; rw [Map.upd_same] at hkv; simp only [Option.some.injEq] at hkv; exact ⟨rfl, hkv.symm⟩
    · rw [Map.upd_other _ _ (fun x => e (userKey_inj x))] at hkv; cases hkv
  have hin : (([97], [98]) : KV) ∈ L := by
    rw [hmem]; unfold Tree.userGet; rw [ht.get, hm, Map.upd_same]
  have : L = [([97], [98])] := by
    match L, hd, hin, hall with
    | [a], _, hin, _ => simp at hin; rw [hin]
    | a :: b :: l, hd, _, hall =>
      have ha := hall a.1 a.2 (by simp)
      have hb := hall b.1 b.2 (by simp)
      rw [List.pairwise_cons] at hd
      exact absurd (ha.1.trans hb.1.symm) (hd.1 b (by simp))
  exact ⟨es, t, h, this ▸ hL⟩

/-! ## C15 -/

/-- **C15**, as long as the iterator has not returned `None`: after `n` calls of `next`, all of which returned an item, the iterator
made from the cookie returns exactly the items not yet returned. Missing: the cookie of an exhausted iterator (see `C15_refuted`). -/
theorem C15_resume_partial {cfg : Cfg} {es : List Event} {t : Tree} (h : Reachable cfg es t) :
    ∃ L : List KV, (∃ N, ∀ m, N ≤ m → It.collect t m (It.new false) = L) ∧ ∀ n, n ≤ L.length →
      ∃ N, ∀ m, N ≤ m → It.collect t m (It.fromCookie (It.after t n (It.new false)).cookie false) = L.drop n := by
  obtain ⟨w, _, hs, _⟩ := h.world
  have hnew := It.OK.new hs.ok false
  refine ⟨It.rest t (It.new false), ⟨_, fun m hm => It.collect_spec hs.ok m _ hnew (Nat.lt_of_succ_le hm)⟩, fun n hn => ?_⟩
  obtain ⟨h1, h2, h3, h4⟩ := It.after_spec hs.ok n _ hnew (by decide) hn
  have e := It.fromCookie_cookie h1 h2
  rw [show (It.after t n (It.new false)).raw = false from h4] at e
  rw [e]
  exact ⟨_, fun m hm => by rw [It.collect_spec hs.ok m _ h1 (Nat.lt_of_succ_le hm), h3]⟩

/-- **C15 is false at the end of the iteration**: in *every* reachable store, once the iterator has returned `None`, its cookie makes an
iterator that starts again from the beginning - it returns everything a second time (the cookie keeps only 16 bits of the shard
selector, which is then 65536). -/
theorem C15_refuted {cfg : Cfg} {es : List Event} {t : Tree} (h : Reachable cfg es t) :
    ∃ L : List KV, (∃ N, ∀ m, N ≤ m → It.collect t m (It.new false) = L) ∧
      (It.step t (It.after t L.length (It.new false))).2 = none ∧
      ∃ N, ∀ m, N ≤ m → It.collect t m (It.fromCookie (It.after t (L.length + 1) (It.new false)).cookie false) = L := by
  obtain ⟨w, _, hs, _⟩ := h.world
  have hnew := It.OK.new hs.ok false
  refine ⟨It.rest t (It.new false), ⟨_, fun m hm => It.collect_spec hs.ok m _ hnew (Nat.lt_of_succ_le hm)⟩, ?_⟩
  obtain ⟨h1, h2, h3, h4⟩ := It.after_spec hs.ok _ _ hnew (by decide) (Nat.le_refl _)
  have hst := It.step_spec hs.ok h1
  rw [h3, List.drop_length] at hst
  refine ⟨hst.1, ?_⟩
  rw [It.after_succ, hst.2, if_pos h2, if_pos h2, show (It.after t _ (It.new false)).raw = false from h4, It.cookie_exhausted]
  exact ⟨_, fun m hm => It.collect_spec hs.ok m _ hnew (Nat.lt_of_succ_le hm)⟩

/-! ## C16 -/

/-- An iteration, from a state of the iterator until it returns `None`, during which the store goes through a history: the pairs
returned and the events. -/
inductive Iteration (cfg : Cfg) : Tree → It → List KV → List Event → Tree → Prop
  | next {t t' : Tree} {it it' : It} {kv : KV} {kvs : List KV} {es : List Event} (h : It.step t it = (it', some kv))
      (rest : Iteration cfg t it' kvs es t') : Iteration cfg t it (kv :: kvs) es t'
  | done {t : Tree} {it it' : It} (h : It.step t it = (it', none)) : Iteration cfg t it [] [] t
  | change {t t1 t' : Tree} {it : It} {kvs : List KV} {es es' : List Event} (h : Run cfg t es t1) (rest : Iteration cfg t1 it kvs es' t') :
      Iteration cfg t it kvs (es ++ es') t'

/-- No event may have changed the value of `k`: no key-value call on `k`, no `clear`. -/
def Untouched (k : Bytes) (es : List Event) : Prop :=
  ∀ e ∈ es, (∀ op, e.begun ≠ some (.kv k op)) ∧ e ≠ .clear

/-- The configuration of the counterexample: all keys collide, compaction after one wasted byte. -/
def iterCfg : Cfg := { hash := fun _ => ⟨0#64, 0#64⟩, maxShardSize := 1000, minCompaction := 1, expectedKeys := 0, maxListOps := 16 }

def iterScript1 : List Cmd := [.call (.kv [97] (.set [1])), .call (.kv [98] (.set [2])), .call (.kv [99] (.set [3]))]
def iterScript2 : List Cmd := [.call (.kv [97] .remove), .call (.kv [98] .remove), .call (.kv [100] (.set [4])), .bg 0]

def iterCheck (t t' : Tree) : Bool :=
  let r1 := It.step t (It.new false)
  let r2 := It.step t r1.1
  decide (r1.2 = some ([97], [1]) ∧ r2.2 = some ([98], [2]) ∧ (It.step t' r2.1).2 = none ∧
    t.userGet iterCfg [99] = some [3] ∧ t'.userGet iterCfg [99] = some [3])

set_option maxRecDepth 100000 in
theorem iter_run : checkT2 iterCfg iterScript1 iterScript2 iterCheck = true := by decide +kernel

theorem iter_events {n : Nat} {t : Tree} {n' : Nat} {t' : Tree} {es : List Event} (h : runT iterCfg iterScript2 n t = some (n', t', es)) :
    Untouched [99] es := by
  have key : ∀ (cs : List Cmd) (n : Nat) (t : Tree) {n' t' es}, runT iterCfg cs n t = some (n', t', es) →
      (∀ c ∈ cs, ∀ op, c ≠ .call (.kv [99] op)) → Untouched [99] es := by
    intro cs
    induction cs with
    | nil => intro n t n' t' es h _ e he; cases h; simp at he
    | cons c cs ih =>
      intro n t n' t' es h hc
      have hc' : ∀ c ∈ cs, ∀ op, c ≠ .call (.kv [99] op) := fun x hx => hc x (List.mem_cons_of_mem _ hx)
      cases c with
      | bg sel =>
        unfold runT at h
        cases he : t.bgStep iterCfg sel with
        | none => rw [he] at h; cases h
        | some t1 => rw [he] at h; exact ih _ _ h hc'
      | call c =>
        obtain ⟨t1, r, es1, n1, e1, e2⟩ : ∃ t1 r es1 n1, es = .call c r :: es1 ∧ runT iterCfg cs n1 t1 = some (n', t', es1) := by
          unfold runT at h
          cases he : (c.prog iterCfg).execT iterCfg n t with
          | none => rw [he] at h; cases h
          | some x =>
            obtain ⟨n1, t1, r⟩ := x
            rw [he] at h
            have k2 : (match runT iterCfg cs n1 t1 with | none => none | some (n'', t'', es) => some (n'', t'', Event.call c r :: es)) =
                some (n', t', es) → ∃ t1 r es1 n1, es = .call c r :: es1 ∧ runT iterCfg cs n1 t1 = some (n', t', es1) := by
              intro h
              cases hq : runT iterCfg cs n1 t1 with
              | none => rw [hq] at h; cases h
              | some y =>
                obtain ⟨n2, t2, es2⟩ := y
                rw [hq] at h
                cases h
                exact ⟨_, _, _, _, rfl, hq⟩
            cases r with
            | exhausted => cases h
            | ok a => exact k2 h
            | err a => exact k2 h
            | panic => exact k2 h
        subst e1
        intro e he
        rcases List.mem_cons.1 he with rfl | he
        · refine ⟨fun op e => ?_, by simp⟩
          simp only [Event.begun, Option.some.injEq] at e
          exact hc (.call c) (by simp) op (by rw [e])
        · exact ih _ _ e2 hc' e he
  refine key _ _ _ h ?_
  intro c hc op
  simp only [iterScript2, List.mem_cons, List.not_mem_nil, or_false] at hc
  rcases hc with rfl | rfl | rfl | rfl <;> simp

/-- **C16 is false.** There is a reachable store with a key `c`, and an iteration of it during which `a` and `b` are removed, `d` is set
and the background thread compacts one row, such that `c` is never returned although it was there all the time with the same value
and no call touched it. (Compacting a row moves its entries to lower columns, behind the iterator.) -/
theorem C16_refuted : ∃ (cfg : Cfg) (es0 : List Event) (t : Tree) (kvs : List KV) (es : List Event) (t' : Tree),
    Reachable cfg es0 t ∧ Iteration cfg t (It.new false) kvs es t' ∧
    ∃ k v, t.userGet cfg k = some v ∧ t'.userGet cfg k = some v ∧ Untouched k es ∧ ∀ kv ∈ kvs, kv.1 ≠ k := by
  obtain ⟨es, t, es', t', h1, h2, h3, t0, n, n', _, _, h4⟩ := checkT2_sound iter_run
  unfold iterCheck at h3
  simp only [decide_eq_true_eq] at h3
  obtain ⟨g1, g2, g3, g4, g5⟩ := h3
  have pe : ∀ x : It × Option KV, x = (x.1, x.2) := fun x => rfl
  refine ⟨iterCfg, es, t, [([97], [1]), ([98], [2])], es', t', h1, ?_, [99], [3], g4, g5, iter_events h4, ?_⟩
  · refine .next ((pe _).trans (by rw [g1])) (.next ((pe _).trans (by rw [g2])) ?_)
    have := Iteration.change (es' := []) h2 (.done ((pe _).trans (by rw [g3])))
    rw [List.append_nil] at this
    exact this
  · intro kv hkv
    simp only [List.mem_cons, List.not_mem_nil, or_false] at hkv
    rcases hkv with rfl | rfl <;> decide

/-! ## C20 -/

/-- Size of a set of stored pairs. -/
def totalBytes (l : List KV) : Nat := (l.map (fun kv => kv.1.length + kv.2.length)).sum

/-- The counters of a well-formed tree. -/
theorem stats_of_sane {cfg : Cfg} {t : Tree} (hs : Sane cfg true t) (hsm : t.Small) :
    ∃ t' st, t.stats cfg = some (t', st) ∧ t'.get cfg = t.get cfg ∧ st.numRemovals ≤ st.numInserts ∧ st.wasted ≤ st.occupied ∧
      st.numShards = t.leaves.length ∧
      ∀ L : List KV, L.Pairwise (fun a b => a.1 ≠ b.1) → (∀ k v, (k, v) ∈ L ↔ t.get cfg k = some v) →
        st.numEntries = L.length ∧ st.dataBytes = totalBytes L := by
  obtain ⟨t', h1, h2, h3, h4, h5, h6⟩ := Tree.finishAll_spec hs.ok hsm
  have hg : t'.get cfg = t.get cfg := funext fun k => h6 k (inSpan_full _)
  obtain ⟨e1, e2, e3⟩ := sumStats_spec (cfg := cfg) t'.leaves (fun s hm => ⟨h4 s hm, (h2.leaf_inv s hm).2⟩)
  refine ⟨t', _, by unfold Tree.stats; rw [h1]; rfl, hg, by omega, by omega, ?_, fun L hL hmem => ?_⟩
  · have := congrArg List.length h5
    simp only [List.length_map] at this
    rw [e1, this]
  · have hp : L.Perm t'.pairs := distinct_perm hL h2.pairs_distinct (fun kv => by
      rw [h2.mem_pairs, hg]; exact hmem kv.1 kv.2)
    unfold Stats.numEntries Stats.dataBytes
    rw [e2, e3, hp.length_eq]
    refine ⟨by show _ = (t'.leaves.flatMap Shard.pairs).length; omega, ?_⟩
    have : totalBytes L = bytesOf t'.pairs := (hp.map _).sum_nat
    rw [this]
    show _ = bytesOf (t'.leaves.flatMap Shard.pairs)
    omega

/-- **C20.** In every reachable store whose process has not crashed since its creation or last `clear`, `stats()` succeeds and does not change the contents; the counters do not underflow, `num_entries()` is
the number of stored pairs and `data_bytes()` their total size. `L` is any list of the stored pairs without repetition. -/
theorem C20_stats_exact {cfg : Cfg} {es : List Event} {t : Tree} (h : Reachable cfg es t) (hx : exactAfter true es = true) (hsm : t.Small) :
    ∃ t' st, t.stats cfg = some (t', st) ∧ t'.get cfg = t.get cfg ∧ st.numRemovals ≤ st.numInserts ∧ st.wasted ≤ st.occupied ∧
      st.numShards = t.leaves.length ∧
      ∀ L : List KV, L.Pairwise (fun a b => a.1 ≠ b.1) → (∀ k v, (k, v) ∈ L ↔ t.get cfg k = some v) →
        st.numEntries = L.length ∧ st.dataBytes = totalBytes L := by
  obtain ⟨w, _, hs, _⟩ := h.worldEx
  rw [hx] at hs
  exact stats_of_sane hs hsm

/-- Such a list `L` always exists (that of `C14_iter_raw_exact`), so the theorem says something about every store; here: one pair of 3 bytes. -/
example : ∃ es t, Reachable demoCfg es t ∧ ∃ t' st, t.stats demoCfg = some (t', st) ∧ st.numEntries = 1 ∧ st.dataBytes = 3 := by
  obtain ⟨es, t, h, _, m, ht, hm⟩ := demo_ab
  have hsm : t.Small := Tree.small_of_pot (Nat.lt_of_le_of_lt ht.pot (by decide))
  obtain ⟨t', st, h1, _, _, _, _, h2⟩ := C20_stats_exact h ht.exact hsm
  refine ⟨es, t, h, t', st, h1, h2 [(userKey [97], [98])] (by simp) ?_⟩
  intro k v
  rw [ht.get, hm, List.mem_singleton, Prod.mk.injEq]
  by_cases e : k = userKey [97]
  · subst e; rw [Map.upd_same]; simp [eq_comm]
  · rw [Map.upd_other _ _ e]; simp [e, Map.empty]

/-! ## C48 -/

/-- The ideal answer: each reading returns the last 8 of the events reported since the previous reading, oldest first. -/
def idealReads {T : Type} : List T → List (REvent T) → List (List T)
  | _, [] => []
  | l, .report x :: es => idealReads (l ++ [x]) es
  | l, .read :: es => l.drop (l.length - 8) :: idealReads [] es

/-- **C48.** For every sequence of reported events and calls of `stats()`, each call returns the most recent (at most 8) events since the
previous call, oldest first (`N = 8`, src/stats.rs:140-141; `d` is `T::default()`). -/
theorem C48_last_events {T : Type} (d : T) (es : List (REvent T)) : Ring.reads 8 d (Ring.clear d) es = idealReads [] es := by
  suffices H : ∀ (es : List (REvent T)) (l : List T), Ring.reads 8 d (l.foldl (Ring.push 8) (Ring.clear d)) es = idealReads l es from H es []
  intro es
  induction es with
  | nil => intro l; rfl
  | cons e es ih =>
    intro l
    cases e with
    | report x =>
      have := ih (l ++ [x])
      rw [List.foldl_append] at this
      exact this
    | read =>
      unfold Ring.reads idealReads
      rw [Ring.toList_spec (by decide), ← ih []]
      rfl

/-- Not vacuous: ten reports, of which the last eight are returned; then the buffer is empty. -/
example : Ring.reads 8 0 (Ring.clear 0) ([1, 2, 3, 4, 5, 6, 7, 8, 9, 10].map REvent.report ++ [.read, .read]) = [[3, 4, 5, 6, 7, 8, 9, 10], []] := by
  decide

end Candy.Props
