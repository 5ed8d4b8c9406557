import Verif.Proofs.History
/-!
# Histories that write less than 4 GiB, and existence of executions
-/
namespace Candy
open Spec

/-- Bytes given to the raw operation a program is about to perform. -/
def Prog.cost {α : Type} : Prog α → Nat
  | .ins k v _ _ => k.length + v.length
  | _ => 0

/-- Execution of a program as `CExec`, without conditions on the size of files, counting the bytes inserted so far. -/
inductive CExecB (cfg : Cfg) {α : Type} : Nat → Tree → Prog α → Nat → Tree → Prog α → Prop
  | refl (n : Nat) (t : Tree) (p : Prog α) : CExecB cfg n t p n t p
  | step {n t p t' p' n'' t'' p''} (h : CStep cfg t p t' p') (hr : CExecB cfg (n + p.cost) t' p' n'' t'' p'') : CExecB cfg n t p n'' t'' p''
  | bg {n : Nat} {t : Tree} {p : Prog α} {t' n'' t'' p''} (sel : Nat) (h : t.bgStep cfg sel = some t')
      (hr : CExecB cfg n t' p n'' t'' p'') : CExecB cfg n t p n'' t'' p''

/-- A history as `Run`, without conditions on the size of files, counting the bytes inserted so far (keys and values of all raw
insertions, including those that overwrite). -/
inductive RunB (cfg : Cfg) : Nat → Tree → List Event → Nat → Tree → Prop
  | nil (n : Nat) (t : Tree) : RunB cfg n t [] n t
  | call {n n' n'' : Nat} {t t' t'' : Tree} {c : Call} {p : Prog Resp} {r : Res Resp} {es : List Event}
      (h : CExecB cfg n t (c.prog cfg) n' t' p) (hr : p.result = some r) (hne : r ≠ .exhausted) (rest : RunB cfg n' t' es n'' t'') :
      RunB cfg n t (.call c r :: es) n'' t''
  | bg {n n'' : Nat} {t t' t'' : Tree} {es : List Event} (sel : Nat) (h : t.bgStep cfg sel = some t')
      (rest : RunB cfg n t' es n'' t'') : RunB cfg n t es n'' t''
  | merge {n n'' : Nat} {t t' t'' : Tree} {es : List Event} {maxFill : Nat} {b : Bool} (hn : ∀ s ∈ t.leaves, s.lo < s.hi)
      (hcap : ∀ t', t.finishAll cfg = some t' → (t'.leaves.map (fun s => s.getStats.numItems)).sum ≤ 65536 * 29491)
      (h : t.mergeSmall cfg maxFill = .ok (t', b)) (rest : RunB cfg n t' es n'' t'') : RunB cfg n t (.merge b :: es) n'' t''
  | clear {n n'' : Nat} {t t' t'' : Tree} {es : List Event} (h : t.clear cfg = some t') (rest : RunB cfg n t' es n'' t'') :
      RunB cfg n t (.clear :: es) n'' t''

theorem CExecB.mono {cfg : Cfg} {α : Type} {n n' : Nat} {t t' : Tree} {p p' : Prog α} (h : CExecB cfg n t p n' t' p') : n ≤ n' := by
  induction h with
  | refl => exact Nat.le_refl _
  | step _ _ ih => omega
  | bg _ _ _ ih => exact ih

theorem RunB.mono {cfg : Cfg} {n n' : Nat} {t t' : Tree} {es} (h : RunB cfg n t es n' t') : n ≤ n' := by
  induction h with
  | nil => exact Nat.le_refl _
  | call h _ _ _ ih => have := h.mono; omega
  | bg _ _ _ ih => exact ih
  | merge _ _ _ _ ih => exact ih
  | clear _ _ ih => exact ih

theorem CStep.pot {cfg : Cfg} {ex : Bool} {α : Type} {t t' : Tree} {p p' : Prog α} (hok : Tree.OK cfg ex 0 END_OF_SHARDS t)
    (hsm : t.Small) (h : CStep cfg t p t' p') : t'.pot ≤ t.pot + p.cost := by
  cases h with
  | get | byHash | lock | unlock => exact Nat.le_add_right _ _
  | insErr => exact Nat.le_add_right _ _
  | ins _ k v mode c st n hs h =>
    have hz := sizeErr_lt hs
    exact Tree.pot_insert (mode := mode) hz.1 hz.2 n t 0 END_OF_SHARDS _ hok hsm (inSpan_full _) h
  | rem k c => exact Tree.pot_remove hok k

theorem CExecB.toExec {cfg : Cfg} {ex : Bool} {α : Type} {n n' : Nat} {t t' : Tree} {p p' : Prog α} (h : CExecB cfg n t p n' t' p') :
    Tree.OK cfg ex 0 END_OF_SHARDS t → t.pot ≤ n → n' < 4294967296 →
    CExec cfg Tree.Small t p t' p' ∧ Tree.OK cfg ex 0 END_OF_SHARDS t' ∧ t'.pot ≤ n' := by
  induction h with
  | refl n t p => exact fun h1 h2 _ => ⟨.refl _ _, h1, h2⟩
  | step h hr ih =>
    intro h1 h2 h3
    have hm := hr.mono
    have hsm := Tree.small_of_pot (Nat.lt_of_le_of_lt h2 (by omega))
    have hp := h.pot h1 hsm
    obtain ⟨a, b, c⟩ := ih (h.sim h1 hsm).1 (by omega) h3
    exact ⟨.step hsm h a, b, c⟩
  | bg sel h hr ih =>
    intro h1 h2 h3
    have hm := hr.mono
    have hsm := Tree.small_of_pot (Nat.lt_of_le_of_lt h2 (by omega))
    have hp := Tree.pot_bg h1 hsm sel h
    obtain ⟨a, b, c⟩ := ih (bg_get h1 hsm h).1 (by omega) h3
    exact ⟨.bg sel hsm h a, b, c⟩

theorem merge_pot {cfg ex t t' maxFill b} (hs : Sane cfg ex t) (hok : MergeOK cfg maxFill t) (h : t.mergeSmall cfg maxFill = .ok (t', b)) :
    t'.pot ≤ t.pot := by
  have key : ∀ ex, Tree.OK cfg ex 0 65536 t → ((ex = true ∧ maxFill ≤ 14745) ∨ t.pot < 4294967296) → t'.pot ≤ t.pot := by
    intro ex ho hf
    rcases Tree.mergeSmall_spec ho hok.spans hok.small hf hok.cap hs.bound (Tree.mergeSmall_counted h) with hd | ⟨u, b', h1, h2, _, _, _, h4, _, h3, _⟩
    · rw [hd] at h; simp at h
    · rw [h1] at h
      injection h with h; injection h with h _; subst h
      exact h4
  rcases hok.fits with ⟨he, hm⟩ | hp
  · exact key true (hs.ok.exact he) (Or.inl ⟨rfl, hm⟩)
  · exact key ex hs.ok (Or.inr hp)

/-- A history that inserts less than 4 GiB in total satisfies the size conditions of `Run`. -/
theorem RunB.toRun_pot {cfg : Cfg} {ex : Bool} {n n' : Nat} {t t' : Tree} {es} (h : RunB cfg n t es n' t') :
    Sane cfg ex t → t.pot ≤ n → n' < 4294967296 → Run cfg t es t' ∧ t'.pot ≤ n' := by
  induction h with
  | nil => exact fun _ h _ => ⟨.nil _, h⟩
  | call h hr hne rest ih =>
    intro h1 h2 h3
    have := rest.mono
    obtain ⟨a, b, c⟩ := h.toExec h1.ok h2 (by omega)
    have := ih ⟨h1.bound, b⟩ c h3
    exact ⟨.call a hr hne this.1, this.2⟩
  | bg sel h rest ih =>
    intro h1 h2 h3
    have := rest.mono
    have hsm := Tree.small_of_pot (Nat.lt_of_le_of_lt h2 (by omega))
    have hp := Tree.pot_bg h1.ok hsm sel h
    have := ih ⟨h1.bound, (bg_get h1.ok hsm h).1⟩ (by omega) h3
    exact ⟨.bg sel hsm h this.1, this.2⟩
  | @merge _ _ t _ _ _ mf _ hn hcap h rest ih =>
    intro h1 h2 h3
    have := rest.mono
    have hok : MergeOK cfg mf t := ⟨Tree.small_of_pot (by omega), hn, Or.inr (by omega), hcap⟩
    have hp := merge_pot h1 hok h
    have := ih (merge_get h1 hok h).1 (by omega) h3
    exact ⟨.merge hok h this.1, this.2⟩
  | clear h rest ih =>
    intro h1 h2 h3
    have hc := (create_sane h).1
    obtain ⟨u, e1, _, _, _, e2, _⟩ := Tree.create_spec h1.bound true
    have e3 : Tree.create cfg = some _ := h
    rw [e1] at e3; simp only [Option.some.injEq] at e3; subst e3
    have := ih ⟨h1.bound, by cases ex with
      | true => exact hc.ok
      | false => exact hc.ok.weaken⟩ (by omega) h3
    exact ⟨.clear h this.1, this.2⟩

theorem RunB.toRun {cfg : Cfg} {ex : Bool} {n n' : Nat} {t t' : Tree} {es} (h : RunB cfg n t es n' t') (h1 : Sane cfg ex t) (h2 : t.pot ≤ n)
    (h3 : n' < 4294967296) : Run cfg t es t' := (h.toRun_pot h1 h2 h3).1

/-- **No size condition is needed** for stores that have been given less than 4 GiB in total. -/
theorem Reachable.of_budget {cfg : Cfg} {t0 t : Tree} {es n} (h0 : Tree.create cfg = some t0) (h : RunB cfg 0 t0 es n t) (hn : n < 4294967296) :
    Reachable cfg es t := by
  obtain ⟨u, e1, _, _, _, e2, _⟩ := Tree.create_spec (create_bound h0) true
  have e3 := h0
  rw [e1] at e3; simp only [Option.some.injEq] at e3; subst e3
  exact ⟨_, h0, h.toRun (create_sane h0).1 (by omega) hn⟩

theorem RunB.pot_le {cfg : Cfg} {t0 t : Tree} {es n} (h0 : Tree.create cfg = some t0) (h : RunB cfg 0 t0 es n t) (hn : n < 4294967296) :
    t.pot ≤ n := by
  obtain ⟨u, e1, _, _, _, e2, _⟩ := Tree.create_spec (create_bound h0) true
  have e3 := h0
  rw [e1] at e3; simp only [Option.some.injEq] at e3; subst e3
  exact (h.toRun_pot (create_sane h0).1 (by omega) hn).2

/-! ## Executions exist -/

/-- The map has at most `c` keys and `b` bytes. -/
def Few (m : Map) (c b : Nat) : Prop := ∀ L : List KV, DistinctKeys L → (∀ kv ∈ L, m kv.1 = some kv.2) → L.length ≤ c ∧ bytesOf L ≤ b

theorem Few.empty : Few Map.empty 0 0 := by
  intro L _ hL
  cases L with
  | nil => exact ⟨Nat.le_refl _, Nat.le_refl _⟩
  | cons a L => have := hL a List.mem_cons_self; simp [Map.empty] at this

theorem DistinctKeys.filter {L : List KV} (h : DistinctKeys L) (p : KV → Bool) : DistinctKeys (L.filter p) := List.Pairwise.filter _ h

theorem Few.split {L : List KV} (hd : DistinctKeys L) (k : Bytes) : ∃ L', DistinctKeys L' ∧ (∀ kv ∈ L', kv ∈ L ∧ kv.1 ≠ k) ∧
    ((L'.length = L.length ∧ bytesOf L' = bytesOf L) ∨ ∃ v, (k, v) ∈ L ∧ L.length = L'.length + 1 ∧ bytesOf L = bytesOf L' + (k.length + v.length)) := by
  induction L with
  | nil => exact ⟨[], .nil, by simp, Or.inl ⟨rfl, rfl⟩⟩
  | cons a L ih =>
    have hd' := List.pairwise_cons.1 hd
    by_cases e : a.1 = k
    · refine ⟨L, hd'.2, fun kv hkv => ⟨List.mem_cons_of_mem _ hkv, fun e' => hd'.1 kv hkv (e.trans e'.symm)⟩, Or.inr ⟨a.2, ?_, by simp, ?_⟩⟩
      · rw [← e]; exact List.mem_cons_self
      · rw [← e]; unfold bytesOf; simp [kvSize]; omega
    · obtain ⟨L', h1, h2, h3⟩ := ih hd'.2
      refine ⟨a :: L', List.pairwise_cons.2 ⟨fun kv hkv => hd'.1 kv (h2 kv hkv).1, h1⟩, ?_, ?_⟩
      · intro kv hkv
        rcases List.mem_cons.1 hkv with rfl | hkv
        · exact ⟨List.mem_cons_self, e⟩
        · exact ⟨List.mem_cons_of_mem _ (h2 kv hkv).1, (h2 kv hkv).2⟩
      · rcases h3 with ⟨h3, h4⟩ | ⟨v, h3, h4, h5⟩
        · left; unfold bytesOf at h4 ⊢; simp [h3, h4]
        · right; refine ⟨v, List.mem_cons_of_mem _ h3, by simp [h4], ?_⟩
          unfold bytesOf at h5 ⊢; simp only [List.map_cons, List.sum_cons]; omega

theorem Few.upd {m : Map} {c b : Nat} (h : Few m c b) (k : Bytes) (x : Option Bytes) (n : Nat) (hx : ∀ v, x = some v → k.length + v.length ≤ n) :
    Few (m.upd k x) (c + 1) (b + n) := by
  intro L hd hL
  obtain ⟨L', h1, h2, h3⟩ := Few.split hd k
  have h4 := h L' h1 (fun kv hkv => by
    have := hL kv (h2 kv hkv).1
    rwa [Map.upd_other _ _ (h2 kv hkv).2] at this)
  rcases h3 with ⟨h3, h5⟩ | ⟨v, h5, h6, h7⟩
  · omega
  · have := hL _ h5
    simp only [Map.upd_same] at this
    have := hx v this
    omega

theorem Few.rem {m : Map} {c b : Nat} (h : Few m c b) (k : Bytes) : Few (m.upd k none) c b := by
  intro L hd hL
  refine h L hd (fun kv hkv => ?_)
  have := hL kv hkv
  by_cases e : kv.1 = k
  · rw [e] at this; simp at this
  · rwa [Map.upd_other _ _ e] at this

/-- The program, run on the ideal map, inserts at most `c` times and `b` bytes. -/
def Cheap (cfg : Cfg) {α : Type} : Prog α → Nat → Nat → Map → Prop
  | .ret _, _, _, _ => True
  | .err _, _, _, _ => True
  | .panic, _, _, _ => True
  | .exhausted, _, _, _ => True
  | .get k f, c, b, m => Cheap cfg (f (m k)) c b m
  | .ins k v mode f, c, b, m => match sizeErr cfg k v with
    | some _ => True
    | none => ∃ c' b', c = c' + 1 ∧ b = b' + (k.length + v.length) ∧ Cheap cfg (f (insertAt (m k) v mode).2) c' b' (m.upd k (insertAt (m k) v mode).1)
  | .rem k f, c, b, m => Cheap cfg (f (m k)) c b (m.upd k none)
  | .byHash ph suf f, c, b, m => ∀ l, ByHash cfg m ph suf l → Cheap cfg (f l) c b m
  | .lock _ f, c, b, m => Cheap cfg f c b m
  | .unlock f, c, b, m => Cheap cfg f c b m

theorem insertAt_size {m : Map} {c b : Nat} (h : Few m c b) (k v : Bytes) (mode : Mode) :
    Few (m.upd k (insertAt (m k) v mode).1) (c + 1) (b + (k.length + v.length)) := by
  have hsame : ∀ x, x = m k → Few (m.upd k x) (c + 1) (b + (k.length + v.length)) := by
    rintro x rfl
    rw [Map.upd_self]
    intro L hd hL; have := h L hd hL; omega
  have hnew : Few (m.upd k (some v)) (c + 1) (b + (k.length + v.length)) :=
    h.upd k _ _ (fun v' e => by simp only [Option.some.injEq] at e; subst e; exact Nat.le_refl _)
  cases hm : m k with
  | none =>
    cases mode with
    | set => exact hnew
    | getOrCreate => exact hnew
    | replace e => exact hsame _ hm.symm
  | some old =>
    cases mode with
    | set => exact hnew
    | getOrCreate => exact hsame _ hm.symm
    | replace e =>
      cases e with
      | none => exact hnew
      | some e =>
        simp only [insertAt]
        split
        · exact hnew
        · exact hsame _ hm.symm

theorem tree_byHash {cfg : Cfg} {ex : Bool} {t : Tree} (hok : Tree.OK cfg ex 0 END_OF_SHARDS t) (ph : PH) (suf : Bytes) :
    ByHash cfg (t.get cfg) ph suf ((t.getByHash ph).filter (fun kv => endsWith kv.1 suf)) := by
  refine ⟨?_, ?_, ?_, fun hs kv hkv => Tree.getByHash_sig hok ph hs (List.mem_filter.1 hkv).1,
    fun hs => List.Pairwise.filter _ (Tree.getByHash_spec hok ph hs).2.2⟩
  · intro kv hkv; exact (List.mem_filter.1 hkv).2
  · intro hs kv hkv; exact (Tree.getByHash_spec hok ph hs).1 kv (List.mem_filter.1 hkv).1
  · intro hs k v hm hp he
    exact List.mem_filter.2 ⟨(Tree.getByHash_spec hok ph hs).2.1 k v hm hp, he⟩

/-- **Executions exist**: a program that inserts little into a store that holds little runs to its end. -/
theorem exists_exec {cfg : Cfg} {ex : Bool} {α : Type} : ∀ (p : Prog α) (t : Tree) (c0 b0 c b : Nat), Tree.OK cfg ex 0 END_OF_SHARDS t →
    Few (t.get cfg) c0 b0 → Cheap cfg p c b (t.get cfg) → c0 + c < 512 → b0 + b ≤ cfg.maxShardSize.toNat → t.pot + b < 4294967296 →
    ∃ t' p' r, CExec cfg Tree.Small t p t' p' ∧ p'.result = some r ∧ Tree.OK cfg ex 0 END_OF_SHARDS t' ∧ Few (t'.get cfg) (c0 + c) (b0 + b) ∧
      t'.pot ≤ t.pot + b := by
  intro p
  induction p with
  | ret a => exact fun t c0 b0 c b hok hf _ _ _ _ => ⟨t, .ret a, _, .refl _ _, rfl, hok, fun L hd hL => by have := hf L hd hL; omega, Nat.le_add_right _ _⟩
  | err e => exact fun t c0 b0 c b hok hf _ _ _ _ => ⟨t, .err e, _, .refl _ _, rfl, hok, fun L hd hL => by have := hf L hd hL; omega, Nat.le_add_right _ _⟩
  | panic => exact fun t c0 b0 c b hok hf _ _ _ _ => ⟨t, .panic, _, .refl _ _, rfl, hok, fun L hd hL => by have := hf L hd hL; omega, Nat.le_add_right _ _⟩
  | exhausted => exact fun t c0 b0 c b hok hf _ _ _ _ => ⟨t, .exhausted, _, .refl _ _, rfl, hok, fun L hd hL => by have := hf L hd hL; omega, Nat.le_add_right _ _⟩
  | get k f ih =>
    intro t c0 b0 c b hok hf hc h1 h2 h3
    obtain ⟨t', p', r, e1, e2⟩ := ih _ t c0 b0 c b hok hf hc h1 h2 h3
    exact ⟨t', p', r, .step (Tree.small_of_pot (by omega)) (.get _ _ _) e1, e2⟩
  | lock i f ih =>
    intro t c0 b0 c b hok hf hc h1 h2 h3
    obtain ⟨t', p', r, e1, e2⟩ := ih t c0 b0 c b hok hf hc h1 h2 h3
    exact ⟨t', p', r, .step (Tree.small_of_pot (by omega)) (.lock _ _ _) e1, e2⟩
  | unlock f ih =>
    intro t c0 b0 c b hok hf hc h1 h2 h3
    obtain ⟨t', p', r, e1, e2⟩ := ih t c0 b0 c b hok hf hc h1 h2 h3
    exact ⟨t', p', r, .step (Tree.small_of_pot (by omega)) (.unlock _ _) e1, e2⟩
  | byHash ph suf f ih =>
    intro t c0 b0 c b hok hf hc h1 h2 h3
    have hsm := Tree.small_of_pot (by omega : t.pot < 4294967296)
    obtain ⟨t', p', r, e1, e2⟩ := ih _ t c0 b0 c b hok hf (hc _ (tree_byHash hok ph suf)) h1 h2 h3
    exact ⟨t', p', r, .step hsm (.byHash _ _ _ _) e1, e2⟩
  | rem k f ih =>
    intro t c0 b0 c b hok hf hc h1 h2 h3
    have hsm := Tree.small_of_pot (by omega : t.pot < 4294967296)
    obtain ⟨a1, a2, a3⟩ := Tree.remove_spec hok (k := k) (inSpan_full _)
    have hg : (t.remove cfg k).1.get cfg = Map.upd (t.get cfg) k none := by funext k'; exact a3 k' (inSpan_full _)
    have hp := Tree.pot_remove hok k
    obtain ⟨t', p', r, e1, e2, e3, e4, e5⟩ := ih (t.remove cfg k).2 (t.remove cfg k).1 c0 b0 c b a1 (hg ▸ hf.rem k)
      (by rw [hg, a2]; exact hc) h1 h2 (by omega)
    exact ⟨t', p', r, .step hsm (.rem _ _ _) e1, e2, e3, e4, by omega⟩
  | ins k v mode f ih =>
    intro t c0 b0 c b hok hf hc h1 h2 h3
    have hsm := Tree.small_of_pot (by omega : t.pot < 4294967296)
    unfold Cheap at hc
    cases hs : sizeErr cfg k v with
    | some e => exact ⟨t, .err e, _, .step hsm (.insErr _ _ _ _ _ _ hs) (.refl _ _), rfl, hok, fun L hd hL => by have := hf L hd hL; omega, Nat.le_add_right _ _⟩
    | none =>
      rw [hs] at hc
      obtain ⟨c', b', rfl, rfl, hc⟩ := hc
      have hz := sizeErr_lt hs
      have hnc : NotCrowded cfg (t.get cfg) 0 k v := by
        refine ⟨?_, Or.inr ?_⟩
        · intro L hd hL
          have := hf L hd (fun kv hkv => (hL kv hkv).1)
          have e : ROW_WIDTH = 512 := rfl
          omega
        · intro L hd hL
          have := hf L hd (fun kv hkv => (hL kv hkv).1)
          omega
      obtain ⟨n, hn⟩ := Tree.insert_terminates (mode := mode) hz.1 hz.2 t 0 END_OF_SHARDS hok hsm (inSpan_full _) hnc
      rcases Tree.insert_spec (mode := mode) (k := k) (v := v) hz.1 hz.2 n t 0 END_OF_SHARDS hok hsm (inSpan_full _) with
        hd | ⟨t2, i1, i2, i3⟩
      · exact absurd hd hn
      · have hg : t2.get cfg = (Map.upd (t.get cfg) k (insertAt (t.get cfg k) v mode).1) := by
          funext k'; exact i3 k' (inSpan_full _)
        have hp := Tree.pot_insert (mode := mode) hz.1 hz.2 n t 0 END_OF_SHARDS _ hok hsm (inSpan_full _) i1
        have hp : t2.pot ≤ t.pot + (k.length + v.length) := hp
        obtain ⟨t', p', r, e1, e2, e3, e4, e5⟩ := ih _ t2 (c0 + 1) (b0 + (k.length + v.length)) c' b' i2 (hg ▸ insertAt_size hf k v mode)
          (by rw [hg]; exact hc) (by omega) (by omega) (by omega)
        refine ⟨t', p', r, .step hsm (.ins _ _ _ _ _ _ _ n hs i1) e1, e2, e3, ?_, by omega⟩
        have q1 : c0 + 1 + c' = c0 + (c' + 1) := by omega
        have q2 : b0 + (k.length + v.length) + b' = b0 + (b' + (k.length + v.length)) := by omega
        rw [q1, q2] at e4
        exact e4

end Candy
