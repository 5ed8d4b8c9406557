import Verif.Proofs.Demo
/-!
# Running calls on concrete contents

An evaluator for calls on a concrete list of pairs. A run of the evaluator (checked by the kernel) yields a history of the
store. Used for the concrete cases beside the theorems, and for the counterexamples to properties the store does not have.
-/
namespace Candy
open Spec

/-- The map with these contents. -/
def ofList (l : List KV) : Map := fun k => (l.find? (fun kv => decide (kv.1 = k))).map Prod.snd

/-- Change of one key. -/
def updList (l : List KV) (k : Bytes) (x : Option Bytes) : List KV :=
  (match x with | none => [] | some v => [(k, v)]) ++ l.filter (fun kv => decide (kv.1 ≠ k))

theorem ofList_upd (l : List KV) (k : Bytes) (x : Option Bytes) : ofList (updList l k x) = Map.upd (ofList l) k x := by
  funext k'
  have hf : ∀ k', k' ≠ k → (l.filter (fun kv => decide (kv.1 ≠ k))).find? (fun kv => decide (kv.1 = k')) = l.find? (fun kv => decide (kv.1 = k')) := by
    intro k' hk'
    induction l with
    | nil => rfl
    | cons a l ih =>
      by_cases e : a.1 = k
      · have : a.1 ≠ k' := fun h => hk' (h ▸ e)
        rw [List.filter_cons_of_neg (by simp [e]), ih, List.find?_cons_of_neg (by simpa using this)]
      · simp only [List.filter_cons, e, ne_eq, not_false_eq_true, decide_true, if_true, List.find?_cons, ih]
  have hn : (l.filter (fun kv => decide (kv.1 ≠ k))).find? (fun kv => decide (kv.1 = k)) = none := by
    rw [List.find?_eq_none]
    intro a ha
    have := (List.mem_filter.1 ha).2
    simpa using this
  unfold ofList updList
  by_cases e : k' = k
  · subst e
    rw [Map.upd_same]
    cases x with
    | none => simp only [List.nil_append, hn]; rfl
    | some v => simp
  · rw [Map.upd_other _ _ e]
    cases x with
    | none => simp only [List.nil_append, hf k' e]
    | some v => simp only [List.singleton_append, List.find?_cons, Ne.symm e, decide_false, hf k' e]

/-- The pairs `get_by_hash` may return, if they are determined by the contents. -/
def byHashList (cfg : Cfg) (l : List KV) (ph : PH) (suf : Bytes) : Option (List KV) :=
  if ph.sig = INVALID_SIG then none
  else match l.filter (fun kv => endsWith kv.1 suf && decide ((cfg.ph kv.1).sig = ph.sig)) with
    | [] => some []
    | [kv] => if cfg.ph kv.1 = ph ∧ ofList l kv.1 = some kv.2 then some [kv] else none
    | _ => none

theorem ofList_mem {l : List KV} {k v : Bytes} (h : ofList l k = some v) : (k, v) ∈ l := by
  unfold ofList at h
  rw [Option.map_eq_some_iff] at h
  obtain ⟨kv, h1, h2⟩ := h
  have h3 := List.find?_some h1
  have h4 := List.mem_of_find?_eq_some h1
  simp only [decide_eq_true_eq] at h3
  rw [← h2, ← h3]; exact h4

theorem byHashList_spec {cfg l ph suf l0} (h : byHashList cfg l ph suf = some l0) {l' : List KV} (hb : ByHash cfg (ofList l) ph suf l') : l' = l0 := by
  unfold byHashList at h
  split at h
  · simp at h
  · rename_i hs
    have hin : ∀ kv ∈ l', kv ∈ l.filter (fun kv => endsWith kv.1 suf && decide ((cfg.ph kv.1).sig = ph.sig)) := by
      intro kv hkv
      rw [List.mem_filter]
      exact ⟨ofList_mem (hb.sound hs kv hkv), by rw [hb.suffix kv hkv, hb.sigs hs kv hkv]; simp⟩
    split at h
    · rename_i e
      simp only [Option.some.injEq] at h
      subst h
      cases l' with
      | nil => rfl
      | cons a l' => have := hin a List.mem_cons_self; rw [e] at this; simp at this
    · rename_i kv e
      split at h
      · rename_i h1
        simp only [Option.some.injEq] at h
        subst h
        have hsuf : endsWith kv.1 suf = true := by
          have : kv ∈ l.filter (fun kv => endsWith kv.1 suf && decide ((cfg.ph kv.1).sig = ph.sig)) := by rw [e]; exact List.mem_singleton.2 rfl
          have := (List.mem_filter.1 this).2
          simp only [Bool.and_eq_true] at this
          exact this.1
        have hmem := hb.complete hs kv.1 kv.2 h1.2 h1.1 hsuf
        have hall : ∀ a ∈ l', a = kv := fun a ha => by have := hin a ha; rw [e] at this; exact List.mem_singleton.1 this
        have hd := hb.distinct hs
        match l', hmem, hall, hd with
        | [a], _, hall, _ => rw [hall a List.mem_cons_self]
        | a :: b :: l', _, hall, hd =>
          have h2 := (List.pairwise_cons.1 hd).1 b List.mem_cons_self
          rw [hall a List.mem_cons_self, hall b (List.mem_cons_of_mem _ List.mem_cons_self)] at h2
          exact absurd rfl h2
      · simp at h
    · simp at h

/-- Run a program on concrete contents: result, contents, number and bytes of insertions. -/
def runP (cfg : Cfg) {α : Type} : Prog α → List KV → Option (Res α × List KV × Nat × Nat)
  | .ret a, l => some (.ok a, l, 0, 0)
  | .err e, l => some (.err e, l, 0, 0)
  | .panic, l => some (.panic, l, 0, 0)
  | .exhausted, l => some (.exhausted, l, 0, 0)
  | .get k f, l => runP cfg (f (ofList l k)) l
  | .ins k v mode f, l => match sizeErr cfg k v with
    | some e => some (.err e, l, 0, 0)
    | none => match runP cfg (f (insertAt (ofList l k) v mode).2) (updList l k (insertAt (ofList l k) v mode).1) with
      | none => none
      | some (r, l', c, b) => some (r, l', c + 1, b + (k.length + v.length))
  | .rem k f, l => runP cfg (f (ofList l k)) (updList l k none)
  | .byHash ph suf f, l => match byHashList cfg l ph suf with
    | none => none
    | some l0 => runP cfg (f l0) l
  | .lock _ f, l => runP cfg f l
  | .unlock f, l => runP cfg f l

theorem runP_cheap {cfg : Cfg} {α : Type} : ∀ (p : Prog α) {l : List KV} {r l' c b}, runP cfg p l = some (r, l', c, b) → Cheap cfg p c b (ofList l) := by
  intro p
  induction p with
  | ret a => intros; trivial
  | err a => intros; trivial
  | panic => intros; trivial
  | exhausted => intros; trivial
  | get k f ih => intro l r l' c b h; exact ih _ h
  | lock i f ih => intro l r l' c b h; exact ih h
  | unlock f ih => intro l r l' c b h; exact ih h
  | rem k f ih =>
    intro l r l' c b h
    have := ih _ h
    rw [ofList_upd] at this
    exact this
  | byHash ph suf f ih =>
    intro l r l' c b h
    unfold runP at h
    split at h
    · simp at h
    · rename_i e
      intro l2 hl2
      rw [byHashList_spec e hl2]
      exact ih _ h
  | ins k v mode f ih =>
    intro l r l' c b h
    unfold runP at h
    unfold Cheap
    cases hs : sizeErr cfg k v with
    | some e => trivial
    | none =>
      rw [hs] at h
      dsimp only at h ⊢
      split at h
      · simp at h
      · rename_i r1 l1 c1 b1 e
        simp only [Option.some.injEq, Prod.mk.injEq] at h
        obtain ⟨rfl, rfl, rfl, rfl⟩ := h
        have := ih _ e
        rw [ofList_upd] at this
        exact ⟨c1, b1, rfl, rfl, this⟩

theorem runP_exec {cfg : Cfg} {α : Type} : ∀ (p : Prog α) {l : List KV} {r l' c b m' p' r'}, runP cfg p l = some (r, l', c, b) →
    AExec cfg (ofList l) p m' p' → p'.result = some r' → r' = r ∧ m' = ofList l' := by
  intro p
  induction p with
  | ret a =>
    intro l r l' c b m' p' r' h hx hr
    cases hx with
    | refl => simp only [runP, Option.some.injEq, Prod.mk.injEq] at h; obtain ⟨rfl, rfl, _⟩ := h; simp [Prog.result] at hr; exact ⟨hr.symm, rfl⟩
    | step h1 => cases h1
  | err a =>
    intro l r l' c b m' p' r' h hx hr
    cases hx with
    | refl => simp only [runP, Option.some.injEq, Prod.mk.injEq] at h; obtain ⟨rfl, rfl, _⟩ := h; simp [Prog.result] at hr; exact ⟨hr.symm, rfl⟩
    | step h1 => cases h1
  | panic =>
    intro l r l' c b m' p' r' h hx hr
    cases hx with
    | refl => simp only [runP, Option.some.injEq, Prod.mk.injEq] at h; obtain ⟨rfl, rfl, _⟩ := h; simp [Prog.result] at hr; exact ⟨hr.symm, rfl⟩
    | step h1 => cases h1
  | exhausted =>
    intro l r l' c b m' p' r' h hx hr
    cases hx with
    | refl => simp only [runP, Option.some.injEq, Prod.mk.injEq] at h; obtain ⟨rfl, rfl, _⟩ := h; simp [Prog.result] at hr; exact ⟨hr.symm, rfl⟩
    | step h1 => cases h1
  | get k f ih =>
    intro l r l' c b m' p' r' h hx hr
    cases hx with
    | refl => simp [Prog.result] at hr
    | step h1 h2 => cases h1; exact ih _ h h2 hr
  | lock k f ih =>
    intro l r l' c b m' p' r' h hx hr
    cases hx with
    | refl => simp [Prog.result] at hr
    | step h1 h2 => cases h1; exact ih h h2 hr
  | unlock f ih =>
    intro l r l' c b m' p' r' h hx hr
    cases hx with
    | refl => simp [Prog.result] at hr
    | step h1 h2 => cases h1; exact ih h h2 hr
  | rem k f ih =>
    intro l r l' c b m' p' r' h hx hr
    cases hx with
    | refl => simp [Prog.result] at hr
    | step h1 h2 => cases h1; rw [← ofList_upd] at h2; exact ih _ h h2 hr
  | byHash ph suf f ih =>
    intro l r l' c b m' p' r' h hx hr
    unfold runP at h
    split at h
    · simp at h
    · rename_i e
      cases hx with
      | refl => simp [Prog.result] at hr
      | step h1 h2 => cases h1 with | byHash _ _ _ l2 hl => rw [byHashList_spec e hl] at h2; exact ih _ h h2 hr
  | ins k v mode f ih =>
    intro l r l' c b m' p' r' h hx hr
    unfold runP at h
    cases hx with
    | refl => simp [Prog.result] at hr
    | step h1 h2 =>
      cases h1 with
      | insErr _ _ _ _ e hs =>
        rw [hs] at h
        simp only [Option.some.injEq, Prod.mk.injEq] at h
        obtain ⟨rfl, rfl, _⟩ := h
        cases h2 with
        | refl => simp [Prog.result] at hr; exact ⟨hr.symm, rfl⟩
        | step h1 => cases h1
      | ins _ _ _ _ hs =>
        rw [hs] at h
        dsimp only at h
        split at h
        · simp at h
        · rename_i r1 l1 c1 b1 e
          simp only [Option.some.injEq, Prod.mk.injEq] at h
          obtain ⟨rfl, rfl, rfl, rfl⟩ := h
          rw [← ofList_upd] at h2
          exact ih _ e h2 hr

/-- The history in which these calls gave these results. -/
def hist (l : List (Call × Res Resp)) : List Event := l.map (fun x => .call x.1 x.2)

/-- Run the calls; they must give these results. Result: contents, number and bytes of insertions. -/
def runHist (cfg : Cfg) : List (Call × Res Resp) → List KV → Option (List KV × Nat × Nat)
  | [], l => some (l, 0, 0)
  | (cl, r) :: cs, l => match runP cfg (cl.prog cfg) l with
    | none => none
    | some (r', l1, c1, b1) => if r' = r ∧ r ≠ .exhausted then match runHist cfg cs l1 with
      | none => none
      | some (l2, c2, b2) => some (l2, c1 + c2, b1 + b2)
      else none

theorem Tiny.hist {cfg : Cfg} : ∀ (cs : List (Call × Res Resp)) {es0 t l c b l' c1 b1}, Tiny cfg es0 t (ofList l) c b →
    runHist cfg cs l = some (l', c1, b1) → c + c1 < 512 → b + b1 ≤ cfg.maxShardSize.toNat →
    ∃ t', Tiny cfg (es0 ++ Candy.hist cs) t' (ofList l') (c + c1) (b + b1) ∧ Run cfg t (Candy.hist cs) t' := by
  intro cs
  induction cs with
  | nil =>
    intro es0 t l c b l' c1 b1 h hr _ _
    simp only [runHist, Option.some.injEq, Prod.mk.injEq] at hr
    obtain ⟨rfl, rfl, rfl⟩ := hr
    exact ⟨t, by simpa [Candy.hist] using h, .nil _⟩
  | cons x cs ih =>
    obtain ⟨cl, r⟩ := x
    intro es0 t l c b l' c1 b1 h hr hc hb
    unfold runHist at hr
    split at hr
    · simp at hr
    · rename_i r0 l1 ca ba e
      split at hr
      · rename_i hne
        split at hr
        · simp at hr
        · rename_i l2 cb bb e2
          simp only [Option.some.injEq, Prod.mk.injEq] at hr
          obtain ⟨rfl, rfl, rfl⟩ := hr
          obtain ⟨r', t', m', g1, g2, p, g3, g4⟩ := h.call cl ca ba (runP_cheap _ e) (by omega) (by omega)
          obtain ⟨rfl, rfl⟩ := runP_exec _ e g3 g4
          obtain ⟨rfl, hne⟩ := hne
          obtain ⟨t2, h2, h3⟩ := ih (g2 hne) e2 (by omega) (by omega)
          refine ⟨t2, ?_, ?_⟩
          · rw [List.append_assoc, Nat.add_assoc, Nat.add_assoc] at h2
            exact h2
          · obtain ⟨p, q1, q2⟩ := g1
            exact .call q1 q2 hne h3
      · simp at hr

/-- The calls, run on a new store, give these results. -/
def checkHist (cfg : Cfg) (cs : List (Call × Res Resp)) : Bool :=
  match runHist cfg cs [] with
  | some (_, c, b) => decide (c < 512) && decide (b ≤ cfg.maxShardSize.toNat) && decide (cfg.expectedKeys ≤ 65536 * 29491)
  | none => false

theorem checkHist_reachable {cfg cs} (h : checkHist cfg cs = true) : ∃ t, Reachable cfg (hist cs) t := by
  unfold checkHist at h
  split at h
  · rename_i l' c b e
    simp only [Bool.and_eq_true, decide_eq_true_eq] at h
    obtain ⟨⟨h2, h3⟩, h4⟩ := h
    obtain ⟨t0, h1⟩ := tiny_new h4
    obtain ⟨t, h5, _⟩ := Tiny.hist cs (l := []) h1 e (by omega) (by omega)
    exact ⟨t, by simpa using h5.reach⟩
  · simp at h

/-- A history can be continued by calls that give these results. -/
theorem checkHist_append {cfg cs ds} (h : checkHist cfg (cs ++ ds) = true) : ∃ t t', Reachable cfg (hist cs) t ∧ Run cfg t (hist ds) t' := by
  obtain ⟨t', t0, h1, h2⟩ := checkHist_reachable h
  have e : hist (cs ++ ds) = hist cs ++ hist ds := by simp [hist]
  rw [e] at h2
  obtain ⟨t, h3, h4⟩ := h2.split
  exact ⟨t, t', ⟨t0, h1, h3⟩, h4⟩

/-- A configuration with a real hash function (FNV-1a). -/
def runCfg : Cfg :=
  { hash := fun b => ⟨b.foldl (fun h x => (h ^^^ BitVec.ofNat 64 x.toNat) * 0x100000001b3#64) 0xcbf29ce484222325#64, 0#64⟩,
    maxShardSize := 67108864, minCompaction := 8388608, expectedKeys := 0, maxListOps := 16 }

end Candy
