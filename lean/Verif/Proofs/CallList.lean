import Verif.Proofs.CallKv
/-!
# List calls refine the ideal store
-/
namespace Candy
open Spec LItems

theorem ListFits_of {cfg lk ik v} (h : listFits cfg lk ik v) : ListFits cfg lk ik v := by
  obtain ⟨h1, h2, h3, h4, h5⟩ := h
  refine ⟨?_, ?_, ?_⟩ <;> rw [sizeErr_none]
  · rw [listKey_length, encMeta_length]
    have e1 : MAX_TOTAL_KEY_SIZE = 16383 := rfl
    have e2 : MAX_TOTAL_VALUE_SIZE = 65535 := rfl
    omega
  · rw [chainKey_length, enc64_length]
    have e1 : MAX_TOTAL_KEY_SIZE = 16383 := rfl
    have e2 : MAX_TOTAL_VALUE_SIZE = 65535 := rfl
    omega
  · rw [itemKey_length, List.length_append, enc64_length]
    have e1 : MAX_TOTAL_KEY_SIZE = 16383 := rfl
    have e2 : MAX_TOTAL_VALUE_SIZE = 65535 := rfl
    omega

/-- Outcome of a list call: the ideal list makes the step, nothing outside the list changes. -/
def LOut (cfg : Cfg) (m : Map) (lk : Bytes) (s : LState) (op : LOp) (m' : Map) (r : Res Resp) : Prop :=
  ∃ s', lStep cfg lk s op r s' ∧ (r ≠ .exhausted → SameOutside (LFoot cfg lk) m m' ∧ ListAbs cfg m' lk s')

theorem Used.full {μ : Option Meta} {n : Nat} (h : Used μ n) (hf : Full μ) : 9223372036854775808 ≤ n + 1 := by
  obtain ⟨x, hx, h1⟩ := hf
  have := h x hx
  have e : U64 = 18446744073709551616 := rfl
  have e' : FIRST_IDX = 9223372036854775808 := rfl
  omega

theorem LOut.ofOk {cfg m lk s op m'} {a : Resp} {μ : Option Meta} {L : List Entry} {μ' : Option Meta} {L' : List Entry}
    (hcl : s.clean = true → Exact μ L) (hu : Used μ s.used)
    (hs : SameOutside (LFoot cfg lk) m m') (hrep : LRep cfg m' lk μ' L') {c : Nat} (hev : Evolves c μ L μ' L') (hc : c ≤ LOp.cost s.items op)
    (ha : lAnswer s op a (vis L')) : LOut cfg m lk s op m' (.ok a) := by
  refine ⟨⟨vis L', s.clean, s.used + LOp.cost s.items op⟩, ⟨ha, rfl, rfl⟩, fun _ => ⟨hs, μ', L', hrep, rfl, ?_, ?_⟩⟩
  · intro h; exact hev.1 (hcl h)
  · intro x hx; have := hev.2 _ hu x hx; dsimp only; omega

theorem set_append {l : OList} {k v : Bytes} (h : l.get k = none) : l.set k v = l ++ [(k, v)] := by
  unfold OList.set; rw [h]; rfl

theorem get_erase (l : OList) (k : Bytes) : (l.erase k).get k = none := by
  unfold OList.get OList.erase
  rw [Option.map_eq_none_iff, List.find?_eq_none]
  intro p hp
  have := (List.mem_filter.1 hp).2
  simpa using this

set_option maxHeartbeats 1000000 in
/-- The outcome of an insertion, in terms of the tagged answer. -/
theorem wp_insertOut {cfg m lk μ L s op ik v mode} {α : Type} {f : α → Resp} {g : ListIns → Prog α} (h : LRep cfg m lk μ L) (hvis : vis L = s.items)
    (hcl : s.clean = true → Exact μ L) (hu : Used μ s.used) (hcost : LOp.cost s.items op = 1)
    (hst : LOp.stores? s.items op = some (ik, v, s.items))
    (hg : ∀ l' st, InsResult s.items ik v mode l' st → ∃ a, g st = .ret a ∧ lAnswer s op (f a) l') :
    wp cfg noInv ((do let st ← insertToList cfg lk ik v mode; g st).tag f) m (LOut cfg m lk s op) := by
  apply wp_tag
  rw [wp_bind]
  unfold insertToList
  rw [wp_withLock]
  refine (wp.mono (I' := noInv) (fun _ _ => trivial) (wp_insertToListBody ik v mode h) ?_)
  rintro m' r ⟨hs, hr⟩
  cases r with
  | ok st =>
    obtain ⟨μ', L', h1, h2, h3⟩ := hr
    rw [hvis] at h3
    obtain ⟨a, h4, h5⟩ := hg _ _ h3
    show wp cfg noInv (g st) m' _
    rw [h4]
    exact ⟨trivial, trivial, LOut.ofOk hcl hu hs h1 h2 (by omega) h5⟩
  | err e =>
    obtain ⟨h1, μ', h2, h3⟩ := hr
    refine ⟨⟨s.items, false, s.used + 1⟩, ⟨ik, v, _, hst, fun hf => h1 (ListFits_of hf), rfl, rfl, by rw [hcost]⟩, fun _ => ⟨hs, μ', L, h2, hvis, by simp, ?_⟩⟩
    exact h3 _ hu
  | panic => exact absurd hr id
  | exhausted =>
    refine ⟨s, ?_, fun h => absurd rfl h⟩
    show _ ≤ s.used + LOp.cost s.items op
    rw [hcost]; exact hu.full hr.1

theorem wp_readOut {cfg m lk μ L s op} {α : Type} {f : α → Resp} {p : Prog α} {P : α → Prop} (h : LRep cfg m lk μ L) (hvis : vis L = s.items)
    (hcl : s.clean = true → Exact μ L) (hu : Used μ s.used)
    (hp : wp cfg noInv p m (fun m' r => m' = m ∧ ∃ a, r = .ok a ∧ P a)) (ha : ∀ a, P a → lAnswer s op (f a) (vis L)) :
    wp cfg noInv (p.tag f) m (LOut cfg m lk s op) := by
  apply wp_tag
  refine hp.conseq ?_
  rintro m' r ⟨rfl, a, rfl, hP⟩
  exact ⟨trivial, LOut.ofOk hcl hu (SameOutside.refl _ _) h (c := 0) (Evolves.refl _ _ _) (Nat.zero_le _) (ha a hP)⟩

theorem wp_eq_ok {cfg m} {α : Type} {p : Prog α} {a : α} (h : wp cfg noInv p m (fun m' r => m' = m ∧ r = .ok a)) :
    wp cfg noInv p m (fun m' r => m' = m ∧ ∃ b, r = .ok b ∧ b = a) :=
  h.conseq (by rintro m' r ⟨rfl, rfl⟩; exact ⟨rfl, a, rfl, rfl⟩)

set_option maxHeartbeats 1000000 in
theorem wp_promote {cfg m lk μ L s} (ik v : Bytes) (h : LRep cfg m lk μ L) (hvis : vis L = s.items)
    (hcl : s.clean = true → Exact μ L) (hu : Used μ s.used) :
    wp cfg noInv ((setInList cfg lk ik v true).tag .setStatus) m (LOut cfg m lk s (.setPromoting ik v)) := by
  apply wp_tag
  unfold setInList
  rw [if_pos rfl]
  show wp cfg noInv (removeFromList cfg lk ik >>= _) _ _
  rw [wp_bind]
  refine (wp_removeFromList ik h).conseq ?_
  rintro m1 r ⟨hs1, rfl, μ1, L1, h1, hev1, hv1⟩
  dsimp only [seqPost]
  show wp cfg noInv (insertToList cfg lk ik v .set >>= _) _ _
  rw [wp_bind]
  unfold insertToList
  rw [wp_withLock]
  refine (wp.mono (I' := noInv) (fun _ _ => trivial) (wp_insertToListBody ik v .set h1) ?_)
  have hget : (vis L1).get ik = none := by rw [hv1]; exact get_erase _ _
  rintro m' r ⟨hs, hr⟩
  have hss : SameOutside (LFoot cfg lk) m m' := hs1.trans hs
  cases r with
  | ok st =>
    obtain ⟨μ', L', h3, h4, h5⟩ := hr
    unfold InsResult at h5
    rw [hget] at h5
    obtain ⟨h6, rfl⟩ := h5
    refine ⟨trivial, trivial, ?_⟩
    refine LOut.ofOk (c := 1) hcl hu hss h3 ⟨fun hx => h4.1 (hev1.1 hx), fun n hn => ?_⟩ (by show 1 ≤ 1; omega) ?_
    · have := h4.2 _ (hev1.2 n hn); simpa using this
    · exact ⟨by rw [h6, set_append hget, hv1, hvis], rfl⟩
  | err e =>
    obtain ⟨h3, μ', h4, h5⟩ := hr
    refine ⟨⟨s.items.erase ik, false, s.used + 1⟩, ⟨ik, v, _, rfl, fun hf => h3 (ListFits_of hf), rfl, rfl, rfl⟩, fun _ => ⟨hss, μ', L1, h4, ?_, by simp, ?_⟩⟩
    · rw [hv1, hvis]
    · have := h5 _ (hev1.2 _ hu); simpa using this
  | panic => exact absurd hr id
  | exhausted =>
    refine ⟨s, ?_, fun h => absurd rfl h⟩
    show _ ≤ s.used + 1
    have := (hev1.2 _ hu).full hr.1
    omega

set_option maxHeartbeats 1000000 in
theorem wp_listOp {cfg m lk s} (op : LOp) (h : ListAbs cfg m lk s) :
    wp cfg noInv (op.prog cfg lk) m (LOut cfg m lk s op) := by
  obtain ⟨μ, L, h, hvis, hcl, hu⟩ := h
  cases op with
  | set ik v =>
    refine wp_insertOut (op := .set ik v) h hvis hcl hu rfl rfl ?_
    intro l' st hr
    unfold InsResult at hr
    unfold lAnswer
    dsimp only
    cases hg : s.items.get ik with
    | none => rw [hg] at hr; obtain ⟨h1, rfl⟩ := hr; exact ⟨_, rfl, h1, rfl⟩
    | some old => rw [hg] at hr; obtain ⟨h1, rfl⟩ := hr; exact ⟨_, rfl, h1, rfl⟩
  | setPromoting ik v => exact wp_promote ik v h hvis hcl hu
  | replace ik v e =>
    refine wp_insertOut (op := .replace ik v e) h hvis hcl hu rfl rfl ?_
    intro l' st hr
    unfold InsResult at hr
    unfold lAnswer
    dsimp only
    cases e with
    | none =>
      cases hg : s.items.get ik with
      | none =>
        rw [hg] at hr; obtain ⟨h1, rfl⟩ := hr
        refine ⟨_, rfl, ?_⟩
        dsimp only; rw [hg]; exact ⟨h1, rfl⟩
      | some old =>
        rw [hg] at hr; obtain ⟨h1, rfl⟩ := hr
        refine ⟨_, rfl, ?_⟩
        dsimp only; rw [hg]; exact ⟨h1, rfl⟩
    | some e =>
      cases hg : s.items.get ik with
      | none =>
        rw [hg] at hr; obtain ⟨h1, rfl⟩ := hr
        refine ⟨_, rfl, ?_⟩
        dsimp only; rw [hg]; exact ⟨h1, rfl⟩
      | some old =>
        rw [hg] at hr
        rcases hr with ⟨h1, rfl⟩ | ⟨h0, h1, rfl⟩
        · refine ⟨_, rfl, ?_⟩
          dsimp only; rw [hg]; exact Or.inl ⟨h1, rfl⟩
        · refine ⟨_, rfl, ?_⟩
          dsimp only; rw [hg]; exact Or.inr ⟨h0, h1, rfl⟩
  | getOrCreate ik v =>
    refine wp_insertOut (op := .getOrCreate ik v) h hvis hcl hu rfl rfl ?_
    intro l' st hr
    unfold InsResult at hr
    unfold lAnswer
    dsimp only
    cases hg : s.items.get ik with
    | none => rw [hg] at hr; obtain ⟨h1, rfl⟩ := hr; exact ⟨_, rfl, h1, rfl⟩
    | some old => rw [hg] at hr; obtain ⟨h1, rfl⟩ := hr; exact ⟨_, rfl, h1, rfl⟩
  | get ik =>
    refine wp_readOut h hvis hcl hu (wp_eq_ok (wp_getFromList ik h trivial)) ?_
    rintro a rfl
    exact ⟨hvis, by rw [hvis]⟩
  | remove ik =>
    apply wp_tag
    refine (wp_removeFromList ik h).conseq ?_
    rintro m' r ⟨h1, rfl, μ', L', h2, h3, h4⟩
    exact ⟨trivial, LOut.ofOk hcl hu h1 h2 h3 (Nat.zero_le _) ⟨by rw [h4, hvis], by rw [hvis]⟩⟩
  | iter fwd =>
    refine wp_readOut h hvis hcl hu (wp_eq_ok (wp_iterList fwd h trivial)) ?_
    rintro a rfl
    exact ⟨hvis, by rw [hvis]; rfl⟩
  | peek fwd =>
    refine wp_readOut h hvis hcl hu (wp_eq_ok (wp_peekList fwd h trivial)) ?_
    rintro a rfl
    exact ⟨hvis, by rw [hvis]; rfl⟩
  | pop fwd =>
    apply wp_tag
    refine (wp_popList fwd h).conseq ?_
    rintro m' r ⟨h1, rfl, μ', L', h2, h3, h4⟩
    refine ⟨trivial, LOut.ofOk hcl hu h1 h2 h3 (Nat.zero_le _) ⟨by rw [hvis]; rfl, ?_⟩⟩
    rw [hvis] at h4
    exact h4
  | compact par =>
    apply wp_tag
    unfold compactList
    rw [wp_withLock]
    refine (wp_compactListBody par h).conseq ?_
    rintro m' r (⟨rfl, x, hx, hle⟩ | ⟨h1, b, μ', L', rfl, h2, h3, h4, _, _⟩)
    · refine ⟨s, ?_, fun h => absurd rfl h⟩
      show _ ≤ s.used + s.items.length
      have := hu x hx
      have e : U64 = 18446744073709551616 := rfl
      have e' : FIRST_IDX = 9223372036854775808 := rfl
      have hl : s.items.length = L.length := by rw [← hvis]; simp [vis]
      omega
    · refine ⟨trivial, LOut.ofOk hcl hu h1 h2 h3 ?_ ⟨by rw [h4, hvis], b, rfl⟩⟩
      show L.length ≤ s.items.length
      rw [← hvis]; simp [vis]
  | discard =>
    apply wp_tag
    unfold discardList
    rw [wp_withLock]
    refine (wp_discardListBody h).conseq ?_
    rintro m' r ⟨h1, rfl, h2⟩
    refine ⟨trivial, LOut.ofOk (c := 0) hcl hu h1 h2 ⟨fun _ x e => by simp at e, fun _ _ x e => by simp at e⟩ (Nat.zero_le _) ⟨rfl, _, rfl, ?_⟩⟩
    intro hne
    cases μ with
    | none => have := h.nil rfl; subst this; exact absurd hvis.symm hne
    | some x => rfl
  | len =>
    refine wp_readOut (P := fun n => L.length ≤ n ∧ (Exact μ L → n = L.length)) h hvis hcl hu ((wp_listLen h trivial).conseq ?_) ?_
    · rintro m' r ⟨rfl, n, rfl, h1⟩; exact ⟨rfl, n, rfl, h1⟩
    · rintro n ⟨h1, h2⟩
      refine ⟨hvis, n, rfl, fun hc => ?_⟩
      rw [h2 (hcl hc), ← hvis]; simp [vis]

end Candy
