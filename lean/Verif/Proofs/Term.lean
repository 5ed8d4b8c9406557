import Verif.Proofs.Merge
/-!
# Termination of insertion, and shards never become narrower than one selector value

`insert` splits a shard that is too full. Splitting helps only if the keys in the shard can be told apart by the 16-bit selector,
so insertion ends if not too many stored keys share the selector (and row) of the key to be inserted.
-/
namespace Candy

/-- Not too many stored pairs share the selector of `k`: fewer than a row's worth with the same row, and room for them together with
the new entry (and `slack` bytes more) in one file - unless the compaction threshold is 0, in which case files are never considered full. -/
structure NotCrowded (cfg : Cfg) (m : Spec.Map) (slack : Nat) (k v : Bytes) : Prop where
  row : ∀ L : List KV, DistinctKeys L → (∀ kv ∈ L, m kv.1 = some kv.2 ∧ kv.1 ≠ k ∧ (cfg.ph kv.1).shardSel = (cfg.ph k).shardSel ∧
    (cfg.ph kv.1).rowSel = (cfg.ph k).rowSel) → L.length < ROW_WIDTH
  bytes : cfg.minCompaction.toNat = 0 ∨ ∀ L : List KV, DistinctKeys L → (∀ kv ∈ L, m kv.1 = some kv.2 ∧
    (cfg.ph kv.1).shardSel = (cfg.ph k).shardSel) → bytesOf L + (k.length + v.length) + slack ≤ cfg.maxShardSize.toNat

theorem NotCrowded.congr {cfg m m' n k v} (h : NotCrowded cfg m n k v)
    (hm : ∀ k', (cfg.ph k').shardSel = (cfg.ph k).shardSel → m' k' = m k') : NotCrowded cfg m' n k v := by
  refine ⟨?_, ?_⟩
  · intro L hd hL
    refine h.row L hd (fun kv hkv => ?_)
    obtain ⟨h1, h2⟩ := hL kv hkv
    rw [hm _ h2.2.1] at h1; exact ⟨h1, h2⟩
  · rcases h.bytes with h | h
    · exact Or.inl h
    · refine Or.inr (fun L hd hL => h L hd (fun kv hkv => ?_))
      obtain ⟨h1, h2⟩ := hL kv hkv
      rw [hm _ h2] at h1; exact ⟨h1, h2⟩

/-- All pairs of a file. -/
def allRows (f : MFile) (n : Nat) : List KV := (List.range n).flatMap f.liveRow

theorem bytesOf_append (l l' : List KV) : bytesOf (l ++ l') = bytesOf l + bytesOf l' := by
  unfold bytesOf; rw [List.map_append, List.sum_append_nat]

theorem allRows_bytes (f : MFile) : ∀ n, bytesOf (allRows f n) = sumTo n (rowW kvSize f)
  | 0 => by simp [allRows, sumTo, bytesOf]
  | n + 1 => by
    have := allRows_bytes f n
    unfold allRows at *
    rw [sumTo, List.range_succ, List.flatMap_append, bytesOf_append, this, List.flatMap_singleton, bytesOf_liveRow]

theorem mem_allRows {f : MFile} {n : Nat} {kv : KV} : kv ∈ allRows f n ↔ ∃ r, r < n ∧ kv ∈ f.liveRow r := by
  unfold allRows; rw [List.mem_flatMap]; simp

theorem allRows_distinct {cfg lo hi f} (h : FileOK cfg lo hi f) : ∀ n, n ≤ NUM_ROWS → DistinctKeys (allRows f n)
  | 0, _ => by simp [allRows, DistinctKeys]
  | n + 1, hn => by
    have ih := allRows_distinct h n (by omega)
    have e : allRows f (n + 1) = allRows f n ++ f.liveRow n := by
      unfold allRows; rw [List.range_succ, List.flatMap_append, List.flatMap_singleton]
    rw [e]
    refine List.pairwise_append.2 ⟨ih, h.distinct (by omega), ?_⟩
    intro a ha b hb hab
    obtain ⟨r, hr, ha⟩ := mem_allRows.1 ha
    obtain ⟨c, hc, hl⟩ := mem_liveRow.1 ha
    obtain ⟨c', hc', hl'⟩ := mem_liveRow.1 hb
    have h1 := h.row r c a (by omega) hc hl
    have h2 := h.row n c' b (by omega) hc' hl'
    rw [hab] at h1; omega

/-- A row without free slot holds 512 pairs. -/
theorem liveRow_full {f : MFile} {r : Nat} (h : ∀ c, c < ROW_WIDTH → f.live r c ≠ none) : (f.liveRow r).length = ROW_WIDTH := by
  rw [liveRow_eq]
  have : ∀ n, n ≤ ROW_WIDTH → ((List.range n).filterMap (f.live r)).length = n := by
    intro n
    induction n with
    | zero => intro _; rfl
    | succ n ih =>
      intro hn
      rw [List.range_succ, List.filterMap_append, List.length_append, ih (by omega)]
      cases e : f.live r n with
      | none => exact absurd e (h n (by omega))
      | some x => simp [e]
  exact this _ (Nat.le_refl _)

/-- A shard covering a single selector value does not need splitting. -/
theorem unit_no_split {cfg : Cfg} {s : Shard} {k v : Bytes} {n : Nat} (h : s.Inv cfg) (hw : s.hi ≤ s.lo + 1)
    (hsel : inSpan s.lo s.hi (cfg.ph k).shardSel) (hc : NotCrowded cfg (s.val cfg) n k v)
    (hoff : s.tgt = none → s.src.wasted < cfg.minCompaction.toNat → s.src.writeOff ≤ liveBytes s.src + n) :
    ¬ NeedsSplit cfg s (cfg.ph k).rowSel k v := by
  have hr := (cfg.ph k).rowSel_lt
  have hs1 := hsel.1
  have hs2 := hsel.2
  rintro (⟨h1, h2, h3⟩ | ⟨h1, h2⟩)
  · have hact : s.active (cfg.ph k).rowSel = s.src := by unfold Shard.active; rw [h1]
    rw [hact] at h2 h3
    rcases hc.bytes with h0 | hb
    · omega
    · have hall := allRows_bytes s.src NUM_ROWS
      have := hb (allRows s.src NUM_ROWS) (allRows_distinct h.src _ (Nat.le_refl _)) (by
        intro kv hkv
        obtain ⟨r, hr', hm⟩ := mem_allRows.1 hkv
        obtain ⟨c, hc, hl⟩ := mem_liveRow.1 hm
        have hrow := h.src.row r c kv hr' hc hl
        have hspan := h.src.span r c kv hr' hc hl
        refine ⟨h.mem_row.1 ?_, by omega⟩
        rw [hrow]
        have : s.active r = s.src := by unfold Shard.active; rw [h1]
        rw [this]; exact hm)
      have h4 := hoff h1 h2
      unfold liveBytes fileW at h4
      omega
  · have hlen := liveRow_full h2
    have := hc.row ((s.active (cfg.ph k).rowSel).liveRow (cfg.ph k).rowSel) ((h.active _).distinct hr) (by
      intro kv hkv
      obtain ⟨c, hcw, hl⟩ := mem_liveRow.1 hkv
      have hrow := (h.active _).row _ c kv hr hcw hl
      have hspan := (h.active _).span _ c kv hr hcw hl
      have hm := h.mem_row (k := kv.1) (v := kv.2)
      rw [hrow] at hm
      refine ⟨hm.1 hkv, ?_, by omega, hrow⟩
      rintro rfl
      exact h1 c hcw kv.2 hl)
    omega

theorem Tree.insert_mono {cfg : Cfg} {ph : PH} {k v : Bytes} {mode : Mode} : ∀ (n : Nat) (t : Tree),
    t.insert cfg ph k v mode n ≠ .diverge → t.insert cfg ph k v mode (n + 1) = t.insert cfg ph k v mode n
  | 0, _, h => absurd rfl h
  | n + 1, .leaf s, h => by
    unfold Tree.insert at h ⊢
    split at h
    · split at h
      · rfl
      · exact Tree.insert_mono n _ h
    · rfl
  | n + 1, .vertex b t, h => by
    unfold Tree.insert at h ⊢
    split
    · rename_i hlt
      rw [if_pos hlt] at h
      rw [Tree.insert_mono n b (fun e => h (by rw [e]; rfl))]
    · rename_i hlt
      rw [if_neg hlt] at h
      rw [Tree.insert_mono n t (fun e => h (by rw [e]; rfl))]

theorem Tree.insert_mono_le {cfg : Cfg} {ph : PH} {k v : Bytes} {mode : Mode} {n m : Nat} {t : Tree} (hle : n ≤ m)
    (h : t.insert cfg ph k v mode n ≠ .diverge) : t.insert cfg ph k v mode m = t.insert cfg ph k v mode n := by
  induction hle with
  | refl => rfl
  | step _ ih => rw [Tree.insert_mono _ _ (by rw [ih]; exact h), ih]

theorem NotCrowded.slack {cfg m n n' k v} (h : NotCrowded cfg m n k v) (hle : n' ≤ n) : NotCrowded cfg m n' k v :=
  ⟨h.row, h.bytes.imp id (fun hb L h1 h2 => by have := hb L h1 h2; omega)⟩

/-- One visit of a leaf: it finishes, or the leaf is replaced by the two halves (which hold no garbage). -/
theorem Tree.insert_leaf {cfg : Cfg} {ex : Bool} {k v : Bytes} {mode : Mode} {s : Shard} (hk : k.length < 65536) (hv : v.length < 65536)
    (h : s.Inv cfg) (ha : s.AcctInv ex) (hsm : s.Small) (hsel : inSpan s.lo s.hi (cfg.ph k).shardSel) :
    (∃ s', s'.lo = s.lo ∧ s'.hi = s.hi ∧ ∀ n, (Tree.leaf s).insert cfg (cfg.ph k) k v mode (n + 1) = .ok (.leaf s', (Spec.insertAt (s.val cfg k) v mode).2)) ∨
    (NeedsSplit cfg s (cfg.ph k).rowSel k v ∧ ∃ bf tf,
      (∀ n, (Tree.leaf s).insert cfg (cfg.ph k) k v mode (n + 1) =
        Tree.insert cfg (cfg.ph k) k v mode n (.vertex (.leaf (quiet s.lo (midOf s.lo s.hi) bf)) (.leaf (quiet (midOf s.lo s.hi) s.hi tf)))) ∧
      FileOK cfg s.lo (midOf s.lo s.hi) bf ∧ FileOK cfg (midOf s.lo s.hi) s.hi tf ∧ Acct 0 0 bf ∧ Acct 0 0 tf ∧
      bf.wasted = 0 ∧ tf.wasted = 0 ∧ bf.writeOff + tf.writeOff < 4294967296 ∧
      (∀ k', (cfg.ph k').shardSel < midOf s.lo s.hi → (quiet s.lo (midOf s.lo s.hi) bf).val cfg k' = s.val cfg k') ∧
      (∀ k', ¬ (cfg.ph k').shardSel < midOf s.lo s.hi → (quiet (midOf s.lo s.hi) s.hi tf).val cfg k' = s.val cfg k')) := by
  have hoff := hsm.active (cfg.ph k).rowSel
  obtain ⟨g1, g2, g3, g4⟩ := Shard.insert_spec (mode := mode) h hoff hk hv hsel.1 hsel.2
  have ha' := Shard.insert_acct (mode := mode) h ha hoff hk hv
  have hsplit := Shard.insert_split (mode := mode) h hoff hk hv
  generalize hp : s.insert cfg (cfg.ph k) k v mode = p at g1 g2 g3 g4 ha' hsplit
  obtain ⟨s', st⟩ := p
  simp only at g1 g2 g3 g4 ha' hsplit
  rcases g4 with ⟨e, hval, hneed⟩ | ⟨e, hval⟩
  · right
    subst e
    have hsm' : s'.Small := by
      rcases hsplit rfl with e | ⟨off, e⟩
      · rw [e]; exact hsm
      · rw [e]; exact Shard.beginCompaction_small ha hsm off
    obtain ⟨bf, tf, h1, h2, h3, h4, h5, w1, w2, h6, h7, _, h8⟩ := s'.split_spec g1 hsm' ha'
    rw [g2, g3] at *
    refine ⟨hneed, bf, tf, ?_, h2, h3, h4, h5, w1, w2, h8, ?_, ?_⟩
    · intro n
      conv => lhs; unfold Tree.insert
      rw [hp]
      simp only [h1]
    · intro k' hk'
      have hb := Shard.split_val g1 h2 h6 (fun k => decide ((cfg.ph k).shardSel < midOf s.lo s.hi)) (fun _ _ => rfl) k'
      rw [hb, if_pos (by simpa using hk'), hval]
    · intro k' hk'
      have ht := Shard.split_val g1 h3 h7 (fun k => !decide ((cfg.ph k).shardSel < midOf s.lo s.hi)) (fun _ _ => rfl) k'
      rw [ht, if_pos (by simpa using hk'), hval]
  · left
    refine ⟨s', g2, g3, ?_⟩
    intro n
    have hne : st ≠ .splitNeeded := by
      rw [e]; unfold Spec.insertAt
      split <;> (try split) <;> simp
    conv => lhs; unfold Tree.insert
    rw [hp, ← e]
    cases st with
    | splitNeeded => exact absurd rfl hne
    | _ => rfl

theorem fresh_terminates {cfg : Cfg} {k v : Bytes} {mode : Mode} (hk : k.length < 65536) (hv : v.length < 65536) :
    ∀ (j lo hi : Nat) (f : MFile), hi ≤ lo + 2 ^ j → FileOK cfg lo hi f → Acct 0 0 f → f.wasted = 0 → f.writeOff < 4294967296 →
      inSpan lo hi (cfg.ph k).shardSel → NotCrowded cfg ((quiet lo hi f).val cfg) 0 k v →
      ∃ n, (Tree.leaf (quiet lo hi f)).insert cfg (cfg.ph k) k v mode n ≠ .diverge
  | 0, lo, hi, f, hw, hf, ha, hw0, hs, hsel, hc => by
    rcases Tree.insert_leaf (ex := true) (mode := mode) hk hv (quiet_inv hf) (quiet_acct ha) (quiet_small hs) hsel with ⟨s', _, _, h⟩ | ⟨hn, _⟩
    · exact ⟨1, by rw [h 0]; simp⟩
    · refine absurd hn (unit_no_split (quiet_inv hf) hw hsel hc ?_)
      intro _ _
      have := ha.1
      show f.writeOff ≤ liveBytes f + 0
      omega
  | j + 1, lo, hi, f, hw, hf, ha, hw0, hs, hsel, hc => by
    rcases Tree.insert_leaf (ex := true) (mode := mode) hk hv (quiet_inv hf) (quiet_acct ha) (quiet_small hs) hsel with
      ⟨s', _, _, h⟩ | ⟨_, bf, tf, h1, h2, h3, h4, h5, w1, w2, h8, vb, vt⟩
    · exact ⟨1, by rw [h 0]; simp⟩
    · have hp : 2 ^ (j + 1) = 2 ^ j * 2 := Nat.pow_succ ..
      have e1 : (quiet lo hi f).lo = lo := rfl
      have e2 : (quiet lo hi f).hi = hi := rfl
      simp only [e1, e2] at h1 h2 h3 vb vt
      have hs1 := hsel.1
      have hs2 := hsel.2
      by_cases hlt : (cfg.ph k).shardSel < midOf lo hi
      · obtain ⟨n, hn⟩ := fresh_terminates (mode := mode) hk hv j lo (midOf lo hi) bf (by unfold midOf; omega) h2 h4 w1 (by omega) ⟨hs1, hlt⟩
          (hc.congr (fun k' hk' => vb k' (by omega)))
        refine ⟨n + 2, ?_⟩
        rw [h1 (n + 1)]
        unfold Tree.insert
        rw [if_pos (show (cfg.ph k).shardSel < (Tree.leaf (quiet lo (midOf lo hi) bf)).hi from hlt)]
        generalize (Tree.leaf (quiet lo (midOf lo hi) bf)).insert cfg (cfg.ph k) k v mode n = o at hn ⊢
        cases o <;> simp_all [Out.bind]
      · obtain ⟨n, hn⟩ := fresh_terminates (mode := mode) hk hv j (midOf lo hi) hi tf (by unfold midOf; omega) h3 h5 w2 (by omega) ⟨by omega, hs2⟩
          (hc.congr (fun k' hk' => vt k' (by omega)))
        refine ⟨n + 2, ?_⟩
        rw [h1 (n + 1)]
        unfold Tree.insert
        rw [if_neg (show ¬ (cfg.ph k).shardSel < (Tree.leaf (quiet lo (midOf lo hi) bf)).hi from hlt)]
        generalize (Tree.leaf (quiet (midOf lo hi) hi tf)).insert cfg (cfg.ph k) k v mode n = o at hn ⊢
        cases o <;> simp_all [Out.bind]

/-- Insertion terminates if the key's selector is not crowded. -/
theorem Tree.insert_terminates {cfg : Cfg} {ex : Bool} {k v : Bytes} {mode : Mode} (hk : k.length < 65536) (hv : v.length < 65536) :
    ∀ (t : Tree) (lo hi : Nat), Tree.OK cfg ex lo hi t → t.Small → inSpan lo hi (cfg.ph k).shardSel → NotCrowded cfg (t.get cfg) 0 k v →
      ∃ n, t.insert cfg (cfg.ph k) k v mode n ≠ .diverge
  | .leaf s, lo, hi, hok, hsm, hsel, hc => by
    cases hok with
    | leaf hlo hhi hle hinv ha =>
      subst hlo hhi
      rw [Tree.Small.leaf] at hsm
      have hs1 := hsel.1
      have hs2 := hsel.2
      have hc : NotCrowded cfg (s.val cfg) 0 k v := hc
      rcases Tree.insert_leaf (mode := mode) hk hv hinv ha hsm hsel with
        ⟨s', _, _, h⟩ | ⟨_, bf, tf, h1, h2, h3, h4, h5, w1, w2, h8, vb, vt⟩
      · exact ⟨1, by rw [h 0]; simp⟩
      · have big : ∀ a : Nat, a ≤ 2 ^ a := fun a => Nat.le_of_lt Nat.lt_two_pow_self
        by_cases hlt : (cfg.ph k).shardSel < midOf s.lo s.hi
        · obtain ⟨n, hn⟩ := fresh_terminates (mode := mode) hk hv (midOf s.lo s.hi) s.lo (midOf s.lo s.hi) bf (by have := big (midOf s.lo s.hi); omega) h2 h4 w1 (by omega) ⟨hs1, hlt⟩
            (hc.congr (fun k' hk' => vb k' (by omega)))
          refine ⟨n + 2, ?_⟩
          rw [h1 (n + 1)]
          unfold Tree.insert
          rw [if_pos (show (cfg.ph k).shardSel < (Tree.leaf (quiet s.lo (midOf s.lo s.hi) bf)).hi from hlt)]
          generalize (Tree.leaf (quiet s.lo (midOf s.lo s.hi) bf)).insert cfg (cfg.ph k) k v mode n = o at hn ⊢
          cases o <;> simp_all [Out.bind]
        · obtain ⟨n, hn⟩ := fresh_terminates (mode := mode) hk hv s.hi (midOf s.lo s.hi) s.hi tf (by have := big s.hi; omega) h3 h5 w2 (by omega) ⟨by omega, hs2⟩
            (hc.congr (fun k' hk' => vt k' (by omega)))
          refine ⟨n + 2, ?_⟩
          rw [h1 (n + 1)]
          unfold Tree.insert
          rw [if_neg (show ¬ (cfg.ph k).shardSel < (Tree.leaf (quiet s.lo (midOf s.lo s.hi) bf)).hi from hlt)]
          generalize (Tree.leaf (quiet (midOf s.lo s.hi) s.hi tf)).insert cfg (cfg.ph k) k v mode n = o at hn ⊢
          cases o <;> simp_all [Out.bind]
  | .vertex b t, lo, hi, hok, hsm, hsel, hc => by
    cases hok with
    | vertex hle hb ht =>
      rw [Tree.Small.vertex] at hsm
      have hg := fun k' => Tree.get_vertex cfg b t k'
      rw [hb.hi_eq] at hg
      by_cases hlt : (cfg.ph k).shardSel < midOf lo hi
      · obtain ⟨n, hn⟩ := Tree.insert_terminates (mode := mode) hk hv b lo (midOf lo hi) hb hsm.1 ⟨hsel.1, hlt⟩
          (hc.congr (fun k' hk' => by rw [hg k', if_pos (by omega)]))
        refine ⟨n + 1, ?_⟩
        unfold Tree.insert
        rw [hb.hi_eq, if_pos hlt]
        generalize b.insert cfg (cfg.ph k) k v mode n = o at hn ⊢
        cases o <;> simp_all [Out.bind]
      · obtain ⟨n, hn⟩ := Tree.insert_terminates (mode := mode) hk hv t (midOf lo hi) hi ht hsm.2 ⟨by omega, hsel.2⟩
          (hc.congr (fun k' hk' => by rw [hg k', if_neg (by omega)]))
        refine ⟨n + 1, ?_⟩
        unfold Tree.insert
        rw [hb.hi_eq, if_neg hlt]
        generalize t.insert cfg (cfg.ph k) k v mode n = o at hn ⊢
        cases o <;> simp_all [Out.bind]

/-- Insertion never creates a shard with an empty span if the key's selector is not crowded (with room for the garbage tolerated
before a compaction). -/
theorem Tree.insert_nonDegenerate {cfg : Cfg} {k v : Bytes} {mode : Mode} (hk : k.length < 65536) (hv : v.length < 65536) :
    ∀ (n : Nat) (t : Tree) (lo hi : Nat), Tree.OK cfg true lo hi t → t.Small → inSpan lo hi (cfg.ph k).shardSel → t.NonDegenerate → Dyadic lo hi →
      NotCrowded cfg (t.get cfg) cfg.minCompaction.toNat k v → ∀ t' st, t.insert cfg (cfg.ph k) k v mode n = .ok (t', st) → t'.NonDegenerate
  | 0, t, lo, hi, _, _, _, _, _, _, t', st, he => by simp [Tree.insert] at he
  | n + 1, .leaf s, lo, hi, hok, hsm, hsel, hn, hd, hc, t', st, he => by
    cases hok with
    | leaf hlo hhi hle hinv ha =>
      subst hlo hhi
      rw [Tree.Small.leaf] at hsm
      have hc' : NotCrowded cfg (s.val cfg) cfg.minCompaction.toNat k v := hc
      rcases Tree.insert_leaf (mode := mode) hk hv hinv ha hsm hsel with
        ⟨s', e1, e2, h⟩ | ⟨hneed, bf, tf, h1, h2, h3, h4, h5, w1, w2, h8, vb, vt⟩
      · rw [h n] at he
        injection he with he; injection he with he _; subst he
        intro x hx; rw [Tree.leaves_leaf, List.mem_singleton] at hx; subst hx
        have := hd.lt; omega
      · rw [h1 n] at he
        have hwide : ¬ s.hi ≤ s.lo + 1 := by
          intro hw
          refine unit_no_split hinv hw hsel hc' ?_ hneed
          intro _ hwst
          obtain ⟨d, e, ⟨h1, _⟩, h2⟩ := ha.1
          have := h2 rfl
          omega
        obtain ⟨d1, d2⟩ := hd.mid (by unfold midOf; omega)
        have hnd : (Tree.vertex (.leaf (quiet s.lo (midOf s.lo s.hi) bf)) (.leaf (quiet (midOf s.lo s.hi) s.hi tf))).NonDegenerate := by
          rw [Tree.NonDegenerate.vertex]
          constructor
          · intro x hx; rw [Tree.leaves_leaf, List.mem_singleton] at hx; subst hx; exact d1.lt
          · intro x hx; rw [Tree.leaves_leaf, List.mem_singleton] at hx; subst hx; exact d2.lt
        have hm := midOf_bounds hle
        have hok' : Tree.OK cfg true s.lo s.hi (Tree.vertex (.leaf (quiet s.lo (midOf s.lo s.hi) bf)) (.leaf (quiet (midOf s.lo s.hi) s.hi tf))) :=
          .vertex hle (.leaf rfl rfl hm.1 (quiet_inv h2) (quiet_acct h4)) (.leaf rfl rfl hm.2 (quiet_inv h3) (quiet_acct h5))
        refine Tree.insert_nonDegenerate (mode := mode) hk hv n _ s.lo s.hi hok' ?_ hsel hnd hd ?_ t' st he
        · rw [Tree.Small.vertex, Tree.Small.leaf, Tree.Small.leaf]
          exact ⟨quiet_small (by omega), quiet_small (by omega)⟩
        · refine hc'.congr (fun k' hk' => ?_)
          rw [Tree.get_vertex, Tree.get_leaf, Tree.get_leaf]
          show (if _ < midOf s.lo s.hi then _ else _) = _
          split
          · rename_i hx; exact vb k' hx
          · rename_i hx; exact vt k' hx
  | n + 1, .vertex b t, lo, hi, hok, hsm, hsel, hn, hd, hc, t', st, he => by
    cases hok with
    | vertex hle hb ht =>
      rw [Tree.Small.vertex] at hsm
      have hg := fun k' => Tree.get_vertex cfg b t k'
      rw [hb.hi_eq] at hg
      obtain ⟨d1, d2⟩ := hd.mid (hb.mid_lt hn)
      rw [Tree.NonDegenerate.vertex] at hn
      unfold Tree.insert at he
      rw [hb.hi_eq] at he
      by_cases hlt : (cfg.ph k).shardSel < midOf lo hi
      · rw [if_pos hlt] at he
        cases hb' : b.insert cfg (cfg.ph k) k v mode n with
        | ok r =>
          rw [hb'] at he
          obtain ⟨b', st'⟩ := r
          simp only [Out.bind] at he
          injection he with he; injection he with he _; subst he
          rw [Tree.NonDegenerate.vertex]
          exact ⟨Tree.insert_nonDegenerate (mode := mode) hk hv n b lo (midOf lo hi) hb hsm.1 ⟨hsel.1, hlt⟩ hn.1 d1
            (hc.congr (fun k' hk' => by rw [hg k', if_pos (by omega)])) b' st' hb', hn.2⟩
        | _ => rw [hb'] at he; simp [Out.bind] at he
      · rw [if_neg hlt] at he
        cases hb' : t.insert cfg (cfg.ph k) k v mode n with
        | ok r =>
          rw [hb'] at he
          obtain ⟨t1, st'⟩ := r
          simp only [Out.bind] at he
          injection he with he; injection he with he _; subst he
          rw [Tree.NonDegenerate.vertex]
          exact ⟨hn.1, Tree.insert_nonDegenerate (mode := mode) hk hv n t (midOf lo hi) hi ht hsm.2 ⟨by omega, hsel.2⟩ hn.2 d2
            (hc.congr (fun k' hk' => by rw [hg k', if_neg (by omega)])) t1 st' hb'⟩
        | _ => rw [hb'] at he; simp [Out.bind] at he

end Candy
