import Verif.Props.Crash
import Verif.Proofs.TreeMore
/-!
# C50: crashes while a store is created or cleared
-/
namespace Candy.Props

/-- The only file of a store with one shard. -/
def wholeName : FName := ⟨.shard, 0, 65536⟩
def wholeShard : Shard := ⟨0, 65536, MFile.empty, none⟩

theorem initial_one {cfg : Cfg} (h : cfg.expectedKeys ≤ 29491) : createInitialShards cfg = some [wholeShard] := by
  have e : calcStep cfg.expectedKeys = some 65536 := by
    unfold calcStep
    dsimp only
    rw [if_pos h, if_neg (by decide)]
    decide
  unfold createInitialShards
  rw [e]
  have e2 : initialSpans 65536 END_OF_SHARDS 0 = [(0, 65536)] := by
    show initialSpans 65536 (65534 + 1 + 1) 0 = _
    rw [initialSpans, if_pos (by decide), initialSpans, if_neg (by decide)]
  rw [Option.map_some, e2]
  rfl

theorem treeify_one : treeify [wholeShard] = some (.leaf wholeShard) := rfl

theorem create_one {cfg : Cfg} (h : cfg.expectedKeys ≤ 29491) : Tree.create cfg = some (.leaf wholeShard) := by
  unfold Tree.create
  rw [initial_one h]
  exact treeify_one

/-- What a crash while the shard is created can leave behind. -/
theorem crash_create_one {d' : Dir} (h : Dir.Crash [] ([wholeShard].flatMap createShardOps) d') :
    d' = [] ∨ d' = [(wholeName, .zero)] ∨ d' = [(wholeName, .blank)] ∨ d' = [(wholeName, .good MFile.empty)] := by
  have e : [wholeShard].flatMap createShardOps =
    [.trunc wholeName, .setLen wholeName, .magic wholeName, .unlinkIf ⟨.compact, 0, 65536⟩] := rfl
  rw [e] at h
  cases h with
  | stop => exact .inl rfl
  | step h hc =>
    simp only [FOp.app, Dir.put, Dir.del, List.filter_nil, Option.some.injEq] at h
    subst h
    cases hc with
    | stop => exact .inr (.inl rfl)
    | step h hc =>
      have : ([(wholeName, DFile.blank)] : Dir) = _ := Option.some.inj h
      subst this
      cases hc with
      | stop => exact .inr (.inr (.inl rfl))
      | step h hc =>
        have : ([(wholeName, DFile.good MFile.empty)] : Dir) = _ := Option.some.inj h
        subst this
        cases hc with
        | stop => exact .inr (.inr (.inr rfl))
        | step h hc =>
          have : ([(wholeName, DFile.good MFile.empty)] : Dir) = _ := Option.some.inj h
          subst this
          cases hc with
          | stop => exact .inr (.inr (.inr rfl))

theorem open_one {cfg : Cfg} {clearBad : Bool} {x : DFile} (hx : clearBad = true ∨ x ≠ .blank) (he : x = .zero ∨ x = .blank ∨ x = .good MFile.empty) :
    ∃ ops, openStore cfg clearBad [(wholeName, x)] = (ops, .ok (.leaf wholeShard)) := by
  have hs : scanDir [(wholeName, x)] = ([], some [(0, 65536)]) := by simp [scanDir, wholeName]
  have hcons : consolidate [(0, 65536)] = ([(0, 65536)], []) := by decide +kernel
  have hf : Dir.find [(wholeName, x)] ⟨.shard, 0, 65536⟩ = some x := by simp [Dir.find, wholeName]
  have hg : Dir.find [(wholeName, x)] ⟨.compact, 0, 65536⟩ = none := by simp [Dir.find, wholeName]
  have ho : ∃ ops, openShard cfg clearBad [(wholeName, x)] (0, 65536) = (ops, .ok wholeShard) := by
    unfold openShard
    dsimp only
    rw [hf, hg]
    rcases he with rfl | rfl | rfl
    · exact ⟨_, rfl⟩
    · rcases hx with rfl | hx
      · exact ⟨_, rfl⟩
      · exact absurd rfl hx
    · exact ⟨_, rfl⟩
  obtain ⟨ops, ho⟩ := ho
  have hl : load cfg clearBad [(wholeName, x)] = (([] ++ [] ++ (ops ++ [])), .ok [wholeShard]) := by
    unfold load
    rw [hs]
    dsimp only
    rw [hcons]
    dsimp only [openAll]
    rw [ho]
    rfl
  refine ⟨[] ++ [] ++ (ops ++ []), ?_⟩
  unfold openStore
  rw [hl]
  dsimp only
  rw [treeify_one]

/-- **C50** (partial: a store created for at most 29491 keys, that is with one shard). Whatever the crash point while the store is
created, the directory can be opened again, and gives a new, empty store - except after a crash between setting the length of the
file and writing its magic number, unless `clear_on_unsupported_version` is set (see `C50_refuted_magic`). -/
theorem C50_create_partial {cfg : Cfg} (h : cfg.expectedKeys ≤ 29491) {clearBad : Bool} {d' : Dir}
    (hc : Dir.Crash [] (openStore cfg clearBad []).1 d') (hb : clearBad = true ∨ d'.find ⟨.shard, 0, 65536⟩ ≠ some .blank) :
    ∃ ops t, openStore cfg clearBad d' = (ops, .ok t) ∧ Reachable cfg [] t := by
  have hl : load cfg clearBad [] = ([], .ok []) := by simp [load, scanDir, consolidate, openAll]
  have hr : Reachable cfg [] (.leaf wholeShard) := ⟨_, create_one h, .nil _⟩
  have e : (openStore cfg clearBad []).1 = [wholeShard].flatMap createShardOps := by
    unfold openStore
    rw [hl]
    dsimp only
    rw [initial_one h]
    rfl
  rw [e] at hc
  have key : ∀ x, d' = [(wholeName, x)] → (x = .zero ∨ x = .blank ∨ x = .good MFile.empty) →
      ∃ ops t, openStore cfg clearBad d' = (ops, .ok t) ∧ Reachable cfg [] t := by
    rintro x rfl hx
    obtain ⟨ops, ho⟩ := open_one (cfg := cfg) (clearBad := clearBad) (x := x) (hb.imp_right (fun hb e => hb (by subst e; rfl))) hx
    exact ⟨ops, _, ho, hr⟩
  rcases crash_create_one hc with rfl | e | e | e
  · obtain ⟨ops, d, ho, _⟩ := openStore_new (create_one h) clearBad
    exact ⟨ops, _, ho, hr⟩
  · exact key _ e (.inl rfl)
  · exact key _ e (.inr (.inl rfl))
  · exact key _ e (.inr (.inr rfl))

/-- the hypotheses are met by a crash in the middle of the creation -/
example : Dir.Crash [] (openStore runCfg false []).1 [(wholeName, .zero)] ∧ runCfg.expectedKeys ≤ 29491 := by
  have hl : load runCfg false [] = ([], .ok []) := by simp [load, scanDir, consolidate, openAll]
  have hk : runCfg.expectedKeys ≤ 29491 := by decide
  refine ⟨?_, hk⟩
  unfold openStore
  rw [hl]
  dsimp only
  rw [initial_one hk]
  exact .step (d' := [(wholeName, .zero)]) rfl (.stop _ _)

/-- **C50** (partial: a store with one shard, not being compacted). Whatever the crash point inside `clear`, the directory can be opened
again, and gives the old store or an empty one - with the same exception. -/
theorem C50_clear_partial {cfg : Cfg} (h : cfg.expectedKeys ≤ 29491) {es : List Event} {s : Shard} (hr : Reachable cfg es (.leaf s)) (hq : s.tgt = none)
    (hsm : (Tree.leaf s).Small) {d : Dir} (hd : DirOf d [s]) {clearBad : Bool} {d' : Dir}
    (hc : Dir.Crash d (clearOps cfg d) d') (hb : clearBad = true ∨ d'.find ⟨.shard, 0, 65536⟩ ≠ some .blank) :
    ∃ ops t, openStore cfg clearBad d' = (ops, .ok t) ∧ (t.get cfg = (Tree.leaf s).get cfg ∨ ∀ raw, t.get cfg raw = none) := by
  obtain ⟨_, _, hs, _⟩ := hr.world
  have hempty : ∀ raw, (Tree.leaf wholeShard).get cfg raw = none := by
    obtain ⟨t', h1, _, _, _, _, _, _, h8⟩ := Tree.create_spec (cfg := cfg) (Nat.le_trans h (by decide)) true
    rw [create_one h] at h1
    injection h1 with h1
    rw [h1]
    exact h8
  have hok := hs.ok
  have hsp : s.lo = 0 ∧ s.hi = 65536 := by
    cases hok with
    | leaf h1 h2 _ _ _ => exact ⟨h1, h2⟩
  have hname : s.srcName = wholeName := by
    unfold Shard.srcName wholeName
    rw [hsp.1, hsp.2]
  have hdd : ∃ x, d = [(wholeName, x)] := by
    have hall : ∀ n ∈ d.map Prod.fst, n = wholeName := by
      intro n hn
      have hn' := Dir.mem_names.1 hn
      obtain ⟨s', hs', e⟩ := hd.only n hn'
      rw [List.mem_singleton] at hs'
      subst hs'
      rcases e with e | e
      · rw [e, hname]
      · rw [e, (hd.files s' (by simp)).2, hq] at hn'
        exact absurd rfl hn'
    have h1 := hd.files s (by simp)
    match d, hall, hd.nodup, h1.1 with
    | [], _, _, h1 => cases h1
    | [(n, x)], hall, _, _ => exact ⟨x, by rw [show n = wholeName from hall n (by simp)]⟩
    | (n, x) :: (m, y) :: d, hall, hnd, _ =>
      have e1 : n = wholeName := hall n (by simp)
      have e2 : m = wholeName := hall m (by simp)
      simp [e1, e2] at hnd
  obtain ⟨x, rfl⟩ := hdd
  have eops : clearOps cfg [(wholeName, x)] = .unlink wholeName :: [wholeShard].flatMap createShardOps := by
    unfold clearOps
    rw [initial_one h]
    rfl
  rw [eops] at hc
  cases hc with
  | stop =>
    obtain ⟨ops, d', t, h1, _, _, _, _, _, _, _, h2⟩ := DirOf.reopen (u := .leaf s) (clearBad := clearBad) hd hok
      (by intro s' hs'; simp only [Tree.leaves, List.mem_singleton] at hs'; subst hs'; omega)
      (by intro s' hs'; simp only [Tree.leaves, List.mem_singleton] at hs'; subst hs'; exact hq) hsm
    exact ⟨ops, t, h1, .inl h2⟩
  | @step _ d1 _ _ _ h1 hc =>
    have : d1 = [] := by
      simp only [FOp.app, Dir.find, if_true, Dir.del] at h1
      simpa using h1.symm
    subst this
    have key : ∀ x, d' = [(wholeName, x)] → (x = .zero ∨ x = .blank ∨ x = .good MFile.empty) →
        ∃ ops t, openStore cfg clearBad d' = (ops, .ok t) ∧ (t.get cfg = (Tree.leaf s).get cfg ∨ ∀ raw, t.get cfg raw = none) := by
      rintro x rfl hx
      obtain ⟨ops, ho⟩ := open_one (cfg := cfg) (clearBad := clearBad) (x := x) (hb.imp_right (fun hb e => hb (by subst e; rfl))) hx
      exact ⟨ops, _, ho, .inr hempty⟩
    rcases crash_create_one hc with rfl | e | e | e
    · obtain ⟨ops, d, ho, _⟩ := openStore_new (create_one h) clearBad
      exact ⟨ops, _, ho, .inr hempty⟩
    · exact key _ e (.inl rfl)
    · exact key _ e (.inr (.inl rfl))
    · exact key _ e (.inr (.inr rfl))

/-- A store with one shard and data in it. -/
def oneLeaf (cfg : Cfg) (t : Tree) : Bool := match t with
  | .leaf s => s.tgt.isNone && decide (s.src.writeOff < 100) && decide ((Tree.leaf s).userGet cfg [97] = some [1])
  | _ => false

/-- the hypotheses are met by a store with a key, cleared and interrupted after the first file operation -/
example : ∃ es s d, Reachable runCfg es (.leaf s) ∧ s.tgt = none ∧ (Tree.leaf s).Small ∧ DirOf d [s] ∧ (Tree.leaf s).userGet runCfg [97] = some [1] ∧
    Dir.Crash d (clearOps runCfg d) d := by
  obtain ⟨es, t, hr, hc⟩ := checkT_sound (cfg := runCfg) (cs := [.call (.kv [97] (.set [1]))]) (chk := oneLeaf runCfg) (by decide +kernel)
  match t, hc with
  | .leaf s, hc =>
    simp only [oneLeaf, Bool.and_eq_true, decide_eq_true_eq, Option.isNone_iff_eq_none] at hc
    refine ⟨es, s, filesOf [s], hr, hc.1.1, ?_, filesOf_dirOf [s] (by simp), hc.2, .stop _ _⟩
    intro s' hs'
    simp only [Tree.leaves, List.mem_singleton] at hs'
    subst hs'
    refine ⟨?_, fun t ht => ?_⟩
    · have := hc.1.2
      omega
    · rw [hc.1.1] at ht
      cases ht

/-- **C50 is false of the code**, 1: a crash between setting the length of the file of a new store and writing its magic number leaves a
directory that cannot be opened with the default options. -/
theorem C50_refuted_magic {cfg : Cfg} (h : cfg.expectedKeys ≤ 29491) (clearBad : Bool) :
    ∃ d', Dir.Crash [] (openStore cfg clearBad []).1 d' ∧ ∃ ops, openStore cfg false d' = (ops, .err) := by
  have hl : load cfg clearBad [] = ([], .ok []) := by simp [load, scanDir, consolidate, openAll]
  have e : (openStore cfg clearBad []).1 = [wholeShard].flatMap createShardOps := by
    unfold openStore
    rw [hl]
    dsimp only
    rw [initial_one h]
    rfl
  refine ⟨[(wholeName, .blank)], ?_, ?_⟩
  · rw [e]
    exact .step (d' := [(wholeName, .zero)]) rfl (.step (d' := [(wholeName, .blank)]) rfl (.stop _ _))
  · have hs : scanDir [(wholeName, .blank)] = ([], some [(0, 65536)]) := by simp [scanDir, wholeName]
    have hcons : consolidate [(0, 65536)] = ([(0, 65536)], []) := by decide +kernel
    have hl2 : load cfg false [(wholeName, .blank)] = ([], .err) := by
      unfold load
      rw [hs]
      dsimp only
      rw [hcons]
      rfl
    refine ⟨[], ?_⟩
    unfold openStore
    rw [hl2]

/-- A configuration with four pre-split shards (100000 expected keys). -/
def fourCfg : Cfg := { runCfg with expectedKeys := 100000 }

theorem initial_four : createInitialShards fourCfg = some
    [⟨0, 0x4000, MFile.empty, none⟩, ⟨0x4000, 0x8000, MFile.empty, none⟩, ⟨0x8000, 0xc000, MFile.empty, none⟩, ⟨0xc000, 0x10000, MFile.empty, none⟩] := by
  unfold createInitialShards
  have e : calcStep fourCfg.expectedKeys = some 0x4000 := by decide
  rw [e]
  have e2 : initialSpans 0x4000 END_OF_SHARDS 0 = [(0, 0x4000), (0x4000, 0x8000), (0x8000, 0xc000), (0xc000, 0x10000)] := by
    show initialSpans 0x4000 (65531 + 1 + 1 + 1 + 1 + 1) 0 = _
    rw [initialSpans, if_pos (by decide), initialSpans, if_pos (by decide), initialSpans, if_pos (by decide), initialSpans, if_pos (by decide),
      initialSpans, if_neg (by decide)]
  rw [Option.map_some, e2]
  rfl

/-- The trace of creating the store. -/
theorem four_ops (clearBad : Bool) : (openStore fourCfg clearBad []).1 =
    createShardOps ⟨0, 0x4000, MFile.empty, none⟩ ++ (createShardOps ⟨0x4000, 0x8000, MFile.empty, none⟩ ++
      (createShardOps ⟨0x8000, 0xc000, MFile.empty, none⟩ ++ createShardOps ⟨0xc000, 0x10000, MFile.empty, none⟩)) := by
  have hl : load fourCfg clearBad [] = ([], .ok []) := by simp [load, scanDir, consolidate, openAll]
  unfold openStore
  rw [hl]
  dsimp only
  rw [initial_four]
  rfl

theorem crash_prefix {os os' : List FOp} {d d' : Dir} (h : d.run os = some d') : Dir.Crash d (os ++ os') d' := by
  induction os generalizing d with
  | nil => cases h; exact .stop _ _
  | cons o os ih =>
    simp only [Dir.run] at h
    split at h
    · cases h
    · rename_i d1 h1
      exact .step h1 (ih h)

/-- **C50 is false of the code**, 2: if the process dies after the first of several pre-split shards has been created, opening the directory
panics, whatever the options. -/
theorem C50_refuted_presplit (clearBad : Bool) :
    ∃ d', Dir.Crash [] (openStore fourCfg clearBad []).1 d' ∧ ∀ cb, ∃ ops, openStore fourCfg cb d' = (ops, .panic) := by
  refine ⟨[(⟨.shard, 0, 0x4000⟩, .good MFile.empty)], ?_, fun cb => ?_⟩
  · rw [four_ops]
    exact crash_prefix rfl
  · have hs : scanDir [(⟨.shard, 0, 0x4000⟩, .good MFile.empty)] = ([], some [(0, 0x4000)]) := by simp [scanDir, END_OF_SHARDS]
    have hcons : consolidate [(0, 0x4000)] = ([(0, 0x4000)], []) := by decide +kernel
    have hl2 : ∃ ops, load fourCfg cb [(⟨.shard, 0, 0x4000⟩, .good MFile.empty)] = (ops, .ok [⟨0, 0x4000, MFile.empty, none⟩]) := by
      unfold load
      rw [hs]
      dsimp only
      rw [hcons]
      exact ⟨_, rfl⟩
    obtain ⟨ops, hl2⟩ := hl2
    have ht : treeify [⟨0, 0x4000, MFile.empty, none⟩] = none := rfl
    refine ⟨ops, ?_⟩
    unfold openStore
    rw [hl2]
    dsimp only
    rw [ht]

/-- **C50 is false of the code**, 3: if the process dies after two of the four shards have been created, the directory opens, but as a store
that covers only half of the selectors. -/
theorem C50_refuted_half (clearBad : Bool) :
    ∃ d', Dir.Crash [] (openStore fourCfg clearBad []).1 d' ∧
      ∀ cb, ∃ ops t, openStore fourCfg cb d' = (ops, .ok t) ∧ t.leaves.map (fun s => (s.lo, s.hi)) = [(0, 0x4000), (0x4000, 0x8000)] := by
  refine ⟨[(⟨.shard, 0x4000, 0x8000⟩, .good MFile.empty), (⟨.shard, 0, 0x4000⟩, .good MFile.empty)], ?_, fun cb => ?_⟩
  · rw [four_ops, ← List.append_assoc]
    exact crash_prefix rfl
  · have hs : scanDir [(⟨.shard, 0x4000, 0x8000⟩, .good MFile.empty), (⟨.shard, 0, 0x4000⟩, .good MFile.empty)] =
        ([], some [(0x4000, 0x8000), (0, 0x4000)]) := by simp [scanDir, END_OF_SHARDS]
    have hcons : consolidate [(0x4000, 0x8000), (0, 0x4000)] = ([(0, 0x4000), (0x4000, 0x8000)], []) := by
      simp [consolidate, List.mergeSort, List.MergeSort.Internal.splitInTwo, spanLe, consolidateLoop]
    have hl2 : ∃ ops, load fourCfg cb [(⟨.shard, 0x4000, 0x8000⟩, .good MFile.empty), (⟨.shard, 0, 0x4000⟩, .good MFile.empty)] =
        (ops, .ok [⟨0, 0x4000, MFile.empty, none⟩, ⟨0x4000, 0x8000, MFile.empty, none⟩]) := by
      unfold load
      rw [hs]
      dsimp only
      rw [hcons]
      exact ⟨_, rfl⟩
    obtain ⟨ops, hl2⟩ := hl2
    have ht : treeify [⟨0, 0x4000, MFile.empty, none⟩, ⟨0x4000, 0x8000, MFile.empty, none⟩] =
        some (.vertex (.leaf ⟨0, 0x4000, MFile.empty, none⟩) (.leaf ⟨0x4000, 0x8000, MFile.empty, none⟩)) := rfl
    refine ⟨ops, .vertex (.leaf ⟨0, 0x4000, MFile.empty, none⟩) (.leaf ⟨0x4000, 0x8000, MFile.empty, none⟩), ?_, rfl⟩
    unfold openStore
    rw [hl2]
    dsimp only
    rw [ht]

end Candy.Props
