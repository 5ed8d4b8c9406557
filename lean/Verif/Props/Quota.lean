import Verif.Proofs.Overflow
import Verif.Proofs.TreeRunner
import Verif.Proofs.Runner
import Verif.Props.Kv
/-!
# C75: shard files stay below the limit of 4 GiB
-/
namespace Candy.Props
open Candy.Spec

/-- **C75.** If no compaction lasts for more than 805 MB of insertions into its shard, and `max_shard_size` is at most 4 GiB less that amount and one pair, then every shard file of the store stays below 4 GiB,
whatever is written in total: the history is one of those (`Reachable`) the other theorems speak of, and their assumption about the size of files (`Tree.Small`) holds. -/
theorem C75_files_stay_small {cfg : Cfg} {q : Nat} {t0 t : Tree} {w : Charged} {es : List Event} (h0 : Tree.create cfg = some t0) (h : QRun cfg q t0 (fun _ => 0) es t w)
    (hq : q ≤ 805000000) (hm : cfg.maxShardSize.toNat + q + 81918 < 4294967296) : Reachable cfg es t ∧ t.Small := by
  have hQ : QuotaOK cfg cfg.maxShardSize.toNat q := ⟨Nat.le_refl _, by show 2684289024 + q + q + 81918 < _; omega, hm⟩
  obtain ⟨h1, h2⟩ := h.toRun hQ (create_bound h0) (Quotad.create h0)
  exact ⟨⟨t0, h0, h1⟩, h2.small hQ⟩

/-- C75, in numbers: between two operations, the file of a shard that is not being compacted is at most as large as `max_shard_size`, or as 2.7 GB (the largest possible contents of a shard) plus what was inserted during
its last compaction. -/
theorem C75_file_size {cfg : Cfg} {q : Nat} {t0 t : Tree} {w : Charged} {es : List Event} (h0 : Tree.create cfg = some t0) (h : QRun cfg q t0 (fun _ => 0) es t w)
    (hq : q ≤ 805000000) (hm : cfg.maxShardSize.toNat + q + 81918 < 4294967296) : ∀ s ∈ t.leaves, s.tgt = none →
      s.src.writeOff ≤ cfg.maxShardSize.toNat ∨ s.src.writeOff ≤ 2684289024 + q := by
  have hQ : QuotaOK cfg cfg.maxShardSize.toNat q := ⟨Nat.le_refl _, by show 2684289024 + q + q + 81918 < _; omega, hm⟩
  obtain ⟨_, h2⟩ := h.toRun hQ (create_bound h0) (Quotad.create h0)
  intro s hs ht
  have := (h2.bound s hs).1
  unfold LeafB at this
  rw [ht] at this
  dsimp only at this
  have e : LIVE = 2684289024 := rfl
  omega

/-- So C01 holds for such histories without any condition on files. -/
theorem C75_store_is_a_map {cfg : Cfg} {q : Nat} {t0 t : Tree} {w : Charged} {es : List Event} (h0 : Tree.create cfg = some t0) (h : QRun cfg q t0 (fun _ => 0) es t w)
    (hq : q ≤ 805000000) (hm : cfg.maxShardSize.toNat + q + 81918 < 4294967296) : LikeIdealMap cfg Map.empty es :=
  C01_store_is_a_map (C75_files_stay_small h0 h hq hm).1

/-- A configuration with the default sizes in which keys that begin with the byte 255 fall into row 1 and the others into row 0. -/
def rowCfg : Cfg :=
  { hash := fun b => if b.head? = some 255 then ⟨0x100000001#64, 0#64⟩ else ⟨0x1#64, 0#64⟩,
    maxShardSize := 67108864, minCompaction := 8388608, expectedKeys := 0, maxListOps := 64 }

theorem rowCfg_create : Tree.create rowCfg = some (.leaf ⟨0, 65536, MFile.empty, none⟩) := rfl

theorem not_like_map {cfg : Cfg} {k v : Bytes} (hk : k.length ≤ 16128) (hv : v.length ≤ 65280) (hm : k.length + 1 + v.length ≤ cfg.maxShardSize.toNat) : ∀ (es : List Event) (m : Map),
    ¬ LikeIdealMap cfg m (es ++ [.call (.kv k (.set v)) (.ok (.setStatus .createdNew)), .call (.kv k .get) (.ok (.val none))])
  | [], m, h => by
    rw [List.nil_append] at h
    unfold LikeIdealMap at h
    rw [kvError_fits (op := .set v) rfl ⟨hk, hv, hm⟩] at h
    have h2 := h.2
    unfold LikeIdealMap at h2
    simp [kvError, KvOp.value?, kvAnswer] at h2
  | e :: es, m, h => by
    have ih := not_like_map (cfg := cfg) hk hv hm es
    rw [List.cons_append] at h
    cases e with
    | call c r =>
      cases c with
      | kv k' op =>
        unfold LikeIdealMap at h
        split at h
        · exact ih _ h.2
        · exact ih _ h.2
      | typed | list | queue => exact ih _ h
    | merge => exact ih _ h
    | clear => exact ih _ h
    | reopen => exact ih _ h
    | crash c =>
      cases c with
      | none => exact ih _ h
      | some c =>
        cases c with
        | kv k' op =>
          unfold LikeIdealMap at h
          rcases h with h | h
          · exact ih _ h
          · exact ih _ h.2
        | typed | list | queue => exact ih _ h

/-- **C75** fails for a compaction that lasts too long: with the default sizes, a history exists of 65791 `set`s of one key, and one of another key that is lost. The store answers `CreatedNew` to the last `set` and then does not find the
key: it is not a map. (The compaction, which begins with the 131st `set`, is not given a chance to run; a background compaction that failed, e.g. for lack of disk space, has the same effect for ever: `files.1` stays set.) -/
theorem C75_refuted : ∃ es t w q, QRun rowCfg q (.leaf ⟨0, 65536, MFile.empty, none⟩) (fun _ => 0) es t w ∧ q = 4294968066 ∧ ¬ LikeIdealMap rowCfg Map.empty es := by
  have hrep : ∀ (l : Nat) (b : UInt8), b ≠ 255 → ∀ y ∈ List.replicate l b, y ≠ 255 := fun l b hb y hy => by rw [List.eq_of_mem_replicate hy]; exact hb
  have hlen : ∀ (l : Nat) (b : UInt8), (List.replicate l b).length = l := fun l b => List.length_replicate
  have hne : ∀ l : Nat, l = 65280 → List.replicate l (0 : UInt8) ≠ List.replicate l 1 := by
    intro l hl e
    cases l with
    | zero => cases hl
    | succ l => rw [List.replicate_succ, List.replicate_succ] at e; cases e
  obtain ⟨l, hl⟩ : ∃ l : Nat, l = 65280 := ⟨_, rfl⟩
  have e1 : rowCfg.minCompaction.toNat = 8388608 := rfl
  have e2 : rowCfg.maxShardSize.toNat = 67108864 := rfl
  have hk : ([65] : Bytes).length = 1 := rfl
  obtain ⟨es, s, v, h1, h2, _, h3⟩ := swell (cfg := rowCfg) (k := [65]) (v0 := List.replicate l 0) (v1 := List.replicate l 1) (x := 65282) (by decide +kernel) (by decide) (by decide) (hrep l 0 (by decide)) (hrep l 1 (by decide))
    (by rw [hlen]; omega) (by rw [hlen]; omega) (by rw [hlen, hk]; omega) (by rw [hlen, hk]; omega) (hne l hl) (by rw [e1]; omega) (by rw [e1, e2]; omega) 65790 (by omega)
  obtain ⟨s', h4, h5⟩ := h2.lost (b := userKey [255]) (w := [7]) (by omega) (by decide +kernel) rfl (by decide) (by rw [e1, e2]; omega)
  have h6 := h1.append (set_call (r := .createdNew) (by decide) (by decide) (by decide) h4 (.inl ⟨rfl, rfl⟩))
  have h7 := h6.append (get_call (k := [255]))
  have hg : (Tree.leaf s').get rowCfg (userKey [255]) = none := h5
  rw [hg] at h7
  obtain ⟨w, h8, _⟩ := h7.toQ (q := 4294968066) (fun b hb => by
    rw [List.append_assoc] at hb
    rcases List.mem_append.1 hb with hb | hb
    · obtain ⟨u, r, e⟩ := h3 _ hb; cases e
    · simp at hb) (w := fun _ => 0) (fun _ => Nat.zero_le _) (by decide)
  refine ⟨_, _, w, _, h8, rfl, ?_⟩
  rw [List.append_assoc]
  exact not_like_map (by decide) (by decide) (by decide) es _

theorem runT_noMerge {cfg : Cfg} : ∀ (cs : List Cmd) (n : Nat) (t : Tree) {n' t' es}, runT cfg cs n t = some (n', t', es) → ∀ b, Event.merge b ∉ es
  | [], n, t, n', t', es, h => by cases h; exact fun b hb => by cases hb
  | .call c :: cs, n, t, n', t', es, h => by
    unfold runT at h
    split at h
    · cases h
    · cases h
    · split at h
      · cases h
      · rename_i hq
        cases h
        intro b hb
        rcases List.mem_cons.1 hb with e | hb
        · cases e
        · exact runT_noMerge cs _ _ hq b hb
  | .bg sel :: cs, n, t, n', t', es, h => by
    unfold runT at h
    split at h
    · cases h
    · exact runT_noMerge cs _ _ h

/-- A script on a new store, within a quota. -/
def checkQ (cfg : Cfg) (q : Nat) (cs : List Cmd) (chk : Tree → Bool) : Bool :=
  match Tree.create cfg with
  | none => false
  | some t0 => match runT cfg cs 0 t0 with
    | none => false
    | some (n, t, _) => decide (n ≤ q) && chk t

theorem checkQ_sound {cfg : Cfg} {q : Nat} {cs : List Cmd} {chk : Tree → Bool} (h : checkQ cfg q cs chk = true) :
    ∃ t0 es t w, Tree.create cfg = some t0 ∧ QRun cfg q t0 (fun _ => 0) es t w ∧ chk t = true := by
  unfold checkQ at h
  cases hc : Tree.create cfg with
  | none => rw [hc] at h; cases h
  | some t0 =>
    rw [hc] at h
    dsimp only at h
    cases hr : runT cfg cs 0 t0 with
    | none => rw [hr] at h; cases h
    | some x =>
      obtain ⟨n, t, es⟩ := x
      rw [hr] at h
      simp only [Bool.and_eq_true, decide_eq_true_eq] at h
      obtain ⟨w, h1, _⟩ := (runT_sound cs _ _ hr).toQ (runT_noMerge cs _ _ hr) (w := fun _ => 0) (fun _ => Nat.le_refl _) h.1
      exact ⟨t0, es, t, w, rfl, h1, h.2⟩

/-- `minCompaction` of one byte. -/
def busyCfg : Cfg := { runCfg with minCompaction := 1 }

/-- Not vacuous: a store with a running compaction of which two rows are done, and a write during it. -/
example : ∃ t0 es t w, Tree.create busyCfg = some t0 ∧ QRun busyCfg 1000 t0 (fun _ => 0) es t w ∧ t.compacting (0, 65536) = true :=
  checkQ_sound (cs := [.call (.kv [97] (.set [1])), .call (.kv [97] (.set [2])), .call (.kv [98] (.set [3])), .bg 0, .bg 0, .call (.kv [97] (.set [4]))]) (chk := fun t => t.compacting (0, 65536))
    (by decide +kernel)

end Candy.Props
