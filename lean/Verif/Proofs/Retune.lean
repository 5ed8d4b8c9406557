import Verif.Model.Retune
import Verif.Proofs.History
/-!
# The representation of a store does not depend on the configuration, except for the hash function
-/
namespace Candy
open Spec

theorem Retuned.ph {cfg cfg' : Cfg} (h : Retuned cfg cfg') (k : Bytes) : cfg'.ph k = cfg.ph k := by
  unfold Cfg.ph; rw [h.hash]

theorem Retuned.listPh {cfg cfg' : Cfg} (h : Retuned cfg cfg') (k : Bytes) : cfg'.listPh k = cfg.listPh k := h.ph _

theorem Retuned.get {cfg cfg' : Cfg} (h : Retuned cfg cfg') (t : Tree) : t.get cfg' = t.get cfg := by
  funext k; unfold Tree.get; rw [h.ph]

theorem Retuned.val {cfg cfg' : Cfg} (h : Retuned cfg cfg') (s : Shard) (k : Bytes) : s.val cfg' k = s.val cfg k := by
  unfold Shard.val; rw [h.ph]

theorem Retuned.fileOK {cfg cfg' : Cfg} (h : Retuned cfg cfg') {lo hi : Nat} {f : MFile} (hf : FileOK cfg lo hi f) : FileOK cfg' lo hi f :=
  ⟨hf.ext, fun r c kv a b d => by rw [h.ph]; exact hf.sig r c kv a b d, fun r c kv a b d => by rw [h.ph]; exact hf.row r c kv a b d,
    fun r c kv a b d => by rw [h.ph]; exact hf.span r c kv a b d, hf.inj⟩

theorem Retuned.inv {cfg cfg' : Cfg} (h : Retuned cfg cfg') {s : Shard} (hs : s.Inv cfg) : s.Inv cfg' :=
  ⟨h.fileOK hs.src, fun t ht => h.fileOK (hs.tgt t ht), hs.cu, hs.fresh⟩

theorem Retuned.treeOK {cfg cfg' : Cfg} (h : Retuned cfg cfg') {ex : Bool} {lo hi : Nat} {t : Tree} (ht : Tree.OK cfg ex lo hi t) : Tree.OK cfg' ex lo hi t := by
  induction ht with
  | leaf a b c d e => exact .leaf a b c (h.inv d) e
  | vertex a _ _ ih1 ih2 => exact .vertex a ih1 ih2

theorem Retuned.sane {cfg cfg' : Cfg} (h : Retuned cfg cfg') {ex : Bool} {t : Tree} (hs : Sane cfg ex t) : Sane cfg' ex t := ⟨h.keys, h.treeOK hs.ok⟩

theorem Retuned.rok {cfg cfg' : Cfg} (h : Retuned cfg cfg') {s : Shard} (hs : ROK cfg s) : ROK cfg' s :=
  ⟨h.fileOK hs.src, fun t ht => ⟨h.fileOK (hs.tgt t ht).ok, (hs.tgt t ht).cu, (hs.tgt t ht).part, (hs.tgt t ht).fresh⟩, hs.acct⟩

theorem Retuned.recov {cfg cfg' : Cfg} (h : Retuned cfg cfg') {d : Dir} {m : Map} (hd : Recov cfg d m) : Recov cfg' d m := by
  obtain ⟨hn, l, hl, hm⟩ := hd
  refine ⟨hn, l, ⟨hl.tiles, fun s hs => h.rok (hl.ok s hs), hl.src, hl.tgt, hl.shards, hl.compacts⟩, fun k v => ?_⟩
  rw [← hm]
  unfold Holds
  simp only [h.val]

theorem Retuned.size {cfg cfg' : Cfg} (h : Retuned cfg cfg') {k v : Bytes} (hk : sizeErr cfg k v = none) : sizeErr cfg' k v = none := by
  unfold sizeErr at hk ⊢
  by_cases h1 : MAX_TOTAL_KEY_SIZE < k.length
  · rw [if_pos h1] at hk; cases hk
  rw [if_neg h1] at hk ⊢
  by_cases h2 : MAX_TOTAL_VALUE_SIZE < v.length
  · rw [if_pos h2] at hk; cases hk
  rw [if_neg h2] at hk ⊢
  by_cases h3 : cfg.maxShardSize.toNat < k.length + v.length
  · rw [if_pos h3] at hk; cases hk
  rw [if_neg]
  rcases h.room with h4 | h4
  · have := UInt32.le_iff_toNat_le.1 h4
    omega
  · have a1 : MAX_TOTAL_KEY_SIZE = 16383 := rfl
    have a2 : MAX_TOTAL_VALUE_SIZE = 65535 := rfl
    omega

theorem Retuned.listAbs {cfg cfg' : Cfg} (h : Retuned cfg cfg') {m : Map} {lk : Bytes} {s : LState} (hl : ListAbs cfg m lk s) : ListAbs cfg' m lk s := by
  obtain ⟨μ, L, h1, h2⟩ := hl
  refine ⟨μ, L, ⟨?_, h1.record, h1.nil, h1.tail_lt, h1.cnt, h1.span, h1.bnd, fun x hx => h.size (h1.fit x hx)⟩, h2⟩
  rw [h.listPh]
  exact ⟨h1.items.sorted, h1.items.lt, h1.items.item, fun e he => by rw [h.ph]; exact h1.items.chain e he, h1.items.only,
    fun i x hi hx => by obtain ⟨k, e⟩ := h1.items.chainVal i x hi hx; exact ⟨k, by rw [h.ph]; exact e⟩,
    fun e he => h.size (h1.items.fits e he), fun hne => h.size (h1.items.chainFits hne)⟩

theorem Retuned.queueAbs {cfg cfg' : Cfg} (h : Retuned cfg cfg') {m : Map} {qk : Bytes} {s : QState} (hq : QueueAbs cfg m qk s) : QueueAbs cfg' m qk s := by
  obtain ⟨n, h1, h2⟩ := hq
  exact ⟨n, ⟨h1.wf, h1.record, h1.tail_lt, h1.cnt, h1.item, fun a b e => h.size (h1.fit a b e)⟩, h2⟩

theorem Retuned.abs {cfg cfg' : Cfg} (h : Retuned cfg cfg') {m : Map} {w : World} (hm : MAbs cfg m w) : MAbs cfg' m w :=
  ⟨hm.kv, hm.typed, fun lk s hs => h.listAbs (hm.lists lk s hs), fun qk s hs => h.queueAbs (hm.queues qk s hs)⟩

/-- A history of the ideal store, in which the configuration (it decides which pairs are too large) changes. -/
inductive Spec.VSpecRun : Cfg → World → List VEvent → Cfg → World → Prop
  | nil (cfg : Cfg) (w : World) : VSpecRun cfg w [] cfg w
  | same {cfg cfg' : Cfg} {w w' w'' : World} {es : List Event} {es' : List VEvent} (h : SpecRun cfg w es w') (rest : VSpecRun cfg w' es' cfg' w'') :
      VSpecRun cfg w (es.map .done ++ es') cfg' w''
  | reopened {cfg cfg' cfg'' : Cfg} {w w'' : World} {es : List VEvent} (rest : VSpecRun cfg' w es cfg'' w'') : VSpecRun cfg w (.reopened cfg' :: es) cfg'' w''
  | crashed {cfg cfg' cfg'' : Cfg} {w w' w'' : World} {c : Option Call} {es : List VEvent} (h : w.crash cfg c w') (rest : VSpecRun cfg' w' es cfg'' w'') :
      VSpecRun cfg w (.crashed c cfg' :: es) cfg'' w''

theorem VRun.refines {cfg cfg' : Cfg} {t t' : Tree} {es : List VEvent} (h : VRun cfg t es cfg' t') :
    ∀ w, Sane cfg false t → MAbs cfg (t.get cfg) w → ∃ w', VSpecRun cfg w es cfg' w' ∧ Sane cfg' false t' ∧ MAbs cfg' (t'.get cfg') w' := by
  induction h with
  | nil cfg t => exact fun w hs hm => ⟨w, .nil _ _, hs, hm⟩
  | same h _ ih =>
    intro w hs hm
    obtain ⟨w1, h1, h2, h3⟩ := h.refines false w hs hm
    obtain ⟨w2, h4, h5⟩ := ih w1 h2.weaken h3
    exact ⟨w2, .same h1 h4, h5⟩
  | @reopen cfg cfg' cfg'' t u t' t'' es d ops cb hc hsm hn hu hd h _ ih =>
    intro w hs hm
    obtain ⟨u', e', uok, usm, uq, uspan, uval⟩ := Tree.finishAll_spec hs.ok hsm
    rw [hu] at e'; simp only [Option.some.injEq] at e'; subst e'
    have un : u.NonDegenerate := by
      intro s hs
      have : (s.lo, s.hi) ∈ u.leaves.map (fun s => (s.lo, s.hi)) := List.mem_map.2 ⟨s, hs, rfl⟩
      rw [uspan, List.mem_map] at this
      obtain ⟨x, hx, hxe⟩ := this
      have := hn x hx
      simp only [Prod.mk.injEq] at hxe
      omega
    obtain ⟨ops', d', t2, h1, h2, h3, h3', h4, h5, h6, h7, h8⟩ := hd.reopen (clearBad := cb) (hc.treeOK uok) un uq usm
    rw [h] at h1
    simp only [Prod.mk.injEq, LRes.ok.injEq] at h1
    obtain ⟨rfl, rfl⟩ := h1
    have e : t'.get cfg' = t.get cfg := by
      rw [h8, hc.get]
      exact funext fun k => uval k ⟨Nat.zero_le _, (cfg.ph k).shardSel_lt⟩
    obtain ⟨w2, g1, g2⟩ := ih w ⟨hc.keys, h4⟩ (e ▸ hc.abs hm)
    exact ⟨w2, .reopened g1, g2⟩
  | crash hc h hr _ ih =>
    intro w hs hm
    obtain ⟨w1, m', h5, h6, h4⟩ := h.recov hs hm
    obtain ⟨g1, _, _, _, g2⟩ := hr.spec (hc.recov h4)
    obtain ⟨w2, h7, h8⟩ := ih w1 ⟨hc.keys, g1⟩ (g2 ▸ hc.abs h6)
    exact ⟨w2, .crashed h5 h7, h8⟩

theorem VReachable.world {cfg0 cfg : Cfg} {es : List VEvent} {t : Tree} (h : VReachable cfg0 es cfg t) :
    ∃ w, VSpecRun cfg0 World.new es cfg w ∧ Sane cfg false t ∧ MAbs cfg (t.get cfg) w := by
  obtain ⟨t0, h1, h2⟩ := h
  obtain ⟨h3, h4⟩ := create_sane h1
  exact h2.refines World.new h3.weaken (h4 ▸ MAbs.new cfg0)

end Candy
