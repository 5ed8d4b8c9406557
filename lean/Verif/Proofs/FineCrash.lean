import Verif.Model.FineCrash
import Verif.Proofs.CrashLocal
import Verif.Proofs.FineStep
/-!
# The files at any moment of a concurrent period can be opened
-/
namespace Candy
open Spec

theorem Tree.Shape.tiles {lo hi : Nat} {t : Tree} (h : Tree.Shape lo hi t) (hn : t.NonDegenerate) (hd : Dyadic lo hi) : Tiles lo hi t.leaves := by
  induction h with
  | @leaf lo hi s hlo hhi hle =>
    subst hlo hhi
    exact Tiles.single hd
  | @vertex lo hi b t hle hb ht ih1 ih2 =>
    rw [Tree.NonDegenerate.vertex] at hn
    obtain ⟨n, h1, h2⟩ := hd
    cases n with
    | zero =>
      exfalso
      have e : midOf lo hi = lo := by unfold midOf; rw [h2]; simp; omega
      have : ∀ {a b : Nat} {u : Tree}, Tree.Shape a b u → u.NonDegenerate → a < b := by
        intro a b u hu
        induction hu with
        | @leaf a b s h1 h2 h3 => intro hn; have := hn s (List.mem_singleton.2 rfl); omega
        | vertex _ _ _ ih1 ih2 =>
          intro hn
          rw [Tree.NonDegenerate.vertex] at hn
          exact Nat.lt_trans (ih1 hn.1) (ih2 hn.2)
      have := this hb hn.1
      omega
    | succ n =>
      have hp := Nat.two_pow_pos n
      have hm : midOf lo hi = lo + 2 ^ n := by unfold midOf; rw [h2, Nat.pow_succ]; omega
      have hdv : 2 ^ n ∣ lo := Nat.dvd_trans ⟨2, by rw [Nat.pow_succ]⟩ h1
      rw [Tree.leaves_vertex]
      exact Tiles.append (ih1 hn.1 ⟨n, hdv, hm⟩) (ih2 hn.2 ⟨n, by rw [hm]; exact Nat.dvd_add hdv (Nat.dvd_refl _), by rw [hm, h2, Nat.pow_succ]; omega⟩)

/-- At any time the files of a shard can be opened. -/
theorem Sim.rok {cfg : Cfg} {ex : Bool} {S : FState} {A : AState} {pen : Who → Option Reg} {led : Ledger} (h : Sim cfg ex S A pen led) {sel : Nat}
    (hsel : sel < END_OF_SHARDS) : ROK cfg (S.tree.find sel) := by
  have hok := h.core.shard sel hsel
  have hbal := fun sd => h.bal.loose hsel sd
  have hf : ∀ f, (S.tree.find sel).tgt = some f → (S.tree.find sel).file .tgt = f := by intro f e; unfold Shard.file; rw [e]; rfl
  refine ⟨hok.files .src, fun f e => ?_, hbal .src, fun f e => hf f e ▸ hbal .tgt⟩
  have hf := hf f e
  have hcu := hok.cu
  have hfr := hok.fresh (by rw [e]; rfl)
  rw [hf] at hcu hfr
  have hrow : ∀ a X sel', Actors cfg S.tree S.bg S.thr a X sel' → X.bg = true → (S.tree.find sel').lo = (S.tree.find sel).lo → CopyAt X.row (S.tree.find sel) := by
    intro a X sel' hw hb hl
    obtain ⟨h1, h2, h3⟩ := h.core.act a X sel' hw
    have := h.core.shape.find_lo (spanAll h1) (spanAll hsel) hl
    rw [← this]; exact h3.copy hb
  refine ⟨hf ▸ hok.files .tgt, hcu, fun hlt => ?_, fun r c h1 h2 h3 => ?_⟩
  · by_cases hR : BgRow S.tree (Actors cfg S.tree S.bg S.thr) (S.tree.find sel).lo f.compactedUpTo
    · obtain ⟨a, X, sel', hw, hb, hl, hr⟩ := hR
      rcases hrow a X sel' hw hb hl with hc | ⟨hc, hc'⟩
      · rw [hf] at hc; omega
      · rw [hf, hr] at hc'
        exact ⟨fun c _ h2 kv hk => hc' c h2 kv hk, fun c h1 => by omega⟩
    · exact Partial.of_empty (fun c hc => live_eq_none.2 (hfr _ (Nat.le_refl _) hlt hR c hc))
  · refine live_eq_none.2 (hfr r (Nat.le_of_lt h1) h2 (fun hR => ?_) c h3)
    obtain ⟨a, X, sel', hw, hb, hl, hr⟩ := hR
    rcases hrow a X sel' hw hb hl with hc | ⟨hc, _⟩ <;> (rw [hf] at hc; omega)

theorem Tree.find_leaves (t : Tree) (sel : Nat) : t.find sel ∈ t.leaves := by
  induction t with
  | leaf s => exact List.mem_singleton.2 rfl
  | vertex b t ih1 ih2 =>
    rw [Tree.find_vertex, Tree.leaves_vertex]
    split
    · exact List.mem_append_left _ ih1
    · exact List.mem_append_right _ ih2

/-- What the shards hold is what is read. -/
theorem Tree.Shape.holds_get {cfg : Cfg} {t : Tree} (h : Tree.Shape 0 END_OF_SHARDS t) (hn : t.NonDegenerate) (hok : ∀ s ∈ t.leaves, ROK cfg s) (k v : Bytes) :
    Holds cfg t.leaves k v ↔ t.get cfg k = some v := by
  constructor
  · rintro ⟨s, hs, hv⟩
    obtain ⟨h1, h2, h3⟩ := h.find_leaf hs (hn s hs)
    obtain ⟨c, hc, hl⟩ := mem_liveRow.1 ((hok s hs).val_mem.1 hv)
    have := ((hok s hs).active _).span _ _ _ (cfg.ph k).rowSel_lt hc hl
    have e := h.find_same (sel := s.lo) (spanAll (Nat.lt_of_lt_of_le (hn s hs) h2)) (sel' := (cfg.ph k).shardSel) (by rw [h3]; exact this)
    show (t.find (cfg.ph k).shardSel).val cfg k = some v
    rw [e, h3]; exact hv
  · intro hv
    exact ⟨_, t.find_leaves _, hv⟩

theorem midOf_of_wide {lo hi : Nat} (h : lo + 1 < hi) : lo < midOf lo hi ∧ midOf lo hi < hi := by
  unfold midOf; omega

/-- A process killed at any time leaves the abstract map. -/
theorem Sim.crash {cfg : Cfg} {ex : Bool} {S : FState} {A : AState} {pen : Who → Option Reg} {led : Ledger} (h : Sim cfg ex S A pen led) (hn : S.tree.NonDegenerate)
    {d : Dir} (hd : FineCrash cfg S d) : Recov cfg d A.map := by
  obtain ⟨d0, hd0, hi⟩ := hd
  obtain ⟨hnd, hF⟩ := hd0.dirF
  have hok : ∀ s ∈ S.tree.leaves, ROK cfg s := by
    intro s hs
    obtain ⟨_, h2, h3⟩ := h.core.shape.find_leaf hs (hn s hs)
    rw [← h3]; exact h.rok (Nat.lt_of_lt_of_le (hn s hs) h2)
  have ht : Tiles 0 65536 S.tree.leaves := h.core.shape.tiles hn dyadic_full
  have hctx : ∀ pre s post, S.tree.leaves = pre ++ [s] ++ post → Ctx cfg d0.find pre [s] post := fun pre s post e => ⟨e ▸ hF, e ▸ ht, e ▸ hok⟩
  have hinv : ∀ s ∈ S.tree.leaves, s.tgt = none → s.Inv cfg := fun s hs hq =>
    ⟨(hok s hs).src, (fun t e => by rw [hq] at e; cases e), (fun t e => by rw [hq] at e; cases e), (fun t e => by rw [hq] at e; cases e)⟩
  have key : ∀ los d1 d2, Interrupted cfg S los d1 d2 → d1.Nodup → Mixed cfg S.tree.leaves d0.find los d1.find →
      d2.Nodup ∧ ∃ los', Mixed cfg S.tree.leaves d0.find los' d2.find := by
    intro los d1 d2 hi
    induction hi with
    | nil los d => exact fun h1 h2 => ⟨h1, los, h2⟩
    | @begin los d1 d2 d3 i c p op a off hthr ho hx hl hc rest ih =>
      intro h1 h2
      obtain ⟨g1, g2⟩ := hc.find h1
      have hs : S.shard cfg op ∈ S.tree.leaves := S.tree.find_leaves _
      refine ih g1 (h2.step ht hs hl (beginOps_on (hn _ hs) off) (fun F' hF' => ?_) g2)
      obtain ⟨pre, post, e⟩ := List.append_of_mem hs
      have e : S.tree.leaves = pre ++ [S.shard cfg op] ++ post := by rw [e]; simp
      have hself : Loc cfg pre post (fun k v => (S.shard cfg op).val cfg k = some v) d0.find :=
        (hctx pre _ post e).loc (fun k v => ⟨fun ⟨x, hx, hv⟩ => by cases List.mem_singleton.1 hx; exact hv, fun hv => ⟨_, List.mem_singleton.2 rfl, hv⟩⟩)
      cases hq : (S.shard cfg op).tgt with
      | none =>
        obtain ⟨_, ⟨_, q⟩, _⟩ := (hctx pre _ post e).begin (hinv _ hs hq) off
        exact Loc.recAt (e ▸ ht) (q F' hF')
      | some t =>
        have e2 : (S.shard cfg op).beginOps off = [] := by
          unfold Shard.beginOps
          split
          · rfl
          · rw [hq]
        rw [e2] at hF'
        cases hF'
        exact Loc.recAt (e ▸ ht) hself
    | @split los d1 d2 d3 i c p op hthr ho hx hq hf hw hl hc rest ih =>
      intro h1 h2
      obtain ⟨g1, g2⟩ := hc.find h1
      have hs : S.shard cfg op ∈ S.tree.leaves := S.tree.find_leaves _
      have hm := midOf_of_wide hw
      refine ih g1 (h2.step ht hs hl (splitOps_on hq hm.1 hm.2) (fun F' hF' => ?_) g2)
      obtain ⟨pre, post, e⟩ := List.append_of_mem hs
      have e : S.tree.leaves = pre ++ [S.shard cfg op] ++ post := by rw [e]; simp
      obtain ⟨_, _, _, _, ⟨_, q⟩, _⟩ := (hctx pre _ post e).split (hinv _ hs hq) ⟨hf.1, fun t e => by rw [hq] at e; cases e⟩ hm.1
      exact Loc.recAt (e ▸ ht) (q F' hF')
  obtain ⟨q1, los, q2⟩ := key [] d0 d hi hnd (Ctx.mixed hctx hF ht)
  obtain ⟨l, r1, r2⟩ := RecAt.glue ht q2.recs (fun n _ hne => q2.only n hne)
  refine ⟨q1, l, r1, fun k v => (r2 k v).trans ?_⟩
  rw [h.map]
  exact h.core.shape.holds_get hn hok k v

end Candy
