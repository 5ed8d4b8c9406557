import Verif.Proofs.AConc
/-!
# Atomic calls are linearizable: executions on the shard tree
-/
namespace Candy
open Spec

/-- What the execution does on the map. -/
theorem ConcRun.abstract {cfg : Cfg} {s s' : CState} {tr : List CEvent} (h : ConcRun cfg s tr s') {ex : Bool} :
    Tree.OK cfg ex 0 END_OF_SHARDS s.tree → Tree.OK cfg ex 0 END_OF_SHARDS s'.tree ∧
      AConcRun cfg ⟨s.tree.get cfg, s.locks, s.thr⟩ tr ⟨s'.tree.get cfg, s'.locks, s'.thr⟩ := by
  induction h with
  | nil s => exact fun h => ⟨h, .nil _⟩
  | inv i c h _ ih => intro hok; obtain ⟨h1, h2⟩ := ih hok; exact ⟨h1, .inv i c h h2⟩
  | raw h hl hs hc _ ih =>
    intro hok
    obtain ⟨hok', hst⟩ := hc.sim hok hs
    obtain ⟨h1, h2⟩ := ih hok'
    exact ⟨h1, .raw h hl hst h2⟩
  | lock h hf _ ih => intro hok; obtain ⟨h1, h2⟩ := ih hok; exact ⟨h1, .lock h hf h2⟩
  | unlock h _ ih => intro hok; obtain ⟨h1, h2⟩ := ih hok; exact ⟨h1, .unlock h h2⟩
  | ret h hr hne _ ih => intro hok; obtain ⟨h1, h2⟩ := ih hok; exact ⟨h1, .ret h hr hne h2⟩
  | bg sel hs h _ ih =>
    intro hok
    obtain ⟨hok', hg⟩ := bg_get hok hs h
    obtain ⟨h1, h2⟩ := ih hok'
    rw [hg] at h2
    exact ⟨h1, h2⟩

/-- From a quiet state to a quiet state. -/
theorem ConcRun.idle {cfg : Cfg} {t : Tree} {s : CState} {tr : List CEvent} (h : ConcRun cfg (CState.idle t) tr s) (hq : ∀ i, s.thr i = none) {ex : Bool} {w : World}
    (hok : Tree.OK cfg ex 0 END_OF_SHARDS t) (hw : MAbs cfg (t.get cfg) w) (hat : Serial cfg tr) :
    ∃ ops w', Linearizes tr ops ∧ SpecRun cfg w (ops.map (fun o => .call o.1 o.2)) w' ∧ Tree.OK cfg ex 0 END_OF_SHARDS s.tree ∧ MAbs cfg (s.tree.get cfg) w' := by
  obtain ⟨hok', ha⟩ := h.abstract hok
  obtain ⟨ops, w', h1, h2, h3⟩ := ha.idle hw hat
  exact ⟨ops, w', h1, h2, hok', h3 hq⟩

end Candy
