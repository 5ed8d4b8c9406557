import Verif.Proofs.Shape
import Verif.Props.Fine
import Verif.Props.Isolation
/-!
# C67: most calls never panic, whatever other threads do
-/
namespace Candy.Props
open Candy.Spec

/-- **C67**. After any life of the store - calls of any kind one at a time or concurrently, lists whose keys have the same hash, deaths of the process at any moment - any number of
threads make calls of any kind, whose single memory accesses alternate in any way that the code's locks allow. No call panics, except possibly those that decrease the number of items of a list or
queue or compute the number of its holes (C55 shows that these can panic). -/
theorem C67_no_panic {cfg : Cfg} {bs : List Block} {t : Tree} (h : ReachableC cfg bs t) {tr : List CEvent} {S : FState} (hr : FineRun cfg (FState.idle t) tr S)
    {i : Nat} {c : Call} {r : Res Resp} (hm : CEvent.ret i c r ∈ tr) (hc : c.subtractsNothing = true) : r ≠ .panic := by
  obtain ⟨t0, h0, h1⟩ := h
  have hsh := h1.shape h0
  obtain ⟨A, pen, led, h5, h6⟩ := hr.sim (Sim.idle (h1.sane true (create_sane h0).1).ok)
  have := (h5.types (Pan := fun c => c.subtractsNothing = false) (Q := fun _ => anyRes) hsh (fun i c p e => by cases e) (fun i c _ => types_call c id)).2 i c r hm
  rintro rfl
  rw [show c.subtractsNothing = false from this] at hc
  cases hc

/-- **C67**, the same for calls made one at a time. -/
theorem C67_no_panic_sequential {cfg : Cfg} {bs : List Block} {t t' : Tree} (h : ReachableC cfg bs t) {c : Call} (hc : c.subtractsNothing = true) :
    ¬ Calls cfg t c .panic t' := by
  obtain ⟨t0, h0, h1⟩ := h
  have hsh := h1.shape h0
  rintro ⟨p, hx, hp⟩
  obtain ⟨_, hx'⟩ := hx.sim (h1.sane true (create_sane h0).1).ok
  have := ((types_call c id).exec hsh hx').2.result hp
  rw [show c.subtractsNothing = false from this] at hc
  cases hc

/-! ### The hypotheses are met -/

def clashBefore : List (Call × Res Resp) :=
  [(.list [76] (.set [97] [1]), .ok (.setStatus .createdNew)), (.list [77] (.set [98] [2]), .ok (.setStatus .createdNew)), (.list [76] (.set [99] [3]), .ok (.setStatus .createdNew))]

/-- The lists 76 and 77 have the same hash. Thread 0 discards list 76 while thread 1 iterates over list 77 and thread 2 adds an item to it. -/
def clashSched : List FCmd := [.go 0 (.list [76] .discard), .step 0 9, .go 1 (.list [77] (.iter true)), .go 2 (.list [77] (.set [100] [9])), .step 0 30, .step 0 1308, .fin 0 (.ok (.flag true)),
  .step 1 100, .step 2 1717, .fin 2 (.ok (.setStatus .createdNew)), .step 1 455, .fin 1 (.ok (.items []))]

set_option maxRecDepth 100000 in
theorem clash_demo : checkF clashCfg clashBefore 3 clashSched = true := by decide +kernel

/-- Thread 1 iterates over list 77 while list 76 has been discarded, together with the items of list 77 (C27), and thread 2 adds an item to list 77. -/
example : ∃ t S, ReachableC clashCfg [.seq (hist clashBefore)] t ∧ FineRun clashCfg (FState.idle t) (traceF clashSched (fun _ => none)) S ∧
    CEvent.ret 1 (.list [77] (.iter true)) (.ok (.items [])) ∈ traceF clashSched (fun _ => none) ∧ (Call.list [77] (.iter true)).subtractsNothing = true := by
  obtain ⟨t, S, ⟨t0, h0, h1⟩, h2⟩ := checkF_sound clash_demo
  exact ⟨t, S, ⟨t0, h0, .seq h1 (.nil _)⟩, h2, by simp [traceF, clashSched, setN], rfl⟩

/-- ... and of the sequential version: list 77 is used after list 76 of the same hash has been discarded. -/
example : ∃ t t', ReachableC clashCfg [.seq (hist (clashBefore ++ [(.list [76] .discard, .ok (.flag true))]))] t ∧ Calls clashCfg t (.list [77] .len) (.ok (.num 1)) t' := by
  obtain ⟨t, t', ⟨t0, h0, h1⟩, h2⟩ := checkHist_append (cfg := clashCfg) (cs := clashBefore ++ [(.list [76] .discard, .ok (.flag true))]) (ds := [(.list [77] .len, .ok (.num 1))]) (by decide +kernel)
  obtain ⟨t1, h3, _⟩ := h2.cons_call
  exact ⟨t, t1, ⟨t0, h0, .seq h1 (.nil _)⟩, h3⟩

end Candy.Props
