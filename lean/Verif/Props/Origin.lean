import Verif.Proofs.Origin
import Verif.Props.Parts
import Verif.Props.ConcPanic
/-!
# C70: no value comes from nowhere
-/
namespace Candy.Props
open Candy.Spec

/-- Some call that has begun in the given part of the life of the store, or in the given part of the current period, gives the value to the object (or to the same item of a list with which it is
mixed up). -/
def Given (cfg : Cfg) (bs : List Block) (tr : List CEvent) (o : Obj) (b : Bytes) : Prop :=
  ∃ c o', ((∃ B ∈ bs, B.begins c) ∨ ∃ i, CEvent.inv i c ∈ tr) ∧ Alike cfg o' o ∧ Gives c o' b

theorem given_even (cfg : Cfg) (bs : List Block) (tr : List CEvent) : Even cfg (Given cfg bs tr) := by
  rintro lk lk' ik v e ⟨c, o', h1, h2, h3⟩
  refine ⟨c, o', h1, .inr ?_, h3⟩
  rcases h2 with rfl | ⟨l1, l2, ik', rfl, e2, e3⟩
  · exact ⟨lk, lk', ik, rfl, rfl, e⟩
  · cases e2
    exact ⟨l1, lk', ik, rfl, rfl, e3.trans e⟩

theorem types_of_begun {cfg : Cfg} {bs : List Block} {tr : List CEvent} {c : Call} (h : (∃ B ∈ bs, B.begins c) ∨ ∃ i, CEvent.inv i c ∈ tr) :
    (c.prog cfg).Types cfg (OT cfg (Given cfg bs tr)) True (Sourced (Given cfg bs tr) c) :=
  otypes_call (given_even cfg bs tr) c (fun o v hg => ⟨c, o, h, .inl rfl, hg⟩)

theorem lives_given {cfg : Cfg} {bs : List Block} {t : Tree} (h : ReachableC cfg bs t) (tr : List CEvent) :
    (∃ ex, Sane cfg ex t) ∧ (OT cfg (Given cfg bs tr)).Of (t.get cfg) := by
  obtain ⟨t0, h0, h1⟩ := h
  obtain ⟨hs, hg⟩ := create_sane h0
  exact ⟨⟨_, h1.sane true hs⟩, h1.types ot_empty (fun c hc => (types_of_begun (.inl hc)).mono (fun _ _ => trivial) id) true hs (hg ▸ ot_empty)⟩

theorem fine_sourced {cfg : Cfg} {bs : List Block} {t : Tree} (h : ReachableC cfg bs t) {pre post : List CEvent} {i : Nat} {c : Call} {r : Resp} {S : FState}
    (hr : FineRun cfg (FState.idle t) (pre ++ .ret i c (.ok r) :: post) S) : Sourced (Given cfg bs pre) c r := by
  obtain ⟨⟨ex, hs⟩, hg⟩ := lives_given h pre
  obtain ⟨A, pen, led, h5, _⟩ := hr.sim (Sim.idle hs.ok)
  obtain ⟨s1, h6, _⟩ := h5.split (pre ++ [.ret i c (.ok r)]) post (by simp)
  have h7 := (h6.types (Pan := fun _ => True) (Q := Sourced (Given cfg bs pre)) hg (fun i c p e => by cases e) (fun j d hj => ?_)).2 i c (.ok r) (List.mem_append_right _ (List.mem_singleton.2 rfl))
  · exact h7
  · rcases List.mem_append.1 hj with hj | hj
    · exact types_of_begun (.inr ⟨j, hj⟩)
    · cases List.mem_singleton.1 hj

/-- **C70**. After any life of the store (with concurrent periods, deaths of the process, lists mixed up because their keys have the same hash), threads make calls of any kind in any interleaving of
their memory accesses. Every value that a call returns for a key, for an item of a list or from a queue was given for that key, item or queue by some call that had begun before: no value is
made up, torn, taken from the future or taken from another key. -/
theorem C70_no_value_from_nowhere {cfg : Cfg} {bs : List Block} {t : Tree} (h : ReachableC cfg bs t) {pre post : List CEvent} {i : Nat} {c : Call} {r : Resp} {S : FState}
    (hr : FineRun cfg (FState.idle t) (pre ++ .ret i c (.ok r) :: post) S) {o : Obj} {b : Bytes} (ho : Returns c r o b) : Given cfg bs pre o b :=
  (fine_sourced h hr).1 o b ho

/-- **C70** for big values: `get_big` returns a sequence of pieces each of which was given before (which piece of which value is not determined while `set_big` is in progress, C53). -/
theorem C70_big_pieces {cfg : Cfg} {bs : List Block} {t : Tree} (h : ReachableC cfg bs t) {pre post : List CEvent} {i : Nat} {k b : Bytes} {S : FState}
    (hr : FineRun cfg (FState.idle t) (pre ++ .ret i (.queue k .getBig) (.ok (.val (some b))) :: post) S) :
    ∃ l, l ≠ [] ∧ b = List.flatten l ∧ ∀ x ∈ l, Given cfg bs pre (.elem k) x :=
  (fine_sourced h hr).2 k b rfl rfl

/-- **C70** for calls made one at a time. -/
theorem C70_sequential {cfg : Cfg} {bs : List Block} {t t' : Tree} (h : ReachableC cfg bs t) {c : Call} {r : Resp} (hc : Calls cfg t c (.ok r) t') {o : Obj} {b : Bytes} (ho : Returns c r o b) :
    (∃ c' o', (∃ B ∈ bs, B.begins c') ∧ Alike cfg o' o ∧ Gives c' o' b) ∨ Gives c o b := by
  obtain ⟨⟨ex, hs⟩, hg⟩ := lives_given h [.inv 0 c]
  obtain ⟨p, hx, hp⟩ := hc
  obtain ⟨_, hx'⟩ := hx.sim hs.ok
  obtain ⟨c', o', h1, h2, h3⟩ := (((types_of_begun (.inr ⟨0, List.mem_singleton.2 rfl⟩)).exec hg hx').2.result hp).1 o b ho
  rcases h1 with h1 | ⟨j, h1⟩
  · exact .inl ⟨c', o', h1, h2, h3⟩
  · cases List.mem_singleton.1 h1
    refine .inr ?_
    rcases h2 with rfl | ⟨l1, l2, ik, rfl, rfl, _⟩
    · exact h3
    · cases h3 <;> cases ho <;> first | constructor | (rename_i hk _; cases hk; constructor)

/-! ### The hypotheses are met -/

/-- Thread 0 pops `([98], [2])` after thread 1 has popped `([97], [1])`. -/
example : ∃ t S, ReachableC fineCfg [.seq (hist partsBefore)] t ∧
    FineRun fineCfg (FState.idle t) (partsTrace.take 5 ++ .ret 0 (.list [76] (.pop true)) (.ok (.item (some ([98], [2])))) :: partsTrace.drop 6) S ∧
    Returns (.list [76] (.pop true)) (.item (some ([98], [2]))) (.item [76] [98]) [2] := by
  obtain ⟨t, S, ⟨t0, h0, h1⟩, h2⟩ := checkF_sound parts_demo
  exact ⟨t, S, ⟨t0, h0, .seq h1 (.nil _)⟩, h2, .oneItem ..⟩

def bigReadSched : List FCmd := [.go 0 (.queue [66] .getBig), .step 0 20, .go 1 (.queue [66] (.setBig [2])), .step 0 58, .fin 0 (.ok (.val (some [1]))), .step 1 1291, .fin 1 (.ok (.flag true))]

set_option maxRecDepth 100000 in
theorem big_read_demo : checkF fineCfg partsBefore 2 bigReadSched = true := by decide +kernel

/-- `get_big` while another thread begins to replace the big value. -/
example : ∃ t S, ReachableC fineCfg [.seq (hist partsBefore)] t ∧
    FineRun fineCfg (FState.idle t) ([.inv 0 (.queue [66] .getBig), .inv 1 (.queue [66] (.setBig [2]))] ++ .ret 0 (.queue [66] .getBig) (.ok (.val (some [1]))) ::
      [.ret 1 (.queue [66] (.setBig [2])) (.ok (.flag true))]) S := by
  obtain ⟨t, S, ⟨t0, h0, h1⟩, h2⟩ := checkF_sound big_read_demo
  exact ⟨t, S, ⟨t0, h0, .seq h1 (.nil _)⟩, h2⟩

/-- One call at a time: the value returned for item 98 of list 76 was given for item 98 of list 77, whose key has the same hash. -/
example : ∃ t t', ReachableC clashCfg [.seq (hist clashBefore)] t ∧ Calls clashCfg t (.list [76] (.get [98])) (.ok (.val (some [2]))) t' ∧
    Returns (.list [76] (.get [98])) (.val (some [2])) (.item [76] [98]) [2] := by
  obtain ⟨t, t', ⟨t0, h0, h1⟩, h2⟩ := checkHist_append (cfg := clashCfg) (cs := clashBefore) (ds := [(.list [76] (.get [98]), .ok (.val (some [2])))]) (by decide +kernel)
  obtain ⟨t1, h3, _⟩ := h2.cons_call
  exact ⟨t, t1, ⟨t0, h0, .seq h1 (.nil _)⟩, h3, .item _ _ _ _ _ rfl (.val _)⟩

end Candy.Props
