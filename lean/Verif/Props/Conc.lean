import Verif.Proofs.ConcRunner
import Verif.Proofs.Life
import Verif.Proofs.LinInv
import Verif.Props.Kv
import Verif.Props.Lists
import Verif.Props.Queues
/-!
# C38, C39, C53, C54: concurrent calls
-/
namespace Candy.Props
open Candy.Spec

/-! ## C38 -/

/-- A history of the store from its creation, with concurrent periods. -/
def ReachableC (cfg : Cfg) (bs : List Block) (t : Tree) : Prop := ∃ t0, Tree.create cfg = some t0 ∧ Lives cfg t0 bs t

/-- All concurrent calls are key-value calls, change a list or queue in one critical section (`Call.atomic`), or are `get_from_list` on a list that is not
discarded at the same time (`Serial`). -/
def SerialCalls (cfg : Cfg) (bs : List Block) : Prop := ∀ tr, Block.conc tr ∈ bs ∨ Block.died tr ∈ bs → Serial cfg tr

/-- **C38** (partial). In every life of the store with any number of threads calling concurrently, there is a sequential history in which each
concurrent call happens at one moment between its beginning and its return (`Spec.Explains`, `Spec.Linearizes`) and in which all calls,
concurrent or not, answer as the ideal map, the ideal lists and the ideal queues do. Missing: a concurrent
`set_in_list_promoting` (false: `C38_refuted_promoting`), `pop_list_*` (false: `C39_refuted`), `set_big` (false: `C53_refuted`),
reading a list or queue (false for `peek_queue_*`: `C54_refuted`) other than by
`get_from_list` (false if the list is being discarded: `C66_refuted_discard`) and `queue_len`/`queue_range`. The process may be killed at any moment of a concurrent period too (`Block.died`, `Spec.LinearizesTo`): the calls that have not taken
effect then are as if a process had died inside each of them. -/
theorem C38_serializable_partial {cfg : Cfg} {bs : List Block} {t : Tree} (h : ReachableC cfg bs t) (hat : SerialCalls cfg bs) :
    ∃ es, Explains bs es ∧ LikeIdealMap cfg Map.empty es ∧ (∀ lk, NoClash cfg lk es → LikeIdealList cfg lk (some LState.new) es) ∧
      (∀ qk, LikeIdealQueue cfg qk (some QState.new) es) := by
  obtain ⟨t0, h0, h1⟩ := h
  obtain ⟨hs, hg⟩ := create_sane h0
  obtain ⟨es, w, g1, g2, _⟩ := h1.refines true World.new hs (by rw [hg]; exact MAbs.new cfg) hat
  exact ⟨es, g1, specRun_likeIdealMap g2, fun lk hn => specRun_likeList g2 hn, fun qk => (specRun_queue g2).1⟩

/-- Two threads push to and pop from a queue, and a third updates an item of a list that the first one removes. Steps alternate. -/
def concDemo : List SCmd :=
  [.go 0 (.queue [81] (.push .tail [3])), .go 1 (.queue [81] (.pop .head)), .step 1, .step 1, .go 2 (.list [76] (.set [97] [9])),
   .step 2, .step 1, .step 2, .step 1, .step 2, .step 1, .fin 1 (.ok (.elem (some (9223372036854775808, [1])))),
   .step 0, .go 1 (.kv [76] (.set [5])), .step 0, .step 1, .step 0, .fin 1 (.ok (.setStatus .createdNew)), .step 0, .step 0,
   .step 2, .fin 0 (.ok (.num 9223372036854775810)), .go 0 (.list [76] (.remove [97])), .fin 2 (.ok (.setStatus (.prevValue [8]))),
   .step 0, .step 0, .step 0, .step 0, .step 0, .step 0, .step 0, .fin 0 (.ok (.val (some [9])))]

def concBefore : List (Call × Res Resp) :=
  [(.queue [81] (.push .tail [1]), .ok (.num 9223372036854775808)), (.queue [81] (.push .tail [2]), .ok (.num 9223372036854775809)),
   (.list [76] (.set [97] [8]), .ok (.setStatus .createdNew))]

def concAfter : List (Call × Res Resp) :=
  [(.queue [81] (.iter true), .ok (.elems [(9223372036854775809, [2]), (9223372036854775810, [3])])), (.list [76] (.iter true), .ok (.items []))]

set_option maxRecDepth 100000 in
theorem conc_demo : checkC runCfg concBefore 3 concDemo concAfter = true := by decide +kernel

/-- The life consisting of a sequential block, a concurrent one and another sequential one. -/
theorem lives_of_check {cfg cs N sch ds} (h : checkC cfg cs N sch ds = true) :
    ∃ t, ReachableC cfg [.seq (hist cs), .conc (traceOf sch (fun _ => none)), .seq (hist ds)] t := by
  obtain ⟨t, s, t', ⟨t0, h0, h1⟩, h2, h3, h4⟩ := checkC_sound h
  exact ⟨t', t0, h0, .seq h1 (.conc h2 h3 (.seq h4 (.nil _)))⟩

theorem atomic_of_all {cfg : Cfg} {tr : List CEvent} (h : tr.all (fun e => match e with | .inv _ c => c.atomic | .ret .. => true) = true) :
    Serial cfg tr := .of_atomic (fun _ _ hm => List.all_eq_true.1 h _ hm)

/-- The hypotheses of C38 are met. -/
example : ∃ t, ReachableC runCfg [.seq (hist concBefore), .conc
    [.inv 0 (.queue [81] (.push .tail [3])), .inv 1 (.queue [81] (.pop .head)), .inv 2 (.list [76] (.set [97] [9])),
     .ret 1 (.queue [81] (.pop .head)) (.ok (.elem (some (9223372036854775808, [1])))), .inv 1 (.kv [76] (.set [5])),
     .ret 1 (.kv [76] (.set [5])) (.ok (.setStatus .createdNew)), .ret 0 (.queue [81] (.push .tail [3])) (.ok (.num 9223372036854775810)),
     .inv 0 (.list [76] (.remove [97])), .ret 2 (.list [76] (.set [97] [9])) (.ok (.setStatus (.prevValue [8]))),
     .ret 0 (.list [76] (.remove [97])) (.ok (.val (some [9])))], .seq (hist concAfter)] t ∧
    SerialCalls runCfg [.seq (hist concBefore), .conc (traceOf concDemo (fun _ => none)), .seq (hist concAfter)] := by
  obtain ⟨t, h⟩ := lives_of_check conc_demo
  refine ⟨t, h, fun tr hm => ?_⟩
  simp only [List.mem_cons, reduceCtorEq, Block.conc.injEq, List.not_mem_nil, or_false, false_or] at hm
  subst hm
  exact atomic_of_all rfl

/-! ### What is not serializable -/

def promoteBefore : List (Call × Res Resp) := [(.list [76] (.set [97] [1]), .ok (.setStatus .createdNew))]

def promoteSched : List SCmd :=
  [.go 0 (.list [76] (.setPromoting [97] [2])), .step 0, .step 0, .step 0, .step 0, .step 0, .step 0, .step 0,
   .go 1 (.list [76] (.getOrCreate [97] [7])), .step 1, .step 1, .step 1, .step 1, .step 1, .step 1, .fin 1 (.ok (.gocStatus (.createdNew [7]))),
   .step 0, .step 0, .step 0, .step 0, .fin 0 (.ok (.setStatus (.prevValue [7])))]

set_option maxRecDepth 100000 in
theorem promote_run : checkC runCfg promoteBefore 2 promoteSched [] = true := by decide +kernel

/-- **C38 is false for `set_in_list_promoting`**: the item 97 is in the list; while thread 0 promotes it, `get_or_create_in_list` of thread 1
does not find it and creates it, although no call ever removed it. No sequential order of the two calls explains this (whatever the
promoting call returns). -/
theorem C38_refuted_promoting : ∃ (t : Tree) (r : Res Resp),
    ReachableC runCfg [.seq [.call (.list [76] (.set [97] [1])) (.ok (.setStatus .createdNew))],
      .conc [.inv 0 (.list [76] (.setPromoting [97] [2])), .inv 1 (.list [76] (.getOrCreate [97] [7])),
        .ret 1 (.list [76] (.getOrCreate [97] [7])) (.ok (.gocStatus (.createdNew [7]))), .ret 0 (.list [76] (.setPromoting [97] [2])) r], .seq []] t ∧
    ∀ r es, Explains [.seq [.call (.list [76] (.set [97] [1])) (.ok (.setStatus .createdNew))],
      .conc [.inv 0 (.list [76] (.setPromoting [97] [2])), .inv 1 (.list [76] (.getOrCreate [97] [7])),
        .ret 1 (.list [76] (.getOrCreate [97] [7])) (.ok (.gocStatus (.createdNew [7]))), .ret 0 (.list [76] (.setPromoting [97] [2])) (.ok r)], .seq []] es →
      ¬ LikeIdealList runCfg [76] (some LState.new) es := by
  obtain ⟨t, h⟩ := lives_of_check promote_run
  refine ⟨t, _, h, fun r es he hl => ?_⟩
  obtain ⟨ops, h1, rfl⟩ := explains_scs he
  rcases lin_overlap h1 with rfl | rfl
  · obtain ⟨_, ⟨s1, ⟨⟨a1, _⟩, _⟩, rfl⟩, hl⟩ := hl
    obtain ⟨_, ⟨s2, ⟨⟨a2, _⟩, _⟩, rfl⟩, hl⟩ := hl
    obtain ⟨_, ⟨s3, ⟨a3, _⟩, rfl⟩, hl⟩ := hl
    simp only [a1, a2, lAnswer] at a3
    simp [LState.new, OList.set, OList.get, OList.erase] at a3
  · obtain ⟨_, ⟨s1, ⟨⟨a1, _⟩, _⟩, rfl⟩, hl⟩ := hl
    obtain ⟨_, ⟨s2, ⟨a2, _⟩, rfl⟩, hl⟩ := hl
    simp only [a1, lAnswer] at a2
    simp [LState.new, OList.set, OList.get] at a2

/-! ## C39 -/

def popBefore : List (Call × Res Resp) := [(.list [76] (.set [97] [1]), .ok (.setStatus .createdNew))]

def popSched : List SCmd :=
  [.go 0 (.list [76] (.pop true)), .step 0, .step 0, .step 0, .step 0, .step 0,
   .go 1 (.list [76] (.set [97] [2])), .step 1, .step 1, .step 1, .step 1, .fin 1 (.ok (.setStatus (.prevValue [1]))),
   .step 0, .step 0, .step 0, .step 0, .step 0, .step 0, .step 0, .fin 0 (.ok (.item (some ([97], [1]))))]

def popAfter : List (Call × Res Resp) := [(.list [76] (.get [97]), .ok (.val none)), (.list [76] (.iter true), .ok (.items []))]

set_option maxRecDepth 100000 in
theorem pop_run : checkC runCfg popBefore 2 popSched popAfter = true := by decide +kernel

/-- **C39 is false**: item 97 has value 1. While thread 0 pops the head of the list, thread 1 sets the item to 2 and is told that the previous
value was 1; thread 0 then removes the item with value 2 and returns value 1. The value 2 was acknowledged, was never overwritten, and
nobody ever sees it; no sequential order of the two calls explains this. -/
theorem C39_refuted : ∃ t,
    ReachableC runCfg [.seq [.call (.list [76] (.set [97] [1])) (.ok (.setStatus .createdNew))],
      .conc [.inv 0 (.list [76] (.pop true)), .inv 1 (.list [76] (.set [97] [2])),
        .ret 1 (.list [76] (.set [97] [2])) (.ok (.setStatus (.prevValue [1]))), .ret 0 (.list [76] (.pop true)) (.ok (.item (some ([97], [1]))))],
      .seq [.call (.list [76] (.get [97])) (.ok (.val none)), .call (.list [76] (.iter true)) (.ok (.items []))]] t ∧
    ∀ es, Explains [.seq [.call (.list [76] (.set [97] [1])) (.ok (.setStatus .createdNew))],
      .conc [.inv 0 (.list [76] (.pop true)), .inv 1 (.list [76] (.set [97] [2])),
        .ret 1 (.list [76] (.set [97] [2])) (.ok (.setStatus (.prevValue [1]))), .ret 0 (.list [76] (.pop true)) (.ok (.item (some ([97], [1]))))],
      .seq [.call (.list [76] (.get [97])) (.ok (.val none)), .call (.list [76] (.iter true)) (.ok (.items []))]] es →
      ¬ LikeIdealList runCfg [76] (some LState.new) es := by
  obtain ⟨t, h⟩ := lives_of_check pop_run
  refine ⟨t, h, fun es he hl => ?_⟩
  obtain ⟨ops, h1, rfl⟩ := explains_scs he
  rcases lin_overlap h1 with rfl | rfl
  · obtain ⟨_, ⟨s1, ⟨⟨a1, _⟩, _⟩, rfl⟩, hl⟩ := hl
    obtain ⟨_, ⟨s2, ⟨⟨_, a2⟩, _⟩, rfl⟩, hl⟩ := hl
    obtain ⟨_, ⟨s3, ⟨⟨_, a3⟩, _⟩, rfl⟩, hl⟩ := hl
    simp [a1, LState.new, OList.set, OList.dir] at a2
    simp [a2, OList.get, OList.erase] at a3
  · obtain ⟨_, ⟨s1, ⟨⟨a1, _⟩, _⟩, rfl⟩, hl⟩ := hl
    obtain ⟨_, ⟨s2, ⟨⟨a2, _⟩, _⟩, rfl⟩, hl⟩ := hl
    obtain ⟨_, ⟨s3, ⟨⟨a3, _⟩, _⟩, rfl⟩, hl⟩ := hl
    simp [a1, a2, LState.new, OList.set, OList.get, OList.dir] at a3

/-! ## C53 -/

def bigSched : List SCmd :=
  [.go 0 (.queue [66] (.setBig [1])), .go 1 (.queue [66] (.setBig [2])), .step 0, .step 0, .step 0, .step 1, .step 1, .step 1,
   .step 0, .step 0, .step 0, .step 0, .step 0, .fin 0 (.ok (.flag false)),
   .step 1, .step 1, .step 1, .step 1, .step 1, .fin 1 (.ok (.flag false))]

def bigAfter : List (Call × Res Resp) := [(.queue [66] .getBig, .ok (.val (some [1, 2])))]

set_option maxRecDepth 100000 in
theorem big_run : checkC runCfg [] 2 bigSched bigAfter = true := by decide +kernel

/-- **C53 is false**: two threads store the big values 1 and 2 under one key; afterwards `get_big` returns the concatenation 1 2. -/
theorem C53_refuted : ∃ t,
    ReachableC runCfg [.seq [], .conc [.inv 0 (.queue [66] (.setBig [1])), .inv 1 (.queue [66] (.setBig [2])),
        .ret 0 (.queue [66] (.setBig [1])) (.ok (.flag false)), .ret 1 (.queue [66] (.setBig [2])) (.ok (.flag false))],
      .seq [.call (.queue [66] .getBig) (.ok (.val (some [1, 2])))]] t := lives_of_check big_run

/-! ## C54 -/

def peekBefore : List (Call × Res Resp) := [(.queue [81] (.push .tail [1]), .ok (.num 9223372036854775808))]

def peekSched : List SCmd :=
  [.go 0 (.queue [81] (.peek true)), .step 0, .step 0, .step 0,
   .go 1 (.queue [81] (.push .tail [2])), .step 1, .step 1, .step 1, .step 1, .step 1, .fin 1 (.ok (.num 9223372036854775809)),
   .go 1 (.queue [81] (.pop .head)), .step 1, .step 1, .step 1, .step 1, .step 1, .fin 1 (.ok (.elem (some (9223372036854775808, [1])))),
   .step 0, .fin 0 (.ok (.elem none))]

def peekAfter : List (Call × Res Resp) := [(.queue [81] (.iter true), .ok (.elems [(9223372036854775809, [2])]))]

set_option maxRecDepth 100000 in
theorem peek_run : checkC runCfg peekBefore 2 peekSched peekAfter = true := by decide +kernel

/-- **C54 is false**: the queue has one element. While thread 0 peeks, thread 1 pushes a second element and then pops the first. The queue was
never empty, but `peek_queue_head` returns `None`; no sequential order of the calls explains this. -/
theorem C54_refuted : ∃ t,
    ReachableC runCfg [.seq [.call (.queue [81] (.push .tail [1])) (.ok (.num 9223372036854775808))],
      .conc [.inv 0 (.queue [81] (.peek true)), .inv 1 (.queue [81] (.push .tail [2])),
        .ret 1 (.queue [81] (.push .tail [2])) (.ok (.num 9223372036854775809)), .inv 1 (.queue [81] (.pop .head)),
        .ret 1 (.queue [81] (.pop .head)) (.ok (.elem (some (9223372036854775808, [1])))), .ret 0 (.queue [81] (.peek true)) (.ok (.elem none))],
      .seq [.call (.queue [81] (.iter true)) (.ok (.elems [(9223372036854775809, [2])]))]] t ∧
    ∀ es, Explains [.seq [.call (.queue [81] (.push .tail [1])) (.ok (.num 9223372036854775808))],
      .conc [.inv 0 (.queue [81] (.peek true)), .inv 1 (.queue [81] (.push .tail [2])),
        .ret 1 (.queue [81] (.push .tail [2])) (.ok (.num 9223372036854775809)), .inv 1 (.queue [81] (.pop .head)),
        .ret 1 (.queue [81] (.pop .head)) (.ok (.elem (some (9223372036854775808, [1])))), .ret 0 (.queue [81] (.peek true)) (.ok (.elem none))],
      .seq [.call (.queue [81] (.iter true)) (.ok (.elems [(9223372036854775809, [2])]))]] es →
      ¬ LikeIdealQueue runCfg [81] (some QState.new) es := by
  obtain ⟨t, h⟩ := lives_of_check peek_run
  refine ⟨t, h, fun es he hl => ?_⟩
  obtain ⟨ops, h1, rfl⟩ := explains_scs he
  rcases lin_during h1 with rfl | rfl | rfl
  · obtain ⟨_, ⟨hp, _⟩, hl⟩ := hl
    obtain ⟨s1, ⟨⟨a1, _⟩, _⟩, rfl⟩ := hp trivial
    obtain ⟨_, ⟨hp, _⟩, hl⟩ := hl
    obtain ⟨s2, ⟨⟨a2, b2⟩, _⟩, rfl⟩ := hp trivial
    simp [a1, QState.new, Deque.pushTail, Deque.dir, Deque.empty] at b2
  · obtain ⟨_, ⟨hp, _⟩, hl⟩ := hl
    obtain ⟨s1, ⟨⟨a1, _⟩, _⟩, rfl⟩ := hp trivial
    obtain ⟨_, ⟨hp, _⟩, hl⟩ := hl
    obtain ⟨s2, ⟨⟨a2, b2⟩, _⟩, rfl⟩ := hp trivial
    obtain ⟨_, ⟨hp, _⟩, hl⟩ := hl
    obtain ⟨s3, ⟨⟨a3, b3⟩, _⟩, rfl⟩ := hp trivial
    simp [a1, a2, QState.new, Deque.pushTail, Deque.dir, Deque.empty] at b3
  · obtain ⟨_, ⟨hp, _⟩, hl⟩ := hl
    obtain ⟨s1, ⟨⟨a1, _⟩, _⟩, rfl⟩ := hp trivial
    obtain ⟨_, ⟨hp, _⟩, hl⟩ := hl
    obtain ⟨s2, ⟨⟨a2, b2⟩, _⟩, rfl⟩ := hp trivial
    obtain ⟨_, ⟨hp, _⟩, hl⟩ := hl
    obtain ⟨s3, ⟨⟨a3, b3⟩, _⟩, rfl⟩ := hp trivial
    obtain ⟨_, ⟨hp, _⟩, hl⟩ := hl
    obtain ⟨s4, ⟨⟨a4, b4⟩, _⟩, rfl⟩ := hp trivial
    simp [a1, a2, a3, QState.new, Deque.pushTail, Deque.popHead, Deque.dir, Deque.empty] at b4

end Candy.Props
