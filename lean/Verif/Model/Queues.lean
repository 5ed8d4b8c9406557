import Verif.Model.Lists
/-!
# Queues (src/queues.rs) and big values (src/store.rs:527-558)
-/
namespace Candy

/-- `make_queue_key` (src/queues.rs:99-106): the record's key; the lock is chosen by the hash of the bare queue key. -/
def queueKey (qk : Bytes) : Bytes := qk ++ QUEUE_NS
def Cfg.queueLock (cfg : Cfg) (qk : Bytes) : Nat := cfg.lockIdx (cfg.ph qk)

/-- `make_queue_item_key` (src/queues.rs:107-112). -/
def qitemKey (qk : Bytes) (idx : Nat) : Bytes := qk ++ enc64 idx ++ QITEM_NS

/-- `QueuePos` (src/queues.rs:33-36). -/
inductive QPos where
  | head
  | tail
deriving DecidableEq

/-- `_push_to_queue` (src/queues.rs:114-151), under the lock. -/
def pushQueueBody (qk v : Bytes) (pos : QPos) : Prog Nat := do
  let idx ← (do
    match ← gocRaw (queueKey qk) (encMeta FIRST_IDX (FIRST_IDX + 1) 1) with
    | .createdNew _ => return FIRST_IDX
    | .existingValue b =>
      let q ← decMeta b
      match pos with
      | .head =>
        let head ← idxPred q.head
        let num ← idxSucc q.num
        let _ ← setRaw (queueKey qk) (encMeta head q.tail num)
        return head
      | .tail =>
        let tail ← idxSucc q.tail
        let num ← idxSucc q.num
        let _ ← setRaw (queueKey qk) (encMeta q.head tail num)
        return q.tail)
  let _ ← setRaw (qitemKey qk idx) v
  return idx

/-- `push_to_queue_head` / `push_to_queue_tail` (src/queues.rs:154-169). -/
def pushQueue (cfg : Cfg) (qk v : Bytes) (pos : QPos) : Prog Nat :=
  Prog.withLock (cfg.queueLock qk) (pushQueueBody qk v pos)

/-- The loop of `_pop_queue` at the head (src/queues.rs:181-191), `n` = number of indices left: new head, popped element. -/
def popHeadLoop (qk : Bytes) : Nat → Nat → Prog (Nat × Option (Nat × Bytes))
  | 0, head => .ret (head, none)
  | n + 1, head => do
    match ← Prog.removeRaw (qitemKey qk head) with
    | some v => return (head + 1, some (head, v))
    | none => popHeadLoop qk n (head + 1)

/-- The loop of `_pop_queue` at the tail (src/queues.rs:194-203). -/
def popTailLoop (qk : Bytes) : Nat → Nat → Prog (Nat × Option (Nat × Bytes))
  | 0, tail => .ret (tail, none)
  | n + 1, tail => do
    match ← Prog.removeRaw (qitemKey qk (tail - 1)) with
    | some v => return (tail - 1, some (tail - 1, v))
    | none => popTailLoop qk n (tail - 1)

/-- `if queue.is_empty() { remove_raw } else { set_raw }` (src/queues.rs:206-210, 277-281). -/
def putQueueMeta (qk : Bytes) (head tail num : Nat) : Prog Unit := do
  if head = tail then
    let _ ← Prog.removeRaw (queueKey qk)
    return ()
  else
    let _ ← setRaw (queueKey qk) (encMeta head tail num)
    return ()

/-- `_pop_queue` (src/queues.rs:171-213), under the lock. -/
def popQueueBody (qk : Bytes) (pos : QPos) : Prog (Option (Nat × Bytes)) := do
  match ← Prog.getRaw (queueKey qk) with
  | none => return none
  | some b =>
    let q ← decMeta b
    match pos with
    | .head =>
      let (head, res) ← popHeadLoop qk (q.tail - q.head) q.head
      let num ← if res.isSome then numPred q.num else pure q.num
      putQueueMeta qk head q.tail num
      return res
    | .tail =>
      let (tail, res) ← popTailLoop qk (q.tail - q.head) q.tail
      let num ← if res.isSome then numPred q.num else pure q.num
      putQueueMeta qk q.head tail num
      return res

/-- `pop_queue_head_with_idx` / `pop_queue_tail_with_idx` (src/queues.rs:216-246). -/
def popQueue (cfg : Cfg) (qk : Bytes) (pos : QPos) : Prog (Option (Nat × Bytes)) :=
  Prog.withLock (cfg.queueLock qk) (popQueueBody qk pos)

/-- `remove_from_queue` (src/queues.rs:255-286), under the lock. -/
def removeFromQueueBody (qk : Bytes) (idx : Nat) : Prog (Option Bytes) := do
  match ← Prog.removeRaw (qitemKey qk idx) with
  | none => return none
  | some v =>
    match ← Prog.getRaw (queueKey qk) with
    | none => return some v
    | some b =>
      let q ← decMeta b
      let head ← if q.head = idx then idxSucc q.head else pure q.head
      let tail ← if q.tail = idx + 1 then idxPred q.tail else pure q.tail
      let num ← numPred q.num
      putQueueMeta qk head tail num
      return some v

/-- `remove_from_queue` (src/queues.rs:255-286). -/
def removeFromQueue (cfg : Cfg) (qk : Bytes) (idx : Nat) : Prog (Option Bytes) :=
  Prog.withLock (cfg.queueLock qk) (removeFromQueueBody qk idx)

/-- The loop of `discard_queue` (src/queues.rs:299-301). -/
def discardQLoop (qk : Bytes) : List Nat → Prog Unit
  | [] => .ret ()
  | i :: is => do
    let _ ← Prog.removeRaw (qitemKey qk i)
    discardQLoop qk is

/-- `discard_queue` (src/queues.rs:289-305), under the lock. -/
def discardQueueBody (qk : Bytes) : Prog Bool := do
  match ← Prog.getRaw (queueKey qk) with
  | none => return false
  | some b =>
    let q ← decMeta b
    discardQLoop qk (idxs true q.head q.tail)
    let _ ← Prog.removeRaw (queueKey qk)
    return true

/-- `discard_queue` (src/queues.rs:289-305). -/
def discardQueue (cfg : Cfg) (qk : Bytes) : Prog Bool :=
  Prog.withLock (cfg.queueLock qk) (discardQueueBody qk)

/-- `fetch_queue` (src/queues.rs:307-316). -/
def fetchQueue (cfg : Cfg) (qk : Bytes) : Prog (Option Meta) := do
  match ← Prog.withLock (cfg.queueLock qk) (Prog.getRaw (queueKey qk)) with
  | none => return none
  | some b =>
    let q ← decMeta b
    return some q

/-- The loop of `extend_queue` (src/queues.rs:350-357): final tail index. -/
def extendLoop (qk : Bytes) : List Bytes → Nat → Prog Nat
  | [], tail => .ret tail
  | v :: vs, tail => do
    let _ ← setRaw (qitemKey qk tail) v
    let tail' ← idxSucc tail
    extendLoop qk vs tail'

/-- `extend_queue` (src/queues.rs:326-363), under the lock. -/
def extendQueueBody (qk : Bytes) (vs : List Bytes) : Prog (Nat × Nat) := do
  let st ← gocRaw (queueKey qk) (encMeta FIRST_IDX FIRST_IDX 0)
  let q ← decMeta st.value
  let tail ← extendLoop qk vs q.tail
  if U64 ≤ q.num + vs.length then .exhausted
  else
    let _ ← setRaw (queueKey qk) (encMeta q.head tail (q.num + vs.length))
    return (q.tail, tail)

/-- `extend_queue` (src/queues.rs:326-363). -/
def extendQueue (cfg : Cfg) (qk : Bytes) (vs : List Bytes) : Prog (Nat × Nat) :=
  Prog.withLock (cfg.queueLock qk) (extendQueueBody qk vs)

/-- All elements of a range of indices: `iter_queue(..).collect()` (src/queues.rs:47-85). -/
def collectQ (qk : Bytes) : List Nat → Prog (List (Nat × Bytes))
  | [] => .ret []
  | i :: is => do
    match ← Prog.getRaw (qitemKey qk i) with
    | none => collectQ qk is
    | some v =>
      let rest ← collectQ qk is
      return (i, v) :: rest

/-- `iter_queue` / `iter_queue_backwards`, collected (src/queues.rs:414-438). -/
def iterQueue (cfg : Cfg) (qk : Bytes) (fwd : Bool) : Prog (List (Nat × Bytes)) := do
  match ← fetchQueue cfg qk with
  | none => return []
  | some q => collectQ qk (idxs fwd q.head q.tail)

/-- The first element of a range of indices: one call of `next` (src/queues.rs:47-85). -/
def firstQ (qk : Bytes) : List Nat → Prog (Option (Nat × Bytes))
  | [] => .ret none
  | i :: is => do
    match ← Prog.getRaw (qitemKey qk i) with
    | none => firstQ qk is
    | some v => return some (i, v)

/-- `peek_queue_head_with_idx` / `peek_queue_tail_with_idx` (src/queues.rs:366-407). -/
def peekQueue (cfg : Cfg) (qk : Bytes) (fwd : Bool) : Prog (Option (Nat × Bytes)) := do
  match ← fetchQueue cfg qk with
  | none => return none
  | some q => firstQ qk (idxs fwd q.head q.tail)

/-- `queue_len` (src/queues.rs:441-446). -/
def queueLen (cfg : Cfg) (qk : Bytes) : Prog Nat := do
  match ← fetchQueue cfg qk with
  | none => return 0
  | some q => return q.num

/-- `queue_range` (src/queues.rs:449-454). -/
def queueRange (cfg : Cfg) (qk : Bytes) : Prog (Nat × Nat) := do
  match ← fetchQueue cfg qk with
  | none => return (FIRST_IDX, FIRST_IDX)
  | some q => return (q.head, q.tail)

/-- `val.chunks(MAX_VALUE_SIZE)` (src/store.rs:533). -/
def chunks (n : Nat) (b : Bytes) : List Bytes :=
  if h : b = [] ∨ n = 0 then []
  else b.take n :: chunks n (b.drop n)
termination_by b.length
decreasing_by
  have : b.length ≠ 0 := fun e => h (Or.inl (List.length_eq_zero_iff.1 e))
  have : n ≠ 0 := fun e => h (Or.inr e)
  simp only [List.length_drop]; omega

/-- `set_big` (src/store.rs:527-535). -/
def setBig (cfg : Cfg) (k v : Bytes) : Prog Bool := do
  let existed ← discardQueue cfg k
  let _ ← extendQueue cfg k (chunks MAX_VALUE_SIZE v)
  return existed

/-- `get_big` (src/store.rs:539-552). -/
def getBig (cfg : Cfg) (k : Bytes) : Prog (Option Bytes) := do
  let l ← iterQueue cfg k true
  if l = [] then return none else return some (l.map Prod.snd).flatten

/-- `remove_big` (src/store.rs:556-558). -/
def removeBig (cfg : Cfg) (k : Bytes) : Prog Bool := discardQueue cfg k

end Candy
