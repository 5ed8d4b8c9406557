import Verif.Model.Iter
/-!
# `iter_from_cookie` with any number (src/store.rs:143-199, 485-487)

`Model/Iter.lean` reads an empty slot when `entry_idx` is out of range. The program indexes an array of `ROW_WIDTH` signatures there and
panics; here that is modelled: `none` is the panic.
-/
namespace Candy

/-- The inner `while self.row_idx < NUM_ROWS` of `next` (src/store.rs:160-184), with `row.signatures[entry_idx]` in `read_at`
(src/shard.rs:759-761): `none` is the index being out of bounds. `n` is fuel: each step advances the position, and at most
`NUM_ROWS * ROW_WIDTH` steps are made. -/
def It.scanP (s : Shard) (raw : Bool) : Nat → Nat → Nat → Option (Nat × Nat × Option KV)
  | 0, row, ent => some (row, ent, none)
  | n + 1, row, ent =>
    if row < NUM_ROWS then
      if ROW_WIDTH ≤ ent then none
      else
        let row' := if ROW_WIDTH ≤ ent + 1 then row + 1 else row
        let ent' := if ROW_WIDTH ≤ ent + 1 then 0 else ent + 1
        match (s.readAt row ent).bind (It.show raw) with
        | some kv => some (row', ent', some kv)
        | none => It.scanP s raw n row' ent'
    else some (row, ent, none)

/-- The outer `while` of `next` (src/store.rs:157-198), on a store that does not change meanwhile; `n` is fuel: at most 65536 shards. -/
def It.nextP (t : Tree) : Nat → It → Option (It × Option KV)
  | 0, it => some (it, none)
  | n + 1, it =>
    if it.sel < END_OF_SHARDS then
      let s := t.find it.sel
      match It.scanP s it.raw (NUM_ROWS * ROW_WIDTH) it.row it.ent with
      | none => none
      | some (row, ent, some kv) => some (⟨s.lo, row, ent, it.raw⟩, some kv)
      | some (_, _, none) => It.nextP t n ⟨s.hi, 0, 0, it.raw⟩
    else some (it, none)

/-- `next` with enough fuel; `none` is a panic. -/
def It.stepP (t : Tree) (it : It) : Option (It × Option KV) := It.nextP t (END_OF_SHARDS + 1) it

/-- Calling `next` until it returns `None` (`n` is fuel); `none` is a panic. -/
def It.collectP (t : Tree) : Nat → It → Option (List KV)
  | 0, _ => some []
  | n + 1, it => match It.stepP t it with
    | none => none
    | some (it', some kv) => (It.collectP t n it').map (kv :: ·)
    | some (_, none) => some []

/-! ## While other threads modify the store -/

/-- The inner loop when the store changes meanwhile: `read n row ent` is what `read_at` finds when `n` steps are left - anything. The
arithmetic is that of src/store.rs:160-184; `none` is the panic. (`read_at` locks one row at a time, src/shard.rs:757-767.) -/
def It.scanA (read : Nat → Nat → Nat → Option KV) (raw : Bool) : Nat → Nat → Nat → Option (Nat × Nat × Option KV)
  | 0, row, ent => some (row, ent, none)
  | n + 1, row, ent =>
    if row < NUM_ROWS then
      if ROW_WIDTH ≤ ent then none
      else
        let row' := if ROW_WIDTH ≤ ent + 1 then row + 1 else row
        let ent' := if ROW_WIDTH ≤ ent + 1 then 0 else ent + 1
        match (read n row ent).bind (It.show raw) with
        | some kv => some (row', ent', some kv)
        | none => It.scanA read raw n row' ent'
    else some (row, ent, none)

/-- The outer loop (src/store.rs:157-198) when the store changes meanwhile: the shard found by the `n`-th `shared_op` has the span
`lo n`, `hi n` and the contents `read n` - anything, since shards are split, merged and cleared between the calls. -/
def It.nextA (lo hi : Nat → Nat) (read : Nat → Nat → Nat → Nat → Option KV) : Nat → It → Option (It × Option KV)
  | 0, it => some (it, none)
  | n + 1, it =>
    if it.sel < END_OF_SHARDS then
      match It.scanA (read n) it.raw (NUM_ROWS * ROW_WIDTH) it.row it.ent with
      | none => none
      | some (row, ent, some kv) => some (⟨lo n, row, ent, it.raw⟩, some kv)
      | some (_, _, none) => It.nextA lo hi read n ⟨hi n, 0, 0, it.raw⟩
    else some (it, none)

/-- Any number of calls of `next`, each of them with at most `fuel` shards visited, on a store that changes all the time. -/
def It.callsA (lo hi : Nat → Nat → Nat) (read : Nat → Nat → Nat → Nat → Nat → Option KV) (fuel : Nat → Nat) : Nat → It → Option It
  | 0, it => some it
  | m + 1, it => match It.nextA (lo m) (hi m) (read m) (fuel m) it with
    | none => none
    | some (it', _) => It.callsA lo hi read fuel m it'

end Candy
