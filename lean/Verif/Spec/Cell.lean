import Verif.Spec.World
import Verif.Spec.Conc
/-!
# Specification: a key is an atomic register

One key of the key-value API, or of the typed API, as seen by threads that use it concurrently: a register that can be read, written, removed, compared-and-swapped (`replace`) and
created if missing (`get_or_create`).
-/
namespace Candy.Spec

/-- A key of the key-value API or an (encoded) key of the typed API. -/
inductive Cell where
  | user (k : Bytes)
  | typed (k : Bytes)
deriving DecidableEq

/-- The call of this operation on the key. -/
def Cell.call : Cell → KvOp → Call
  | .user k => Call.kv k
  | .typed k => Call.typed k

/-- The error the call must give whatever the value is (sizes). -/
def Cell.error (cfg : Cfg) : Cell → KvOp → Option Err
  | .user k => kvError cfg k
  | .typed k => typedError cfg k

def _root_.Candy.Call.cell : Call → Option Cell
  | .kv k _ => some (.user k)
  | .typed k _ => some (.typed k)
  | _ => none

/-- The event is the beginning or the return of a call on the key. -/
def Cell.about (x : Cell) : CEvent → Bool
  | .inv _ c => decide (c.cell = some x)
  | .ret _ c _ => decide (c.cell = some x)

/-- The operations `ops` with their answers lead the register from `a` to `b`. -/
def Register (err : KvOp → Option Err) : Option Bytes → List (KvOp × Res Resp) → Option Bytes → Prop
  | a, [], b => a = b
  | a, (op, r) :: ops, b => match err op with
    | some e => r = .err e ∧ Register err a ops b
    | none => r = .ok (kvAnswer a op).1 ∧ Register err (kvAnswer a op).2 ops b

end Candy.Spec
