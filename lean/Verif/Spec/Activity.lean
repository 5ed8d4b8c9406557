import Verif.Model.Counters
/-!
# Specification of the activity counters

Everything is read off from the calls and their answers.
-/
namespace Candy.Spec

/-- A call of the key-value API (typed or not) and its answer, seen as something done to one key. -/
def kvOf : Call → Option KvOp
  | .kv _ op => some op
  | .typed _ op => some op
  | _ => none

/-- The answer says that a lookup found the key: `get` and `contains` that found it, `get_or_create` that did not create. -/
def isHit : KvOp → Resp → Bool
  | .get, .val o => o.isSome
  | .contains, .flag b => b
  | .getOrCreate _, .gocStatus (.existingValue _) => true
  | _, _ => false

/-- The answer of `get` or `contains` says that the key is not there. -/
def isMiss : KvOp → Resp → Bool
  | .get, .val o => o.isNone
  | .contains, .flag b => !b
  | _, _ => false

/-- The answer says that the value of an existing key was changed to a different one. -/
def isUpdate : KvOp → Resp → Bool
  | .set v, .setStatus (.prevValue old) => decide (v ≠ old)
  | .replace v _, .replaceStatus (.prevValue old) => decide (v ≠ old)
  | _, _ => false

/-- The answer says that the key was created. -/
def isCreation : KvOp → Resp → Bool
  | .set _, .setStatus .createdNew => true
  | .getOrCreate _, .gocStatus (.createdNew _) => true
  | _, _ => false

/-- The call has returned with an answer of the given kind. -/
def SEvent.is (kind : KvOp → Resp → Bool) : SEvent → Bool
  | .call (.ret _ c (.ok r)) => match kvOf c with
    | some op => kind op r
    | none => false
  | _ => false

/-- What was observed since the last `clear`. -/
def sinceClear : List SEvent → List SEvent
  | [] => []
  | .clear :: tr => sinceClear tr
  | e :: tr => if tr.any (fun | .clear => true | _ => false) then sinceClear tr else e :: tr

end Candy.Spec
