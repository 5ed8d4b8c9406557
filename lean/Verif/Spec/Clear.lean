import Verif.Model.Clear
import Verif.Spec.Conc
/-!
# Specification: `clear` is one of the concurrent calls

`LinearizesC tr es`: every call of the history `tr`, and every `clear`, can be given a moment between its beginning and its return, and `es` are these in the order of the moments.
-/
namespace Candy.Spec

inductive LinC : (Nat → Phase) → (Nat → Option Bool) → List XEvent → List Event → Prop
  | nil (ph : Nat → Phase) (cl : Nat → Option Bool) : LinC ph cl [] []
  | inv {ph : Nat → Phase} {cl : Nat → Option Bool} {tr : List XEvent} {es : List Event} (i : Nat) (c : Call) (h : ph i = .out)
      (rest : LinC (setN ph i (.called c)) cl tr es) : LinC ph cl (.ev (.inv i c) :: tr) es
  | effect {ph : Nat → Phase} {cl : Nat → Option Bool} {tr : List XEvent} {es : List Event} (i : Nat) (c : Call) (r : Res Resp) (h : ph i = .called c) (hne : r ≠ .exhausted)
      (rest : LinC (setN ph i (.effect c r)) cl tr es) : LinC ph cl tr (.call c r :: es)
  | ret {ph : Nat → Phase} {cl : Nat → Option Bool} {tr : List XEvent} {es : List Event} (i : Nat) (c : Call) (r : Res Resp) (h : ph i = .effect c r)
      (rest : LinC (setN ph i .out) cl tr es) : LinC ph cl (.ev (.ret i c r) :: tr) es
  | clearInv {ph : Nat → Phase} {cl : Nat → Option Bool} {tr : List XEvent} {es : List Event} (j : Nat) (h : cl j = none)
      (rest : LinC ph (setN cl j (some false)) tr es) : LinC ph cl (.clearInv j :: tr) es
  /-- `clear` number `j` takes effect -/
  | clear {ph : Nat → Phase} {cl : Nat → Option Bool} {tr : List XEvent} {es : List Event} (j : Nat) (h : cl j = some false)
      (rest : LinC ph (setN cl j (some true)) tr es) : LinC ph cl tr (.clear :: es)
  | clearRet {ph : Nat → Phase} {cl : Nat → Option Bool} {tr : List XEvent} {es : List Event} (j : Nat) (h : cl j = some true)
      (rest : LinC ph (setN cl j none) tr es) : LinC ph cl (.clearRet j :: tr) es

/-- `es` is a sequential explanation of `tr`. -/
def LinearizesC (tr : List XEvent) (es : List Event) : Prop := LinC (fun _ => .out) (fun _ => none) tr es

end Candy.Spec
