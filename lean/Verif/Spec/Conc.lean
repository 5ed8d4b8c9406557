import Verif.Model.Conc
/-!
# Specification of concurrent behaviour: linearizability

A concurrent history is explained by a sequential one if every call takes effect at a single moment between its beginning and its
return. `Linearizes tr ops`: the calls of the concurrent history `tr` can be given such moments, and `ops` are the calls with their results in the
order of these moments. (`exhausted` is not a result of a call but stands for running out of the 2^63 indices of a list or queue.)
-/
namespace Candy.Spec

/-- Where a thread is: outside any call; in a call that has not taken effect; in a call that has taken effect, with this result. -/
inductive Phase where
  | out
  | called (c : Call)
  | effect (c : Call) (r : Res Resp)

inductive Lin : (Nat → Phase) → List CEvent → List (Call × Res Resp) → Prop
  | nil (ph : Nat → Phase) : Lin ph [] []
  | inv {ph : Nat → Phase} {tr : List CEvent} {ops : List (Call × Res Resp)} (i : Nat) (c : Call) (h : ph i = .out)
      (rest : Lin (setN ph i (.called c)) tr ops) : Lin ph (.inv i c :: tr) ops
  /-- the call of thread `i` takes effect -/
  | effect {ph : Nat → Phase} {tr : List CEvent} {ops : List (Call × Res Resp)} (i : Nat) (c : Call) (r : Res Resp) (h : ph i = .called c) (hne : r ≠ .exhausted)
      (rest : Lin (setN ph i (.effect c r)) tr ops) : Lin ph tr ((c, r) :: ops)
  | ret {ph : Nat → Phase} {tr : List CEvent} {ops : List (Call × Res Resp)} (i : Nat) (c : Call) (r : Res Resp) (h : ph i = .effect c r)
      (rest : Lin (setN ph i .out) tr ops) : Lin ph (.ret i c r :: tr) ops

/-- `ops` is a sequential explanation of `tr`. -/
def Linearizes (tr : List CEvent) (ops : List (Call × Res Resp)) : Prop := Lin (fun _ => .out) tr ops

/-- `LinTo ph tr ops ph'`: as `Lin`, and at the end the threads are as `ph'` says. -/
inductive LinTo : (Nat → Phase) → List CEvent → List (Call × Res Resp) → (Nat → Phase) → Prop
  | nil (ph : Nat → Phase) : LinTo ph [] [] ph
  | inv {ph ph' : Nat → Phase} {tr : List CEvent} {ops : List (Call × Res Resp)} (i : Nat) (c : Call) (h : ph i = .out)
      (rest : LinTo (setN ph i (.called c)) tr ops ph') : LinTo ph (.inv i c :: tr) ops ph'
  | effect {ph ph' : Nat → Phase} {tr : List CEvent} {ops : List (Call × Res Resp)} (i : Nat) (c : Call) (r : Res Resp) (h : ph i = .called c) (hne : r ≠ .exhausted)
      (rest : LinTo (setN ph i (.effect c r)) tr ops ph') : LinTo ph tr ((c, r) :: ops) ph'
  | ret {ph ph' : Nat → Phase} {tr : List CEvent} {ops : List (Call × Res Resp)} (i : Nat) (c : Call) (r : Res Resp) (h : ph i = .effect c r)
      (rest : LinTo (setN ph i .out) tr ops ph') : LinTo ph (.ret i c r :: tr) ops ph'

/-- `ops` is a sequential explanation of `tr`, the history of a period at whose end the process dies; `pend` are the calls that have begun and not taken effect by then
(with their threads). Calls that have taken effect, returned or not, are among `ops`. -/
def LinearizesTo (tr : List CEvent) (ops : List (Call × Res Resp)) (pend : List (Nat × Call)) : Prop :=
  ∃ ph, LinTo (fun _ => .out) tr ops ph ∧ (pend.map Prod.fst).Nodup ∧ ∀ i c, (i, c) ∈ pend ↔ ph i = .called c

/-- `es` is a sequential explanation of a life of the store: each concurrent block is replaced by a sequential explanation of it. The calls that have not taken effect when
the process dies are cut off one after the other, each as if the process had died inside it. -/
inductive Explains : List Block → List Event → Prop
  | nil : Explains [] []
  | seq {bs : List Block} {es : List Event} (es0 : List Event) (rest : Explains bs es) : Explains (.seq es0 :: bs) (es0 ++ es)
  | conc {tr : List CEvent} {bs : List Block} {es : List Event} (ops : List (Call × Res Resp)) (h : Linearizes tr ops) (rest : Explains bs es) :
      Explains (.conc tr :: bs) (ops.map (fun o => .call o.1 o.2) ++ es)
  | died {tr : List CEvent} {bs : List Block} {es : List Event} (ops : List (Call × Res Resp)) (pend : List (Nat × Call)) (h : LinearizesTo tr ops pend)
      (rest : Explains bs es) : Explains (.died tr :: bs) (ops.map (fun o => .call o.1 o.2) ++ (pend.map (fun x => .crash (some x.2)) ++ es))

end Candy.Spec
