import Verif.Spec.Conc
/-!
# Specification of concurrent behaviour: calls in parts

Some calls are not atomic: other calls can come in between. Each of them consists of parts that are atomic calls of the public API, one after the other, with other threads' calls (and
parts) in between. `Does q c ps r`: the call `c` that returns `r` has consisted of the parts `ps` (with their answers). `q lk` says that list `lk` is quiet: nobody is discarding it, and nobody is
compacting another list with the same hash; otherwise nothing is said about what is read without its lock.
-/
namespace Candy.Spec

def _root_.Candy.Res.Failed {α : Type} : Res α → Prop
  | .err _ => True
  | .panic => True
  | _ => False

/-- An item has been read. -/
def looked (q : Bytes → Bool) (lk : Bytes) (kv : KV) : List (Call × Res Resp) :=
  if q lk then [(.list lk (.get kv.1), .ok (.val (some kv.2)))] else []

/-- `pop_list_head`/`tail`: items are read and then removed, one after the other, until a removal succeeds. The answer is the item as it was read. -/
inductive Pops (q : Bytes → Bool) (lk : Bytes) : List (Call × Res Resp) → Res Resp → Prop
  | nothing : Pops q lk [] (.ok (.item none))
  | got (kv : KV) (u : Bytes) : Pops q lk (looked q lk kv ++ [(.list lk (.remove kv.1), .ok (.val (some u)))]) (.ok (.item (some kv)))
  | lost (kv : KV) {ps : List (Call × Res Resp)} {r : Res Resp} (h : Pops q lk ps r) :
      Pops q lk (looked q lk kv ++ (.list lk (.remove kv.1), .ok (.val none)) :: ps) r
  | failed (kv : KV) {r : Res Resp} (h : r.Failed) : Pops q lk (looked q lk kv ++ [(.list lk (.remove kv.1), r)]) r

/-- The elements of a queue that are found between two indices: one after the other in the order of iteration. -/
def Found (fwd : Bool) (h t : Nat) (l : List (Nat × Bytes)) : Prop :=
  (∀ e ∈ l, h ≤ e.1 ∧ e.1 < t) ∧ l.Pairwise (fun a b => if fwd then a.1 < b.1 else b.1 < a.1)

/-- The parts of a call, and its answer. -/
def Does (q : Bytes → Bool) (c : Call) (ps : List (Call × Res Resp)) (r : Res Resp) : Prop :=
  match c with
  | .list lk (.setPromoting ik v) =>
    (∃ x, ps = [(.list lk (.remove ik), .ok x), (.list lk (.set ik v), r)]) ∨ (r.Failed ∧ ps = [(.list lk (.remove ik), r)])
  | .list lk (.pop _) => Pops q lk ps r
  | .list lk (.get _) => if q lk then ps = [(c, r)] else ps = [] ∧ ∃ o, r = .ok (.val o)
  | .list lk (.iter _) => ∃ l, r = .ok (.items l) ∧ ps = l.flatMap (looked q lk)
  | .list lk (.peek _) => ∃ o : Option KV, r = .ok (.item o) ∧ ps = o.toList.flatMap (looked q lk)
  | .list _ .len => ps = [] ∧ ∃ n, r = .ok (.num n)
  | .queue qk (.iter fwd) => ∃ h t l, ps = [(.queue qk .range, .ok (.range (h, t)))] ∧ Found fwd h t l ∧ r = .ok (.elems l)
  | .queue qk (.peek fwd) => ∃ h t, ∃ o : Option (Nat × Bytes), ps = [(.queue qk .range, .ok (.range (h, t)))] ∧ Found fwd h t o.toList ∧ r = .ok (.elem o)
  | .queue qk .getBig => ∃ h t l, ps = [(.queue qk .range, .ok (.range (h, t)))] ∧ Found true h t l ∧
      r = .ok (.val (if l = [] then none else some (l.map Prod.snd).flatten))
  | .queue qk (.setBig v) =>
    (∃ b x, ps = [(.queue qk .discard, .ok (.flag b)), (.queue qk (.extend (chunks MAX_VALUE_SIZE v)), .ok x)] ∧ r = .ok (.flag b)) ∨
    (r.Failed ∧ ∃ b, ps = [(.queue qk .discard, .ok (.flag b)), (.queue qk (.extend (chunks MAX_VALUE_SIZE v)), r)]) ∨
    (r.Failed ∧ ps = [(.queue qk .discard, r)])
  | c => ps = [(c, r)]

/-- The call `c` that has done `done` may continue with the part `c'`. -/
def MayDo (q : Bytes → Bool) (c : Call) (done : List (Call × Res Resp)) (c' : Call) : Prop :=
  ∃ r' rest r, Does q c (done ++ (c', r') :: rest) r

/-- Where a thread is: outside any call; in a call that has finished these parts; in a part of such a call. -/
inductive PPhase where
  | out
  | between (c : Call) (done : List (Call × Res Resp))
  | inside (c : Call) (done : List (Call × Res Resp)) (c' : Call)

/-- `Splits q ph tr tr'`: the history `tr'` shows the same threads as `tr`, with the parts of each call instead of the call. Every part begins and ends between the beginning and the end of its call,
and the call returns what `Does` says. -/
inductive Splits (q : Bytes → Bool) : (Nat → PPhase) → List CEvent → List CEvent → Prop
  | nil (ph : Nat → PPhase) : Splits q ph [] []
  | inv {ph : Nat → PPhase} {tr tr' : List CEvent} (i : Nat) (c : Call) (h : ph i = .out)
      (rest : Splits q (setN ph i (.between c [])) tr tr') : Splits q ph (.inv i c :: tr) tr'
  | start {ph : Nat → PPhase} {tr tr' : List CEvent} {i : Nat} {c : Call} {done : List (Call × Res Resp)} (c' : Call) (h : ph i = .between c done) (hd : MayDo q c done c')
      (rest : Splits q (setN ph i (.inside c done c')) tr tr') : Splits q ph tr (.inv i c' :: tr')
  | finish {ph : Nat → PPhase} {tr tr' : List CEvent} {i : Nat} {c : Call} {done : List (Call × Res Resp)} {c' : Call} (r : Res Resp) (h : ph i = .inside c done c')
      (rest : Splits q (setN ph i (.between c (done ++ [(c', r)]))) tr tr') : Splits q ph tr (.ret i c' r :: tr')
  | ret {ph : Nat → PPhase} {tr tr' : List CEvent} {i : Nat} {c : Call} {done : List (Call × Res Resp)} (r : Res Resp) (h : ph i = .between c done) (hd : Does q c done r)
      (rest : Splits q (setN ph i .out) tr tr') : Splits q ph (.ret i c r :: tr) tr'

/-- In this concurrent period, nobody discards a list with the hash of `lk`, and nobody compacts one other than `lk` itself. -/
def quietIn (cfg : Cfg) (tr : List CEvent) (lk : Bytes) : Bool := tr.all (fun e => match e with
  | .inv _ (.list lk' .discard) => decide (cfg.listPh lk' ≠ cfg.listPh lk)
  | .inv _ (.list lk' (.compact _)) => decide (cfg.listPh lk' = cfg.listPh lk → lk' = lk)
  | _ => true)

/-- `tr'` is `tr` with the parts of the calls instead of the calls. -/
def InParts (cfg : Cfg) (tr tr' : List CEvent) : Prop := Splits (quietIn cfg tr) (fun _ => .out) tr tr'

/-- The life of a store with the parts of the concurrent calls instead of the calls. -/
inductive LifeInParts (cfg : Cfg) : List Block → List Block → Prop
  | nil : LifeInParts cfg [] []
  | seq {bs bs' : List Block} (es : List Event) (rest : LifeInParts cfg bs bs') : LifeInParts cfg (.seq es :: bs) (.seq es :: bs')
  | conc {bs bs' : List Block} {tr tr' : List CEvent} (h : InParts cfg tr tr') (rest : LifeInParts cfg bs bs') : LifeInParts cfg (.conc tr :: bs) (.conc tr' :: bs')
  | died {bs bs' : List Block} {tr tr' : List CEvent} (h : InParts cfg tr tr') (rest : LifeInParts cfg bs bs') : LifeInParts cfg (.died tr :: bs) (.died tr' :: bs')

end Candy.Spec
