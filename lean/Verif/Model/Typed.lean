import Verif.Model.History
/-!
# The typed wrappers (src/typed.rs)

A typed call serializes its arguments, makes one call of the untyped API, and deserializes the answer. The serialization is that
of the `databuf` crate (not modelled): any pair of functions. `finish` is what the wrapper does with the answer; answers of a shape the
untyped call never gives are `panic` (unreachable in Rust by typing).
-/
namespace Candy

/-- `Encode` / `DecodeOwned` of `databuf`. -/
structure Codec (T : Type) where
  enc : T → Bytes
  dec : Bytes → Option T

/-- `bytes_of(&K::TYPE_ID)`: four bytes, least significant first (src/typed.rs:90). -/
def idBytes (id : UInt32) : Bytes := (List.range 4).map (fun i => UInt8.ofNat (id.toNat / 256 ^ i))

/-- What a typed call returns: as an untyped call, or a deserialization error (`from_bytes`, src/typed.rs:45-47). -/
inductive TRes (R : Type) where
  | ok (a : R)
  | err (e : Err)
  | decodeErr
  | panic
  | exhausted

/-- Answers of typed calls. -/
inductive TResp (K V : Type) where
  | val (o : Option V)
  | one (v : V)
  | flag (b : Bool)
  | unit
  | item (o : Option (K × V))
  | items (l : List (K × V))
  | elem (o : Option (Nat × V))
  | elems (l : List (Nat × V))
  | num (n : Nat)
  | range (r : Nat × Nat)

/-- `from_bytes(..)?` followed by wrapping the value up. -/
def TRes.decoded {T R : Type} (o : Option T) (f : T → R) : TRes R := match o with | some v => .ok (f v) | none => .decodeErr

/-- Errors pass through (`?`). -/
def TRes.lift {R : Type} (r : Res Resp) (f : Resp → TRes R) : TRes R :=
  match r with
  | .ok a => f a
  | .err e => .err e
  | .panic => .panic
  | .exhausted => .exhausted

/-! ## `CandyTypedStore` (src/typed.rs:59-226) -/

/-- A typed store: codecs of keys and values, and `K::TYPE_ID`. -/
structure TStore (K V : Type) where
  kc : Codec K
  vc : Codec V
  id : UInt32

/-- `make_key` without the name space byte (src/typed.rs:86-94; the byte is appended by `typedKey`). -/
def TStore.key {K V : Type} (s : TStore K V) (k : K) : Bytes := s.kc.enc k ++ idBytes s.id

/-- The operations on one key (src/typed.rs:96-189). -/
inductive TKvOp (V : Type) where
  | get
  | contains
  | remove
  | set (v : V)
  | replace (v : V) (expected : Option V)
  | getOrCreate (v : V)

/-- The serialized operation. -/
def TKvOp.raw {V : Type} (c : Codec V) : TKvOp V → KvOp
  | .get => .get
  | .contains => .contains
  | .remove => .remove
  | .set v => .set (c.enc v)
  | .replace v e => .replace (c.enc v) (e.map c.enc)
  | .getOrCreate v => .getOrCreate (c.enc v)

/-- `Option<bytes>` to `Option<V>` with `?` (e.g. src/typed.rs:110-114). -/
def decodeOpt {K V : Type} (c : Codec V) : Option Bytes → TRes (TResp K V)
  | none => .ok (.val none)
  | some b => .decoded (c.dec b) (fun v => .val (some v))

/-- What the typed call returns (src/typed.rs:96-189). -/
def TKvOp.finish {K V : Type} (c : Codec V) : TKvOp V → Res Resp → TRes (TResp K V)
  | .get, r => .lift r fun | .val o => decodeOpt c o | _ => .panic
  | .contains, r => .lift r fun | .flag b => .ok (.flag b) | _ => .panic
  | .remove, r => .lift r fun | .val o => decodeOpt c o | _ => .panic
  | .set _, r => .lift r fun
    | .setStatus .createdNew => .ok (.val none)
    | .setStatus (.prevValue b) => decodeOpt c (some b)
    | _ => .panic
  | .replace _ _, r => .lift r fun
    | .replaceStatus .doesNotExist => .ok (.val none)
    | .replaceStatus (.prevValue b) => decodeOpt c (some b)
    | .replaceStatus (.wrongValue _) => .ok (.val none)
    | _ => .panic
  | .getOrCreate _, r => .lift r fun | .gocStatus g => .decoded (c.dec g.value) .one | _ => .panic

/-- The operations on one big value (src/typed.rs:191-225). -/
inductive TBigOp (V : Type) where
  | get
  | set (v : V)
  | remove

/-- The serialized operation; the queue key is `make_key` with the name space byte (src/typed.rs:196,214,224). -/
def TBigOp.raw {V : Type} (c : Codec V) : TBigOp V → QOp
  | .get => .getBig
  | .set v => .setBig (c.enc v)
  | .remove => .removeBig

/-- What the typed call returns (src/typed.rs:191-225). -/
def TBigOp.finish {K V : Type} (c : Codec V) : TBigOp V → Res Resp → TRes (TResp K V)
  | .get, r => .lift r fun | .val o => decodeOpt c o | _ => .panic
  | .set _, r => .lift r fun | .flag b => .ok (.flag b) | _ => .panic
  | .remove, r => .lift r fun | .flag b => .ok (.flag b) | _ => .panic

/-! ## `CandyTypedList` (src/typed.rs:231-547) -/

/-- A typed list wrapper: codecs of list keys, item keys and values, and `L::TYPE_ID`. -/
structure TList (L K V : Type) where
  lc : Codec L
  kc : Codec K
  vc : Codec V
  id : UInt32

/-- `make_list_key` (src/typed.rs:259-266). -/
def TList.key {L K V : Type} (s : TList L K V) (l : L) : Bytes := s.lc.enc l ++ idBytes s.id

/-- The operations on one list (src/typed.rs:268-546). -/
inductive TLOp (K V : Type) where
  | contains (k : K)
  | get (k : K)
  | set (k : K) (v : V)
  | setPromoting (k : K) (v : V)
  | getOrCreate (k : K) (v : V)
  | replace (k : K) (v : V) (expected : Option V)
  | remove (k : K)
  | iter (fwd : Bool)
  | peek (fwd : Bool)
  | pop (fwd : Bool)
  | compact (par : CompactParams)
  | discard
  | len

/-- The serialized operation. -/
def TLOp.raw {K V : Type} (kc : Codec K) (vc : Codec V) : TLOp K V → LOp
  | .contains k => .get (kc.enc k)
  | .get k => .get (kc.enc k)
  | .set k v => .set (kc.enc k) (vc.enc v)
  | .setPromoting k v => .setPromoting (kc.enc k) (vc.enc v)
  | .getOrCreate k v => .getOrCreate (kc.enc k) (vc.enc v)
  | .replace k v e => .replace (kc.enc k) (vc.enc v) (e.map vc.enc)
  | .remove k => .remove (kc.enc k)
  | .iter fwd => .iter fwd
  | .peek fwd => .peek fwd
  | .pop fwd => .pop fwd
  | .compact par => .compact par
  | .discard => .discard
  | .len => .len

/-- `(from_bytes::<K>(&k)?, from_bytes::<V>(&v)?)`. -/
def decodeItem {K V : Type} (kc : Codec K) (vc : Codec V) (p : KV) : Option (K × V) :=
  match kc.dec p.1, vc.dec p.2 with
  | some k, some v => some (k, v)
  | _, _ => none

/-- All items; an iteration in which some item cannot be deserialized counts as failed. -/
def decodeItems {K V : Type} (kc : Codec K) (vc : Codec V) : List KV → Option (List (K × V))
  | [] => some []
  | p :: l => match decodeItem kc vc p, decodeItems kc vc l with
    | some q, some l' => some (q :: l')
    | _, _ => none

/-- `Option<(bytes, bytes)>` with `?`. -/
def decodeItemOpt {K V : Type} (kc : Codec K) (vc : Codec V) : Option KV → TRes (TResp K V)
  | none => .ok (.item none)
  | some p => .decoded (decodeItem kc vc p) (fun q => .item (some q))

/-- What the typed call returns (src/typed.rs:268-546). -/
def TLOp.finish {K V : Type} (kc : Codec K) (vc : Codec V) : TLOp K V → Res Resp → TRes (TResp K V)
  | .contains _, r => .lift r fun | .val o => .ok (.flag o.isSome) | _ => .panic
  | .get _, r => .lift r fun | .val o => decodeOpt vc o | _ => .panic
  | .set _ _, r => .lift r fun
    | .setStatus .createdNew => .ok (.val none)
    | .setStatus (.prevValue b) => decodeOpt vc (some b)
    | _ => .panic
  | .setPromoting _ _, r => .lift r fun
    | .setStatus .createdNew => .ok (.val none)
    | .setStatus (.prevValue b) => decodeOpt vc (some b)
    | _ => .panic
  | .getOrCreate _ _, r => .lift r fun | .gocStatus g => .decoded (vc.dec g.value) .one | _ => .panic
  | .replace _ _ _, r => .lift r fun
    | .replaceStatus .doesNotExist => .ok (.val none)
    | .replaceStatus (.prevValue b) => decodeOpt vc (some b)
    | .replaceStatus (.wrongValue _) => .ok (.val none)
    | _ => .panic
  | .remove _, r => .lift r fun | .val o => decodeOpt vc o | _ => .panic
  | .iter _, r => .lift r fun | .items l => .decoded (decodeItems kc vc l) .items | _ => .panic
  | .peek _, r => .lift r fun | .item o => decodeItemOpt kc vc o | _ => .panic
  | .pop _, r => .lift r fun | .item o => decodeItemOpt kc vc o | _ => .panic
  | .compact _, r => .lift r fun | .flag b => .ok (.flag b) | _ => .panic
  | .discard, r => .lift r fun | .flag b => .ok (.flag b) | _ => .panic
  | .len, r => .lift r fun | .num n => .ok (.num n) | _ => .panic

/-! ## `CandyTypedDeque` (src/typed.rs:551-742) -/

/-- The operations on one typed queue; the variants without index drop it from the answer. -/
inductive TQOp (V : Type) where
  | push (pos : QPos) (v : V)
  | pop (pos : QPos)
  | peek (fwd : Bool)
  | iter (fwd : Bool)
  | len
  | range

/-- The serialized operation (on the key of `make_list_key`). -/
def TQOp.raw {V : Type} (c : Codec V) : TQOp V → QOp
  | .push pos v => .push pos (c.enc v)
  | .pop pos => .pop pos
  | .peek fwd => .peek fwd
  | .iter fwd => .iter fwd
  | .len => .len
  | .range => .range

/-- `Option<(usize, bytes)>` with `?`. -/
def decodeElemOpt {K V : Type} (c : Codec V) : Option (Nat × Bytes) → TRes (TResp K V)
  | none => .ok (.elem none)
  | some (i, b) => .decoded (c.dec b) (fun v => .elem (some (i, v)))

/-- All elements. -/
def decodeElems {V : Type} (c : Codec V) : List (Nat × Bytes) → Option (List (Nat × V))
  | [] => some []
  | (i, b) :: l => match c.dec b, decodeElems c l with
    | some v, some l' => some ((i, v) :: l')
    | _, _ => none

/-- What the typed call returns (src/typed.rs:577-741). `iter` unwraps: it panics if an element cannot be deserialized (src/typed.rs:706,723). -/
def TQOp.finish {K V : Type} (c : Codec V) : TQOp V → Res Resp → TRes (TResp K V)
  | .push _ _, r => .lift r fun | .num _ => .ok .unit | _ => .panic
  | .pop _, r => .lift r fun | .elem o => decodeElemOpt c o | _ => .panic
  | .peek _, r => .lift r fun | .elem o => decodeElemOpt c o | _ => .panic
  | .iter _, r => .lift r fun
    | .elems l => (match decodeElems c l with | some l' => .ok (.elems l') | none => .panic)
    | _ => .panic
  | .len, r => .lift r fun | .num n => .ok (.num n) | _ => .panic
  | .range, r => .lift r fun | .range p => .ok (.range p) | _ => .panic

/-! ## What a wrapper sees of a history -/

/-- An event as seen through a typed wrapper. -/
inductive TEvent (Op R : Type) where
  | call (op : Op) (r : R)
  | crash (op : Op)
  | clear

/-- `ts` is what is seen of the history `es` through a wrapper whose operation `op` makes the call `call op` and turns its answer `r` into
`fin op r`, if all calls in `mine` were made through the wrapper: everything else that happens, but `clear`, is not seen. -/
inductive Sees {Op R : Type} (call : Op → Call) (fin : Op → Res Resp → R) (mine : Call → Prop) : List Event → List (TEvent Op R) → Prop
  | nil : Sees call fin mine [] []
  | call {es : List Event} {ts : List (TEvent Op R)} (op : Op) (r : Res Resp) (rest : Sees call fin mine es ts) :
      Sees call fin mine (.call (call op) r :: es) (.call op (fin op r) :: ts)
  | crash {es : List Event} {ts : List (TEvent Op R)} (op : Op) (rest : Sees call fin mine es ts) :
      Sees call fin mine (.crash (some (call op)) :: es) (.crash op :: ts)
  | clear {es : List Event} {ts : List (TEvent Op R)} (rest : Sees call fin mine es ts) : Sees call fin mine (.clear :: es) (.clear :: ts)
  | skip {es : List Event} {ts : List (TEvent Op R)} (e : Event) (h : ∀ c, e.begun = some c → ¬ mine c) (hc : e ≠ .clear)
      (rest : Sees call fin mine es ts) : Sees call fin mine (e :: es) ts

end Candy
