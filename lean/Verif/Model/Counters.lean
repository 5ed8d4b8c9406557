import Verif.Model.Conc
/-!
# Activity counters

`InternalStats` (src/stats.rs:137-160) counts lookups, updates and collisions in atomic counters shared by all shards; `stats()` reports them (src/stats.rs:225-245,
src/store.rs:490-504) and `clear()` resets them (src/store.rs:264, src/stats.rs:186-212). They live in memory only: opening a store starts from zero
(src/store.rs:239). Here the increments are added to the operations of `Verif.Model.Shard` and `Verif.Model.Router`. (The counters of writes by size are C61; the counters of
bytes read are not modelled.)
-/
namespace Candy

/-- `num_positive_lookups`, `num_negative_lookups`, `num_updates`, `num_collisions` (src/stats.rs:143-146), as unbounded numbers. -/
structure Counters where
  pos : Nat
  neg : Nat
  upd : Nat
  coll : Nat

def Counters.zero : Counters := ⟨0, 0, 0, 0⟩

/-- `fetch_add` on each of the counters. -/
def Counters.add (a b : Counters) : Counters := ⟨a.pos + b.pos, a.neg + b.neg, a.upd + b.upd, a.coll + b.coll⟩

/-- The increments of the loop of `Shard::get` (src/shard.rs:796-809). -/
def MFile.getCount (f : MFile) (row : Nat) (key : Bytes) : List Nat → Counters
  | [] => ⟨0, 1, 0, 0⟩
  | i :: is => if key = (f.readKV (f.slot row i).desc).1 then ⟨1, 0, 0, 0⟩ else f.getCount row key is

/-- `Shard::get` (src/shard.rs:794-811). -/
def Shard.getCount (s : Shard) (ph : PH) (key : Bytes) : Counters :=
  (s.active ph.rowSel).getCount ph.rowSel key (lookups ((s.active ph.rowSel).slot ph.rowSel) ph.sig 0)

/-- `Shard::get_by_hash` (src/shard.rs:771-792). -/
def Shard.byHashCount (s : Shard) (ph : PH) : Counters :=
  match lookups ((s.active ph.rowSel).slot ph.rowSel) ph.sig 0 with
  | [] => ⟨0, 1, 0, 0⟩
  | _ :: _ => ⟨1, 0, 0, 0⟩

/-- The increments of `Shard::try_replace` (src/shard.rs:842-893). -/
def MFile.tryReplaceCount (f : MFile) (row : Nat) (key val : Bytes) (mode : Mode) : List Nat → Counters
  | [] => .zero
  | i :: is =>
    let kv := f.readKV (f.slot row i).desc
    if key ≠ kv.1 then f.tryReplaceCount row key val mode is
    else
      let upd : Counters := if val ≠ kv.2 then ⟨0, 0, 1, 0⟩ else .zero
      match mode with
      | .getOrCreate => ⟨1, 0, 0, 0⟩
      | .set => upd
      | .replace none => upd
      | .replace (some e) => if e ≠ kv.2 then .zero else upd

/-- The increments of `Shard::insert` (src/shard.rs:980-1048). -/
def Shard.insertCount (cfg : Cfg) (s : Shard) (ph : PH) (key val : Bytes) (mode : Mode) : Counters :=
  let row := ph.rowSel
  let f := s.active row
  let ls := lookups (f.slot row) ph.sig 0
  let full := !s.tgt.isSome && !(decide (cfg.minCompaction.toNat ≤ f.wasted)) &&
    decide (cfg.maxShardSize.toNat < f.writeOff + (key.length + val.length))
  if full then .zero
  else
    match (f.tryReplace row key val mode ls).2 with
    | .notReplaced _ => f.tryReplaceCount row key val mode ls
    | .replaced _ => f.tryReplaceCount row key val mode ls
    | .keyDoesNotExist =>
      match mode with
      | .replace _ => .zero
      | _ =>
        match lookup (f.slot row) INVALID_SIG 0 with
        | some _ => ⟨0, 0, 0, if ls.isEmpty then 0 else 1⟩
        | none => .zero

/-- The increments of `ShardRouter::insert` (src/router.rs:341-394), over all attempts. -/
def Tree.insertCount (cfg : Cfg) (ph : PH) (key val : Bytes) (mode : Mode) : Nat → Tree → Counters
  | 0, _ => .zero
  | n + 1, .leaf s =>
    match s.insert cfg ph key val mode with
    | (s', .splitNeeded) =>
      match s'.split cfg with
      | none => s.insertCount cfg ph key val mode
      | some (b, t) => (s.insertCount cfg ph key val mode).add (Tree.insertCount cfg ph key val mode n (.vertex (.leaf b) (.leaf t)))
    | _ => s.insertCount cfg ph key val mode
  | n + 1, .vertex b t =>
    if ph.shardSel < b.hi then Tree.insertCount cfg ph key val mode n b else Tree.insertCount cfg ph key val mode n t

/-- One raw operation (`CStep`), with the increments it makes. -/
inductive CountStep (cfg : Cfg) {α : Type} : Tree → Prog α → Tree → Prog α → Counters → Prop
  | get (t : Tree) (k c) : CountStep cfg t (.get k c) t (c (t.get cfg k)) ((t.find (cfg.ph k).shardSel).getCount (cfg.ph k) k)
  | insErr (t : Tree) (k v mode c e) (hs : sizeErr cfg k v = some e) : CountStep cfg t (.ins k v mode c) t (.err e) .zero
  | ins (t t' : Tree) (k v mode c st n) (hs : sizeErr cfg k v = none) (h : t.insert cfg (cfg.ph k) k v mode n = .ok (t', st)) :
      CountStep cfg t (.ins k v mode c) t' (c st) (t.insertCount cfg (cfg.ph k) k v mode n)
  /-- `Shard::remove` counts nothing here (src/shard.rs:1050-1074) -/
  | rem (t : Tree) (k c) : CountStep cfg t (.rem k c) (t.remove cfg k).1 (c (t.remove cfg k).2) .zero
  | byHash (t : Tree) (ph suf c) :
      CountStep cfg t (.byHash ph suf c) t (c ((t.getByHash ph).filter (fun kv => endsWith kv.1 suf))) ((t.find ph.shardSel).byHashCount ph)

/-- What is observed of a store while it is open. -/
inductive SEvent where
  | call (e : CEvent)
  /-- `merge_small_shards` returned -/
  | merge
  /-- `clear` returned -/
  | clear

/-- What happens to an open store, with concurrent calls as in `ConcRun`, and the counters. `merge_small_shards` and `clear` are made when no call is in
progress. -/
inductive CountRun (cfg : Cfg) : CState → Counters → List SEvent → CState → Counters → Prop
  | nil (s : CState) (n : Counters) : CountRun cfg s n [] s n
  | inv {s s' : CState} {n n' : Counters} {tr : List SEvent} (i : Nat) (c : Call) (h : s.thr i = none)
      (rest : CountRun cfg { s with thr := setN s.thr i (some (c, c.prog cfg)) } n tr s' n') : CountRun cfg s n (.call (.inv i c) :: tr) s' n'
  | raw {s s' : CState} {n m n' : Counters} {tr : List SEvent} {i : Nat} {c : Call} {p p' : Prog Resp} {t' : Tree} (h : s.thr i = some (c, p))
      (hs : s.tree.Small) (hc : CountStep cfg s.tree p t' p' m)
      (rest : CountRun cfg { s with tree := t', thr := setN s.thr i (some (c, p')) } (n.add m) tr s' n') : CountRun cfg s n tr s' n'
  | lock {s s' : CState} {n n' : Counters} {tr : List SEvent} {i l : Nat} {c : Call} {p : Prog Resp} (h : s.thr i = some (c, .lock l p))
      (hf : s.locks l = none)
      (rest : CountRun cfg { s with locks := setN s.locks l (some i), thr := setN s.thr i (some (c, p)) } n tr s' n') : CountRun cfg s n tr s' n'
  | unlock {s s' : CState} {n n' : Counters} {tr : List SEvent} {i : Nat} {c : Call} {p : Prog Resp} (h : s.thr i = some (c, .unlock p))
      (rest : CountRun cfg { s with locks := dropLocks s.locks i, thr := setN s.thr i (some (c, p)) } n tr s' n') : CountRun cfg s n tr s' n'
  | ret {s s' : CState} {n n' : Counters} {tr : List SEvent} {i : Nat} {c : Call} {p : Prog Resp} {r : Res Resp} (h : s.thr i = some (c, p))
      (hr : p.result = some r) (hne : r ≠ .exhausted)
      (rest : CountRun cfg { s with locks := dropLocks s.locks i, thr := setN s.thr i none } n tr s' n') :
      CountRun cfg s n (.call (.ret i c r) :: tr) s' n'
  | bg {s s' : CState} {n n' : Counters} {tr : List SEvent} {t' : Tree} (sel : Nat) (hs : s.tree.Small) (h : s.tree.bgStep cfg sel = some t')
      (rest : CountRun cfg { s with tree := t' } n tr s' n') : CountRun cfg s n tr s' n'
  /-- merging copies pairs with `read_kv` and `write_kv` (src/shard.rs:634-712), which touch none of these counters -/
  | merge {s s' : CState} {n n' : Counters} {tr : List SEvent} {t' : Tree} {maxFill : Nat} {b : Bool} (hi : ∀ i, s.thr i = none)
      (h : s.tree.mergeSmall cfg maxFill = .ok (t', b)) (rest : CountRun cfg { s with tree := t' } n tr s' n') : CountRun cfg s n (.merge :: tr) s' n'
  /-- `clear` resets the counters (src/store.rs:262-267) -/
  | clear {s s' : CState} {n n' : Counters} {tr : List SEvent} {t' : Tree} (hi : ∀ i, s.thr i = none) (h : s.tree.clear cfg = some t')
      (rest : CountRun cfg { s with tree := t' } .zero tr s' n') : CountRun cfg s n (.clear :: tr) s' n'

end Candy
