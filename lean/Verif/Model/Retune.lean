import Verif.Model.History
/-!
# Opening a store with another configuration

`CandyStore::open` (src/store.rs:206-252) takes the configuration of this opening; nothing of it is stored in the directory. So the configuration may differ from one opening to the next.
-/
namespace Candy

/-- The configuration may be changed from `cfg` to `cfg'`: the hash seed is the same; `max_shard_size` has room for a record of maximal size (16383 + 65535 bytes) or is not lowered;
`expected_number_of_keys` is not more than 65536 shards hold (beyond, `clear` and `merge_small_shards` panic, C49). `min_compaction_threashold` and
`max_concurrent_list_ops` are arbitrary. -/
structure Retuned (cfg cfg' : Cfg) : Prop where
  hash : cfg'.hash = cfg.hash
  room : cfg.maxShardSize ≤ cfg'.maxShardSize ∨ 81918 ≤ cfg'.maxShardSize.toNat
  keys : cfg'.expectedKeys ≤ 65536 * 29491

/-- What the user observes, with the changes of the configuration. -/
inductive VEvent where
  | done (e : Event)
  /-- closed, and opened with another configuration -/
  | reopened (cfg' : Cfg)
  /-- the process died inside call `c` (or with no call in progress), and the store was opened with another configuration -/
  | crashed (c : Option Call) (cfg' : Cfg)

/-- A history in which the configuration changes between openings. -/
inductive VRun : Cfg → Tree → List VEvent → Cfg → Tree → Prop
  | nil (cfg : Cfg) (t : Tree) : VRun cfg t [] cfg t
  /-- a history with one configuration -/
  | same {cfg cfg' : Cfg} {t t' t'' : Tree} {es : List Event} {es' : List VEvent} (h : Run cfg t es t') (rest : VRun cfg t' es' cfg' t'') :
      VRun cfg t (es.map .done ++ es') cfg' t''
  | reopen {cfg cfg' cfg'' : Cfg} {t u t' t'' : Tree} {es : List VEvent} {d : Dir} {ops : List FOp} {clearBad : Bool} (hc : Retuned cfg cfg') (hs : t.Small)
      (hn : ∀ s ∈ t.leaves, s.lo < s.hi) (hu : t.finishAll cfg = some u) (hd : DirOf d u.leaves) (h : openStore cfg' clearBad d = (ops, .ok t'))
      (rest : VRun cfg' t' es cfg'' t'') : VRun cfg t (.reopened cfg' :: es) cfg'' t''
  | crash {cfg cfg' cfg'' : Cfg} {t t' t'' : Tree} {c : Option Call} {es : List VEvent} {d : Dir} {clearBad : Bool} (hc : Retuned cfg cfg') (h : Dies cfg t c d)
      (hr : Restart cfg' clearBad d t') (rest : VRun cfg' t' es cfg'' t'') : VRun cfg t (.crashed c cfg' :: es) cfg'' t''

/-- The store has been created with configuration `cfg0`, and after the history `es` it is open with configuration `cfg` in state `t`. -/
def VReachable (cfg0 : Cfg) (es : List VEvent) (cfg : Cfg) (t : Tree) : Prop := ∃ t0, Tree.create cfg0 = some t0 ∧ VRun cfg0 t0 es cfg t

end Candy
