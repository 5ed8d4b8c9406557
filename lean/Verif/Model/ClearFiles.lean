import Verif.Model.Dir
/-!
# The files while `clear` runs and background compactions finish

`ShardRouter::clear` (src/router.rs:297-325) holds the write guard of the root, so no other call works on the files meanwhile; but it does not wait for the background compactions of the old shards before it
deletes their files (they are waited for when the old tree is dropped, at the end: src/router.rs:322, src/shard.rs:1089-1093). A compaction writes to its target file and finally renames it
to the shard file (`background_compact`, src/shard.rs:959-978).

Simplification: the names to be deleted are read in one go at the beginning of `clear` (`read_dir`, 300, may in fact read the directory in several pieces).
-/
namespace Candy

/-- A step of a background compaction, as far as the directory is concerned: a store to its target file - after the file has been deleted this has no effect on the directory - or, when all rows are copied, renaming it.
(If the rename fails because the file has been deleted, nothing happens.) `r` are the spans whose compaction has finished in this step. -/
inductive BgFile : Dir → List Span → Dir → Prop
  | store {d d' : Dir} (lo hi : Nat) (p : Prim) (h : FOp.app d (.prim ⟨.compact, lo, hi⟩ p) = some d') : BgFile d [] d'
  | rename {d d' : Dir} (lo hi : Nat) (f : MFile) (hf : d.find ⟨.compact, lo, hi⟩ = some (.good f)) (hc : NUM_ROWS ≤ f.compactedUpTo)
      (h : FOp.app d (.rename ⟨.compact, lo, hi⟩ ⟨.shard, lo, hi⟩) = some d') : BgFile d [(lo, hi)] d'

/-- The remaining file operations of `clear`, with steps of background compactions in between. The result: whether `clear` returns `Ok` (the first failing operation ends it with an error),
the spans of the shards whose compaction finished meanwhile, and the directory. -/
inductive ClearFiles : Dir → List FOp → Bool → List Span → Dir → Prop
  | done (d : Dir) : ClearFiles d [] true [] d
  | op {d d1 d' : Dir} {o : FOp} {os : List FOp} {ok : Bool} {rn : List Span} (h : o.app d = some d1) (rest : ClearFiles d1 os ok rn d') : ClearFiles d (o :: os) ok rn d'
  | fail {d : Dir} {o : FOp} {os : List FOp} (h : o.app d = none) : ClearFiles d (o :: os) false [] d
  | bg {d d1 d' : Dir} {os : List FOp} {ok : Bool} {r rn : List Span} (h : BgFile d r d1) (rest : ClearFiles d1 os ok rn d') : ClearFiles d os ok (r ++ rn) d'

end Candy
