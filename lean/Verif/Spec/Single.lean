/-!
# What "one store at a time per directory" means

Histories of a directory: calls of `CandyStore::open` are numbered; the store opened by call `i` is store `i`.
-/
namespace Candy.Spec

/-- What is observed. -/
inductive DirEv
  /-- store `i` (a call, `open` itself, or one of its compaction threads) accesses a file of the directory: shard files, and files of compactions, splits and merges -/
  | touch (i : Nat)
  /-- `open` call number `i` returns a store -/
  | opened (i : Nat)
  /-- `open` call number `i` returns the error "Lock file is used by another process" -/
  | refused (i : Nat)
  /-- `open` call number `i` returns another error -/
  | failed (i : Nat)
  /-- store `i` has been closed: `drop` of the `CandyStore` returns -/
  | closed (i : Nat)
  /-- the process of store `i` dies -/
  | died (i : Nat)
  /-- anything else -/
  | other
deriving DecidableEq

/-- The accesses of different stores do not alternate: once another store has accessed the directory, store `i` never does again. -/
def Exclusive (tr : List DirEv) : Prop :=
  ∀ a b c i j, tr = a ++ .touch i :: (b ++ .touch j :: c) → i ≠ j → .touch i ∉ c

/-- While a store is open, no other is opened or accesses the directory: between `opened i` and the first of `closed i` and `died i` there is neither `opened j` nor `touch j`. -/
def SoleOwner (tr : List DirEv) : Prop :=
  ∀ a b c i j e, tr = a ++ .opened i :: (b ++ e :: c) → e = .opened j ∨ e = .touch j → i ≠ j → .closed i ∈ b ∨ .died i ∈ b

/-- A store that has been closed or whose process has died is gone: its threads access nothing afterwards. -/
def Final (tr : List DirEv) : Prop :=
  ∀ a c i e, tr = a ++ e :: c → e = .closed i ∨ e = .died i ∨ e = .refused i ∨ e = .failed i → .touch i ∉ c

end Candy.Spec
