import Verif.Model.Dir
/-!
# File names: printing and parsing

The rest of the model talks about files by `FName`; the program talks about strings. This file models how the strings are made
(`format!("shard_{:04x}-{:04x}", ..)` and the like) and how `load` and `clear` take the names found in the directory apart.
-/
namespace Candy

/-- A hexadecimal digit, as printed by Rust's `{:x}` (lower case). -/
def hexChar (n : Nat) : Char :=
  if n < 10 then Char.ofNat ('0'.toNat + n) else Char.ofNat ('a'.toNat + (n - 10))

/-- The digits of a number, without leading zeroes (Rust's `{:x}`). -/
def hexDigits (n : Nat) : List Char :=
  if h : n < 16 then [hexChar n] else hexDigits (n / 16) ++ [hexChar (n % 16)]
termination_by n
decreasing_by omega

/-- `{:04x}`: padded with zeroes to at least four digits. -/
def hex04 (n : Nat) : List Char := List.replicate (4 - (hexDigits n).length) '0' ++ hexDigits n

/-- The prefixes (src/shard.rs:363, 422, 551, 555, 638). -/
def Kind.prefix : Kind → List Char
  | .shard => ['s', 'h', 'a', 'r', 'd', '_']
  | .compact => ['c', 'o', 'm', 'p', 'a', 'c', 't', '_']
  | .bottom => ['b', 'o', 't', 't', 'o', 'm', '_']
  | .top => ['t', 'o', 'p', '_']
  | .merge => ['m', 'e', 'r', 'g', 'e', '_']

/-- The prefixes, as strings. -/
example : Kind.shard.prefix = "shard_".toList ∧ Kind.compact.prefix = "compact_".toList ∧ Kind.bottom.prefix = "bottom_".toList ∧
    Kind.top.prefix = "top_".toList ∧ Kind.merge.prefix = "merge_".toList := by decide

/-- `format!("{kind}_{:04x}-{:04x}", lo, hi)` (src/shard.rs:363, 422, 551, 555, 597, 603, 605, 638, 692, 696, 703, 933, 937;
src/router.rs:149). -/
def FName.print (n : FName) : List Char := n.kind.prefix ++ hex04 n.lo ++ '-' :: hex04 n.hi

/-- `str::split_once` with a one-character separator. -/
def splitOnce (c : Char) : List Char → Option (List Char × List Char)
  | [] => none
  | x :: xs => if x = c then some ([], xs) else (splitOnce c xs).map (fun p => (x :: p.1, p.2))

/-- `char::to_digit(16)`. -/
def hexVal (c : Char) : Option Nat :=
  if '0'.toNat ≤ c.toNat ∧ c.toNat ≤ '9'.toNat then some (c.toNat - '0'.toNat)
  else if 'a'.toNat ≤ c.toNat ∧ c.toNat ≤ 'f'.toNat then some (c.toNat - 'a'.toNat + 10)
  else if 'A'.toNat ≤ c.toNat ∧ c.toNat ≤ 'F'.toNat then some (c.toNat - 'A'.toNat + 10)
  else none

/-- The digit loop of `u32::from_str_radix`, with its overflow check. -/
def hexLoop : List Char → Nat → Option Nat
  | [], acc => some acc
  | c :: cs, acc => match hexVal c with
    | none => none
    | some v => if acc * 16 + v < 2 ^ 32 then hexLoop cs (acc * 16 + v) else none

/-- `u32::from_str_radix(s, 16)`: the empty string and a lone sign are errors, a leading `+` is accepted. -/
def parseU32 : List Char → Option Nat
  | [] => none
  | '+' :: cs => if cs = [] then none else hexLoop cs 0
  | cs => hexLoop cs 0

/-- What `load` does with a file name (src/router.rs:117-139). -/
inductive NameAct where
  /-- the file is removed -/
  | remove
  /-- the file is left alone -/
  | ignore
  /-- `.expect(filename)` panics -/
  | panic
  /-- open fails with "Bad span" -/
  | badSpan
  /-- a shard with this span -/
  | shard (lo hi : Nat)
deriving DecidableEq

/-- The body of the loop of `load` (src/router.rs:117-139). -/
def classify (s : List Char) : NameAct :=
  if Kind.bottom.prefix.isPrefixOf s || Kind.top.prefix.isPrefixOf s || Kind.merge.prefix.isPrefixOf s then .remove
  else if !(Kind.shard.prefix.isPrefixOf s) then .ignore
  else match splitOnce '_' s with
    | none => .ignore
    | some (_, span) => match splitOnce '-' span with
      | none => .ignore
      | some (a, b) => match parseU32 a with
        | none => .panic
        | some lo => match parseU32 b with
          | none => .panic
          | some hi => if lo < hi ∧ hi ≤ END_OF_SHARDS then .shard lo hi else .badSpan

/-- The scan of `load` over the names in the directory (src/router.rs:106-143), in the order `read_dir` returns them: the files it has
removed, and the spans found, an error, or a panic. -/
def scanNames : List (List Char) → List (List Char) × LRes (List Span)
  | [] => ([], .ok [])
  | s :: l => match classify s with
    | .remove => (s :: (scanNames l).1, (scanNames l).2)
    | .ignore => scanNames l
    | .panic => ([], .panic)
    | .badSpan => ([], .err)
    | .shard lo hi => ((scanNames l).1, match (scanNames l).2 with
      | .ok sp => .ok ((lo, hi) :: sp)
      | r => r)

/-- Which files `clear` removes (src/router.rs:311-317). -/
def clearTakes (s : List Char) : Bool :=
  Kind.shard.prefix.isPrefixOf s || Kind.compact.prefix.isPrefixOf s || Kind.bottom.prefix.isPrefixOf s || Kind.top.prefix.isPrefixOf s

end Candy
