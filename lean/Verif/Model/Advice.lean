import Verif.Model.Iter
/-!
# The advice of `stats()`: the derived numbers of `Stats` (src/stats.rs:43-65)

The subtractions in `data_bytes` and `num_entries` (`Stats.dataBytes`, `Stats.numEntries` in Model/Iter.lean) are unchecked; the theorems about these
numbers say that they do not underflow.
-/
namespace Candy

/-- `Stats::average_entry_size` (src/stats.rs:53-57): `checked_div(..).unwrap_or(0)`. -/
def Stats.averageEntrySize (s : Stats) : Nat := if s.numEntries = 0 then 0 else s.dataBytes / s.numEntries

/-- `Stats::required_num_shards` (src/stats.rs:59-61); `none`: the panic in `calc_step`. -/
def Stats.requiredNumShards (s : Stats) : Option Nat := calcNumShards s.numEntries

/-- `Stats::should_merge_small_shards` (src/stats.rs:62-64). -/
def Stats.shouldMerge (s : Stats) : Option Bool := s.requiredNumShards.map (fun r => decide (s.numShards > r * 2))

end Candy
