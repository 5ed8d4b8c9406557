import Verif.Proofs.Term
/-!
# C43: key signatures are never the empty-slot marker
-/
namespace Candy.Props

/-- **C43.** For every hash function (every seed) and every key: the stored signature is not the empty-slot marker 0, the shard
selector is a 16-bit number and the row number is below the number of rows. -/
theorem C43_signature_valid (cfg : Cfg) (key : Bytes) :
    let ph := cfg.ph key
    ph.sig ≠ 0#32 ∧ ph.shardSel < 65536 ∧ ph.rowSel < 64 :=
  ⟨Cfg.ph_sig_ne _ key, PH.shardSel_lt _, PH.rowSel_lt _⟩

/-- The fallback is needed: a hash whose first word has a zero signature part. -/
example : pickSig ⟨0xffff000000000000#64, 0#64⟩ = 0x6052c9b7#32 := by decide

end Candy.Props
