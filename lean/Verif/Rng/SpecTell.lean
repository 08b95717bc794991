import Verif.Rng.PropsEqui
/-! # Specification for C133: the numbers that generators return, and the generators that are split off
(lib/osi/src/rng.rs, see `Model.lean`) -/
namespace Verif.Rng

/-- The number that the call after `n` calls of `next64()` returns. -/
def xoOut (s : St) (n : Nat) : U64 := (next64 (afterCalls n s)).1

/-- The generator after `n` calls of `split()`. -/
def SplitMix64.afterSplits (g : SplitMix64) : Nat → SplitMix64
  | 0 => g
  | n + 1 => (g.afterSplits n).split.2

end Verif.Rng
