import Verif.Args.Spec
/-! # Specification: what looking up commands and flags may take -/
namespace Verif.Args

/-- The logarithm to base 2, rounded up. -/
def clog (n : Nat) : Nat := if n ≤ 1 then 0 else Nat.log2 (n - 1) + 1

/-- The comparisons of a binary search among `n` elements. -/
def probes (n : Nat) : Nat := if n = 0 then 0 else clog n + 1

/-- How many commands begin with the given words. -/
def matching (S : List Command) (words : Path) : Nat := S.countP fun c => words.isPrefixOf c.path

/-- The very first command begins with the given words. -/
def atFront (S : List Command) (words : Path) : Bool := S.head?.any fun c => words.isPrefixOf c.path

/-- The commands whose flags may be given after the words that led to command `i`: that command, and those earlier ones it
continues. -/
def inScope (S : List Command) (i : Nat) : List Command :=
  (S.take (i + 1)).filter fun c => c.path.isPrefixOf ((S[i]?.map (·.path)).getD [])

end Verif.Args
