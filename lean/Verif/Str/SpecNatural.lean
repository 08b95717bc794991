import Verif.Str.Lemmas
/-! # Which strings natural ordering can sort

The comparison of `osi/src/str.rs` 17-84 reads runs of numeric characters as `u64`. Where one of two runs cannot
be read, it compares their texts instead. -/
namespace Verif.Str

/-- A number that fits `u64`: decimal digits with a value below `2^64`. -/
def Number (run : List Char) : Prop := run ≠ [] ∧ (∀ c ∈ run, isDigit c) ∧ decimal run < 2 ^ 64

/-- Nineteen nines: the last text, in alphabetical order, of all numbers that fit `u64`
(`number_le_nines`). -/
def nines : List Char := List.replicate 19 '9'

/-- A run that is a number that fits `u64`, or whose text does not come before nineteen nines. -/
def Harmless (run : List Char) : Prop := Number run ∨ (cmpStr nines run).isLE = true

/-- All maximal runs of numeric characters are harmless. -/
def Sortable (cc : CharClass) (s : List Char) : Prop := ∀ run, IsRun cc s run → Harmless run

/-- Among the characters up to `9`, only the digits are numeric. This holds of Unicode. -/
def NoEarlyNumerals (cc : CharClass) : Prop := ∀ c : Char, cc.num c = true → c.toNat ≤ 57 → 48 ≤ c.toNat

end Verif.Str
