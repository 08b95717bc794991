import Verif.Json.PropsToken
/-! # C41, C42, C55: the alphabets that the specification of texts refers to

`SpecToken.lean` speaks of digits, hexadecimal digits and white space through the tests of the model. These theorems say character by character
what passes them, so that a wrong test is not hidden on both sides of the other theorems. -/
namespace Verif.Json

theorem char_toNat_inj {a b : Char} (h : a.toNat = b.toNat) : a = b := Char.toNat_inj.mp h

theorem char_in_range {c : Char} {lo hi : Nat} (l : List Char) (hl : l.map Char.toNat = (List.range (hi + 1 - lo)).map (lo + ·)) :
    (lo ≤ c.toNat ∧ c.toNat ≤ hi) ↔ c ∈ l := by
  have key : c ∈ l ↔ c.toNat ∈ l.map Char.toNat := by
    rw [List.mem_map]
    exact ⟨fun h => ⟨c, h, rfl⟩, fun ⟨a, ha, e⟩ => char_toNat_inj e ▸ ha⟩
  rw [key, hl, List.mem_map]
  constructor
  · intro ⟨h1, h2⟩
    exact ⟨c.toNat - lo, List.mem_range.mpr (by omega), by omega⟩
  · rintro ⟨k, hk, e⟩
    rw [List.mem_range] at hk
    omega

/-- C41. The digits. -/
theorem digit_iff (c : Char) : isDigit c = true ↔ c ∈ ['0', '1', '2', '3', '4', '5', '6', '7', '8', '9'] := by
  rw [isDigit, decide_eq_true_iff]
  exact char_in_range _ (by decide)

/-- C42. The hexadecimal digits. -/
theorem hex_iff (c : Char) : isHex c = true ↔ c ∈ ['0', '1', '2', '3', '4', '5', '6', '7', '8', '9'] ∨
    c ∈ ['a', 'b', 'c', 'd', 'e', 'f'] ∨ c ∈ ['A', 'B', 'C', 'D', 'E', 'F'] := by
  rw [isHex, Bool.or_eq_true, Bool.or_eq_true, digit_iff, decide_eq_true_iff, decide_eq_true_iff, or_assoc,
    char_in_range ['a', 'b', 'c', 'd', 'e', 'f'] (by decide), char_in_range ['A', 'B', 'C', 'D', 'E', 'F'] (by decide)]

/-- C55. The white space that JSON allows. -/
theorem space_iff (c : Char) : isSpace c = true ↔ c ∈ [' ', '\n', '\r', '\t'] := by
  simp [isSpace, or_assoc]

/-- C55. White space according to Unicode 15 (`White_Space` in `PropList.txt`). -/
theorem whitespace_iff (c : Char) : isWhitespace c = true ↔ c.toNat ∈ [0x09, 0x0a, 0x0b, 0x0c, 0x0d, 0x20, 0x85, 0xa0, 0x1680,
    0x2000, 0x2001, 0x2002, 0x2003, 0x2004, 0x2005, 0x2006, 0x2007, 0x2008, 0x2009, 0x200a, 0x2028, 0x2029, 0x202f, 0x205f, 0x3000] := by
  simp only [isWhitespace, Bool.or_eq_true, decide_eq_true_iff, beq_iff_eq, List.mem_cons, List.not_mem_nil, or_false]
  omega

example : isDigit '7' = true ∧ isHex 'c' = true ∧ isHex 'g' = false ∧ isSpace '\t' = true ∧ isSpace '\x0b' = false ∧
    isWhitespace '\x0b' = true := by decide

end Verif.Json
