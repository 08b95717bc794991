import Verif.Str.Model
/-! # Specification: the pieces of a string, as natural comparison sees it (C105) -/
namespace Verif.Str

/-- In how many pieces a string is read, if each one is text without numeric characters followed by a run of numeric ones: a
piece ends with each numeric character that is not followed by another, and at the end of the string. -/
def pieces (cc : CharClass) : List Char → Nat
  | [] => 0
  | [_] => 1
  | c :: d :: s => (if cc.num c = true ∧ cc.num d = false then 1 else 0) + pieces cc (d :: s)

/-- How many characters two strings have in common at their start. -/
def shared : List Char → List Char → Nat
  | a :: as, b :: bs => if a = b then shared as bs + 1 else 0
  | _, _ => 0

end Verif.Str
