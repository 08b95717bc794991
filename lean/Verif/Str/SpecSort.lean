import Verif.Str.SpecNatural
/-! # Specification: lists in natural order (C135), and strings that become the same symbol (C136) -/
namespace Verif.Str

/-- No string comes before one that is in front of it. -/
def InOrder (cc : CharClass) (l : List (List Char)) : Prop := l.Pairwise fun a b => cmp_natural cc a b ≠ .gt

/-- The same strings in order. -/
def Sorted (cc : CharClass) (l l' : List (List Char)) : Prop := l'.Perm l ∧ InOrder cc l'

/-- Characters that are not told from an underscore in symbols. -/
def Blank (cc : CharClass) (c : Char) : Prop := c = '_' ∨ (cc.alpha c = false ∧ cc.num c = false)

/-- The same but for characters that are not told from an underscore. -/
inductive Alike (cc : CharClass) : List Char → List Char → Prop
  | nil : Alike cc [] []
  | same (c : Char) {a b : List Char} (h : Alike cc a b) : Alike cc (c :: a) (c :: b)
  | blank {c d : Char} {a b : List Char} (hc : Blank cc c) (hd : Blank cc d) (h : Alike cc a b) : Alike cc (c :: a) (d :: b)

/-- `a` gets an underscore in front, and `b` begins with what becomes one. -/
def Shifted (cc : CharClass) (a b : List Char) : Prop :=
  (a = [] ∨ ∃ d a', a = d :: a' ∧ cc.num d = true) ∧ ∃ c b', b = c :: b' ∧ Blank cc c ∧ Alike cc a b'

end Verif.Str
