import Verif.Json.SpecText
/-! # A writer of JSON texts, cf. RFC 8259

A client's counterpart of the tokenizer (the library has none): it writes values without white space. -/
namespace Verif.Json.Text

/-- Digits and signs that make up a number: digits are at most 9, there is at least one, and the first of several is not 0; without exponent there
is no sign of it. -/
def IsNumber (int frac exp : List UInt8) (e : Sign) : Prop :=
  (∀ d ∈ int ++ frac ++ exp, d ≤ 9) ∧ int ≠ [] ∧ (int.head? = some 0 → int = [0]) ∧ (exp = [] → e = .plus)

instance (int frac exp : List UInt8) (e : Sign) : Decidable (IsNumber int frac exp e) := by unfold IsNumber; infer_instance

mutual
/-- All numbers of a value are numbers. -/
def Value.proper : Value → Prop
  | .number i f x _ e => IsNumber i f x e
  | .array vs => properAll vs
  | .object ms => properMembers ms
  | _ => True
def properAll : List Value → Prop
  | [] => True
  | v :: vs => v.proper ∧ properAll vs
def properMembers : List (List Char × Value) → Prop
  | [] => True
  | (_, v) :: ms => v.proper ∧ properMembers ms
end

/-- The character of a digit. -/
def digitOf (d : UInt8) : Char := Nat.digitChar d.toNat

def signOf : Sign → List Char
  | .plus => []
  | .minus => ['-']

/-- A number. -/
def writeNumber (int frac exp : List UInt8) (s e : Sign) : List Char :=
  signOf s ++ int.map digitOf ++ (if frac = [] then [] else '.' :: frac.map digitOf) ++
    (if exp = [] then [] else 'e' :: signOf e ++ exp.map digitOf)

/-- A character of a string: only what must be escaped is. -/
def writeChar (c : Char) : List Char :=
  if c = '"' then ['\\', '"'] else if c = '\\' then ['\\', '\\']
  else if c.toNat < 0x20 then ['\\', 'u', '0', '0', Nat.digitChar (c.toNat / 16), Nat.digitChar (c.toNat % 16)]
  else [c]

def writeString (s : List Char) : List Char := '"' :: s.flatMap writeChar ++ ['"']

mutual
/-- The text of a value. -/
def Value.write : Value → List Char
  | .null => ['n', 'u', 'l', 'l']
  | .true => ['t', 'r', 'u', 'e']
  | .false => ['f', 'a', 'l', 's', 'e']
  | .number i f x s e => writeNumber i f x s e
  | .string s => writeString s
  | .array vs => '[' :: (writeAll vs ++ [']'])
  | .object ms => '{' :: (writeMembers ms ++ ['}'])
def writeAll : List Value → List Char
  | [] => []
  | [v] => v.write
  | v :: vs => v.write ++ ',' :: writeAll vs
def writeMembers : List (List Char × Value) → List Char
  | [] => []
  | [(k, v)] => writeString k ++ ':' :: v.write
  | (k, v) :: ms => writeString k ++ ':' :: (v.write ++ ',' :: writeMembers ms)
end

end Verif.Json.Text
