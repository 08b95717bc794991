import Verif.Json.SpecWrite
/-! # The values of JSON numbers

What a number stands for, as a rational number: once as everybody reads the text, and once as a client computes it from the digits and signs of a
token. JSON texts are also read as values of their own, where numbers are rational numbers. -/
namespace Verif.Json.Text

/-! ## Reading a text -/

/-- A row of digits before the point. -/
def whole (ds : List Char) : Nat := ds.foldl (fun n c => 10 * n + (c.toNat - '0'.toNat)) 0

/-- A row of digits behind the point: tenths, and tenths of what follows. -/
def tenths : List Char → Rat
  | [] => 0
  | c :: ds => (((c.toNat - '0'.toNat : Nat) : Rat) + tenths ds) / 10

def signed : Sign → Rat → Rat
  | .plus, q => q
  | .minus, q => -q

def signedInt : Sign → Nat → Int
  | .plus, n => n
  | .minus, n => -n

/-- The number a text denotes, also with a plus sign or leading zeros. -/
def Denotes (text : List Char) (q : Rat) : Prop :=
  ∃ s sg ds ft fs e xt xs, text = sg ++ ds ++ ft ++ xt ∧ SignText true s sg ∧ Digits ds ∧ ds ≠ [] ∧ FracText ft fs ∧ ExpText e xt xs ∧
    q = signed s (whole ds + tenths fs) * 10 ^ signedInt e (whole xs)

/-! ## Computing with a token -/

/-- The number of a row of digits. -/
def digitsNat (ds : List UInt8) : Nat := ds.foldl (fun n d => 10 * n + d.toNat) 0

/-- The value of the digits and signs of a number: all digits as one integer, scaled by the exponent less the number of digits behind the point. -/
def numberValue (int frac exp : List UInt8) (s e : Sign) : Rat :=
  signed s (digitsNat (int ++ frac)) * 10 ^ (signedInt e (digitsNat exp) - frac.length)

/-! ## Values of texts -/

/-- What a JSON text means to a client which does not care how numbers are written. -/
inductive Meaning
  | null
  | true
  | false
  | number (q : Rat)
  | string (s : List Char)
  | array (ms : List Meaning)
  | object (ms : List (List Char × Meaning))

mutual
/-- The meaning of a value. -/
def Value.meaning : Value → Meaning
  | .null => .null
  | .true => .true
  | .false => .false
  | .number i f x s e => .number (numberValue i f x s e)
  | .string s => .string s
  | .array vs => .array (meanings vs)
  | .object ms => .object (memberMeanings ms)
def meanings : List Value → List Meaning
  | [] => []
  | v :: vs => v.meaning :: meanings vs
def memberMeanings : List (List Char × Value) → List (List Char × Meaning)
  | [] => []
  | (k, v) :: ms => (k, v.meaning) :: memberMeanings ms
end

/-- Digits without leading zeros; one digit remains. -/
def unpadded : List UInt8 → List UInt8
  | 0 :: d :: ds => unpadded (d :: ds)
  | ds => ds

mutual
/-- The value without leading zeros in its numbers. -/
def Value.standard : Value → Value
  | .number i f x s e => .number (unpadded i) f x s e
  | .array vs => .array (standards vs)
  | .object ms => .object (memberStandards ms)
  | v => v
def standards : List Value → List Value
  | [] => []
  | v :: vs => v.standard :: standards vs
def memberStandards : List (List Char × Value) → List (List Char × Value)
  | [] => []
  | (k, v) :: ms => (k, v.standard) :: memberStandards ms
end

end Verif.Json.Text
