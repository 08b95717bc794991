import Verif.Json.SpecBytes
import Verif.Json.SpecNumber
/-! # Two tokenizers compared

There are two tokenizers for JSON: one takes characters (`lib/osi/src/json/token.rs`), one takes bytes from a stream
(`lib/tmp/src/fmt/json/token.rs`). This says when their tokens are the same. -/
namespace Verif.Json.Agree

/-- A text as bytes. -/
def bytesOf (text : List Char) : List UInt8 := text.flatMap String.utf8EncodeChar

/-- Digits as bytes of a text, from their values. -/
def digitBytes (ds : List UInt8) : List UInt8 := ds.map (· + 0x30)

def signAs : Sign → Bytes.Sign
  | .plus => .plus
  | .minus => .minus

/-- The same token, as the other tokenizer has it: all text is bytes; the quotation marks are part of the text of a string; digits are bytes of
the text; a part of a number that does not exist is `None`. -/
def asBytes : Token → Bytes.Token
  | .colon => .colon
  | .comma => .comma
  | .arrayOpen => .arrayOpen
  | .arrayClose => .arrayClose
  | .objectOpen => .objectOpen
  | .objectClose => .objectClose
  | .null => .null
  | .true => .true
  | .false => .false
  | .whitespace w => .whitespace (bytesOf w)
  | .number raw int frac exp s e => .number ⟨bytesOf raw, signAs s, digitBytes int, if frac = [] then none else some (digitBytes frac),
      if exp = [] then none else some (signAs e, digitBytes exp)⟩
  | .string raw s => .string (bytesOf ('"' :: raw ++ ['"'])) (bytesOf s)

/-- Keywords. -/
def isKeyword : Token → Bool
  | .null | .true | .false => true
  | _ => false

/-- Numbers with a minus sign. -/
def isNegative : Token → Bool
  | .number _ _ _ _ s _ => s = .minus
  | _ => false

/-- A keyword with a negative number directly after it, as in `null-1`. -/
def Clash (toks : List Token) : Prop :=
  ∃ us k n vs, toks = us ++ k :: n :: vs ∧ isKeyword k = true ∧ isNegative n = true

/-- What a client computes from a number of the other tokenizer. -/
def byteValue (n : Bytes.Number) : Rat :=
  let digits (ds : List UInt8) : List UInt8 := ds.map (· - 0x30)
  let sign : Bytes.Sign → Sign
    | .plus => .plus
    | .minus => .minus
  Text.numberValue (digits n.integer) (digits (n.fraction.getD [])) (digits ((n.exponent.map (·.2)).getD []))
    (sign n.sign) (sign ((n.exponent.map (·.1)).getD .plus))

end Verif.Json.Agree
