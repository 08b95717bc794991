import Verif.Json.ModelToken
/-! # Model of the buffers of the JSON tokenizer, `lib/osi/src/json/token.rs` 188-317

`ModelToken` leaves capacities out. This is the same tokenizer, function by function, where each of the three buffers has a capacity in bytes, which
`String::push`, `Vec::push`, `clear`, `shrink_to` and `clone` change the way the standard library does (`RawVec::grow_amortized`, `shrink_to_fit`).
The allocator is taken to grant all requests. Whenever the memory of a buffer is allocated anew, it may be moved: the bytes that are copied then are
counted. -/
namespace Verif.Json

/-- The capacity of a vector of bytes after `reserve(add)`: nothing happens if it suffices, otherwise it is doubled at least, and is at least 8. -/
def reserved (cap len add : Nat) : Nat := if len + add ≤ cap then cap else max 8 (max (2 * cap) (len + add))

/-- The capacity of a vector of bytes after `shrink_to(least)`. -/
def shrunk (cap len least : Nat) : Nat := if least < cap then max len least else cap

/-- The bytes that are copied by `reserve(add)`: the old allocation, if it is not enough. -/
def growing (cap len add : Nat) : Nat := if len + add ≤ cap then 0 else cap

/-- The bytes that are copied by `shrink_to(least)`: the new allocation. -/
def shrinking (cap len least : Nat) : Nat := if least < cap then max len least else 0

/-- The length of a text in bytes. -/
def bytes : List Char → Nat
  | [] => 0
  | c :: l => c.utf8Size + bytes l

/-- `Tokenizer`, token.rs 188-194, with the capacities of its buffers, and the bytes that were copied to grow, shrink and clone them. -/
structure Buffered where
  tok : Tokenizer
  capRaw : Nat
  capStr : Nat
  capNum : Nat
  moved : Nat
deriving DecidableEq, Repr

namespace Buffered

/-- `Tokenizer::with_flags`, token.rs 268-273: nothing is allocated. -/
def withFlags (flags : BitVec 32) : Buffered := ⟨.withFlags flags, 0, 0, 0, 0⟩

/-- `Tokenizer::prepare`, token.rs 277-285, and `reset`, 291-293. -/
def prepare (t : Buffered) : Buffered :=
  ⟨t.tok.prepare, shrunk t.capRaw 0 4096, shrunk t.capStr 0 4096, shrunk t.capNum 0 4096,
    t.moved + (shrinking t.capRaw 0 4096 + shrinking t.capStr 0 4096 + shrinking t.capNum 0 4096)⟩

/-- `Clone for Tokenizer`, token.rs 187: buffers are copied with the capacity they need. -/
def clone (t : Buffered) : Buffered := ⟨t.tok, bytes t.tok.acc, bytes t.tok.accStr, t.tok.accNum.length,
  t.moved + (bytes t.tok.acc + bytes t.tok.accStr + t.tok.accNum.length)⟩

/-- Assignments to the state. -/
def to (t : Buffered) (s : State) : Buffered := { t with tok := { t.tok with state := s } }

/-- `Tokenizer::acc_raw`, token.rs 307-309. -/
def raw (t : Buffered) (c : Char) : Buffered :=
  { t with tok := t.tok.raw c, capRaw := reserved t.capRaw (bytes t.tok.acc) c.utf8Size,
           moved := t.moved + growing t.capRaw (bytes t.tok.acc) c.utf8Size }

/-- `Tokenizer::acc_num`, token.rs 311-313. -/
def num (t : Buffered) (c : Char) (k : Buffered → Run (Buffered × Option Char)) : Run (Buffered × Option Char) :=
  match toDigit 10 c with
  | some d =>
    if d < 256 then
      k { t with tok := { t.tok with accNum := t.tok.accNum ++ [UInt8.ofNat d] }, capNum := reserved t.capNum t.tok.accNum.length 1,
                 moved := t.moved + growing t.capNum t.tok.accNum.length 1 }
    else .panic
  | none => .panic

/-- `Tokenizer::acc_str`, token.rs 315-317. -/
def str (t : Buffered) (c : Char) : Buffered :=
  { t with tok := t.tok.str c, capStr := reserved t.capStr (bytes t.tok.accStr) c.utf8Size,
           moved := t.moved + growing t.capStr (bytes t.tok.accStr) c.utf8Size }

/-- `Tokenizer::report_number`, token.rs 361-377; slices panic if out of range. -/
def number {α : Type} (t : Buffered) (s : Sign) (n m : Nat) (e : Sign) (k : Run α) : Run α := t.tok.number s n m e k

/-- The keyword part of `Tokenizer::advance_misc`, token.rs 469-513. -/
def advanceKeyword (t : Buffered) (rem : Option Char) : Run (Buffered × Option Char) :=
  match rem with
  | some v =>
    if v = ':' || v = ',' || v = '[' || v = ']' || v = '{' || v = '}' || v = ' ' || v = '\n' || v = '\r' || v = '\t'
        || v = '-' || v = '"' then
      .say t.tok.keyword <| .ret (t.prepare, rem)
    else if v = '#' || v = '/' || v = '+' || v = '=' then
      .say t.tok.keyword <| .ret (t.prepare, rem)
    else if isWhitespace v then
      .say t.tok.keyword <| .ret (t.prepare, rem)
    else .ret (t.raw v, none)
  | none => .say t.tok.keyword <| .ret (t.prepare, none)

/-- `Tokenizer::advance_misc`, token.rs 392-514. -/
def advanceMisc (t : Buffered) (ch : Option Char) : Run (Buffered × Option Char) :=
  match t.tok.state with
  | .slash =>
    match ch with
    | some v =>
      if v = '/' then .ret ((t.raw v).to .commentLine, none)
      else advanceKeyword (t.to .keyword) (some v)
    | none => .say t.tok.keyword <| .ret (t.prepare, none)
  | .keyword => advanceKeyword t ch
  | .whitespace =>
    match ch with
    | some v =>
      if isSpace v then .ret (t.raw v, none)
      else if isWhitespace v then .say (.err (.characterStray v)) <| .ret (t, none)
      else .say (.tok (.whitespace t.tok.acc)) <| .ret (t.prepare, some v)
    | none => .say (.tok (.whitespace t.tok.acc)) <| .ret (t.prepare, none)
  | .commentLine =>
    match ch with
    | some v =>
      if v = '\n' then .say (.err (.comment t.tok.acc)) <| .ret (t.prepare, some v)
      else .ret (t.raw v, none)
    | none => .say (.err (.comment t.tok.acc)) <| .ret (t.prepare, none)
  | _ => .panic

/-- Digits of numbers, for example token.rs 529-538. -/
def digit (t : Buffered) (v : Char) (s : State) : Run (Buffered × Option Char) :=
  (t.raw v).num v fun t => .ret (t.to s, none)

/-- The end of a number, for example token.rs 567-574. -/
def endNumber (t : Buffered) (s : Sign) (n m : Nat) (e : Sign) (ch : Option Char) : Run (Buffered × Option Char) :=
  t.number s n m e <| .ret (t.prepare, ch)

/-- The end of an incomplete number, for example token.rs 539-547. -/
def endIncomplete (t : Buffered) (s : Sign) (n m : Nat) (e : Sign) (ch : Option Char) : Run (Buffered × Option Char) :=
  .say (.err .numberIncomplete) <| t.number s n m e <| .ret (t.prepare, ch)

/-- `Tokenizer::advance_number`, token.rs 516-712. -/
def advanceNumber (t : Buffered) (ch : Option Char) : Run (Buffered × Option Char) :=
  match t.tok.state with
  | .integerNone s =>
    match ch with
    | some v =>
      if isDigit v then t.digit v (if v = '0' then .integerZero s else .integerSome s 1)
      else t.endIncomplete s 0 0 .plus ch
    | none => t.endIncomplete s 0 0 .plus ch
  | .integerSome s n =>
    match ch with
    | some v =>
      if isDigit v then t.digit v (.integerSome s (n + 1))
      else if v = '.' then .ret ((t.raw v).to (.fractionNone s n), none)
      else if v = 'e' || v = 'E' then .ret ((t.raw v).to (.exponentNone s n 0), none)
      else t.endNumber s n 0 .plus ch
    | none => t.endNumber s n 0 .plus ch
  | .integerZero s =>
    match ch with
    | some v =>
      if v = '.' then .ret ((t.raw v).to (.fractionNone s 1), none)
      else if v = 'e' || v = 'E' then .ret ((t.raw v).to (.exponentNone s 1 0), none)
      else if isDigit v then
        if t.tok.has flagLeadingZero then t.digit v (.integerSome s 2)
        else .say (.err (.characterStray v)) <| t.digit v (.integerSome s 2)
      else t.endNumber s 1 0 .plus ch
    | none => t.endNumber s 1 0 .plus ch
  | .fractionNone s n =>
    match ch with
    | some v =>
      if isDigit v then t.digit v (.fractionSome s n 1)
      else t.endIncomplete s n 0 .plus ch
    | none => t.endIncomplete s n 0 .plus ch
  | .fractionSome s n m =>
    match ch with
    | some v =>
      if v = 'e' || v = 'E' then .ret ((t.raw v).to (.exponentNone s n m), none)
      else if isDigit v then t.digit v (.fractionSome s n (m + 1))
      else t.endNumber s n m .plus ch
    | none => t.endNumber s n m .plus ch
  | .exponentNone s n m =>
    match ch with
    | some v =>
      if v = '+' then .ret ((t.raw v).to (.exponentSign s n m .plus), none)
      else if v = '-' then .ret ((t.raw v).to (.exponentSign s n m .minus), none)
      else if isDigit v then t.digit v (.exponentSome s n m .plus 1)
      else t.endIncomplete s n m .plus ch
    | none => t.endIncomplete s n m .plus ch
  | .exponentSign s n m e =>
    match ch with
    | some v =>
      if isDigit v then t.digit v (.exponentSome s n m e 1)
      else t.endIncomplete s n m e ch
    | none => t.endIncomplete s n m e ch
  | .exponentSome s n m e k =>
    match ch with
    | some v =>
      if isDigit v then t.digit v (.exponentSome s n m e (k + 1))
      else t.endNumber s n m e ch
    | none => t.endNumber s n m e ch
  | _ => .panic

/-- The end of `Tokenizer::advance_string`, token.rs 894-924: a normal character of a string. -/
def advanceChar (t : Buffered) (v : Char) : Run (Buffered × Option Char) :=
  if t.tok.state ≠ .string then .panic
  else if v = '"' then .say (.tok (.string t.tok.acc t.tok.accStr)) <| .ret (t.prepare, none)
  else if v = '\\' then .ret ((t.raw v).to .stringEscape, none)
  else if v.toNat ≤ 0x1f then .say (.err (.stringCharacterInvalid v)) <| .ret ((t.raw v).str v, none)
  else .ret ((t.raw v).str v, none)

/-- `State::StringUnicode` with a digit, token.rs 774-797. -/
def advanceUnicode (t : Buffered) (num : Nat) (value : BitVec 32) (v : Char) : Run (Buffered × Option Char) :=
  match toDigit 16 v with
  | none => .panic
  | some d =>
    let value := value <<< 4 ||| BitVec.ofNat 32 d
    let t := t.raw v
    if num < 3 then .ret (t.to (.stringUnicode (num + 1) value), none)
    else if value.toNat ≥ 0xd800 ∧ value.toNat ≤ 0xdbff then .ret (t.to (.stringSurrogate value), none)
    else if value.toNat ≥ 0xdc00 ∧ value.toNat ≤ 0xdfff then
      .say (.err .stringSurrogateUnpaired) <| .ret (t.to .string, none)
    else
      match fromU32 value.toNat with
      | none => .panic
      | some c => .ret ((t.str c).to .string, none)

/-- `State::StringSurrogateUnicode` with a digit, token.rs 849-878. -/
def advanceTrail (t : Buffered) (lead : BitVec 32) (num : Nat) (trail : BitVec 32) (v : Char) :
    Run (Buffered × Option Char) :=
  match toDigit 16 v with
  | none => .panic
  | some d =>
    let trail := trail <<< 4 ||| BitVec.ofNat 32 d
    let t := t.raw v
    if num < 3 then .ret (t.to (.stringSurrogateUnicode lead (num + 1) trail), none)
    else if trail.toNat ≥ 0xd800 ∧ trail.toNat ≤ 0xdbff then
      .say (.err .stringSurrogateUnpaired) <| .ret (t.to .string, none)
    else if trail.toNat ≥ 0xdc00 ∧ trail.toNat ≤ 0xdfff then
      match Tokenizer.surrogates lead trail with
      | none => .panic
      | some c => .ret ((t.str c).to .string, none)
    else
      match fromU32 trail.toNat with
      | none => .panic
      | some _ => .say (.err .stringSurrogateUnpaired) <| .ret (t.to .string, none)

/-- `Tokenizer::advance_string`, token.rs 714-925. -/
def advanceString (t : Buffered) (ch : Option Char) : Run (Buffered × Option Char) :=
  match ch with
  | none => .say (.err .stringIncomplete) <| .ret (t.prepare, none)
  | some v =>
    match t.tok.state with
    | .stringEscape =>
      if Tokenizer.isSimple v then .ret (((t.raw v).str (Tokenizer.simple v)).to .string, none)
      else if v = 'u' then .ret ((t.raw v).to (.stringUnicode 0 0), none)
      else .say (.err (.stringEscapeInvalid v)) <| .ret (((t.raw v).str v).to .string, none)
    | .stringUnicode num value =>
      if isHex v then t.advanceUnicode num value v
      else .say (.err .stringEscapeIncomplete) <| advanceChar (t.to .string) v
    | .stringSurrogate lead =>
      if v = '\\' then .ret ((t.raw v).to (.stringSurrogateEscape lead), none)
      else .say (.err .stringSurrogateUnpaired) <| advanceChar (t.to .string) v
    | .stringSurrogateEscape lead =>
      if v = 'u' then .ret ((t.raw v).to (.stringSurrogateUnicode lead 0 0), none)
      else if Tokenizer.isSimple v then
        .say (.err .stringSurrogateUnpaired) <| .ret (((t.raw v).str (Tokenizer.simple v)).to .string, none)
      else
        .say (.err .stringSurrogateUnpaired) <| .say (.err (.stringEscapeInvalid v)) <|
        .ret (((t.raw v).str v).to .string, none)
    | .stringSurrogateUnicode lead num trail =>
      if isHex v then t.advanceTrail lead num trail v
      else .say (.err .stringEscapeIncomplete) <| advanceChar (t.to .string) v
    | _ => advanceChar t v

/-- The second half of `Tokenizer::advance`, token.rs 989-1113: a character that starts a token. The last cases have
the same effect and are merged. -/
def start (t : Buffered) (v : Char) : Run (Buffered × Option Char) :=
  if v = ':' then .say (.tok .colon) <| .ret (t, none)
  else if v = ',' then .say (.tok .comma) <| .ret (t, none)
  else if v = '[' then .say (.tok .arrayOpen) <| .ret (t, none)
  else if v = ']' then .say (.tok .arrayClose) <| .ret (t, none)
  else if v = '{' then .say (.tok .objectOpen) <| .ret (t, none)
  else if v = '}' then .say (.tok .objectClose) <| .ret (t, none)
  else if (97 ≤ v.toNat ∧ v.toNat ≤ 122) ∨ (65 ≤ v.toNat ∧ v.toNat ≤ 90) then .ret ((t.raw v).to .keyword, none)
  else if isSpace v then .ret ((t.raw v).to .whitespace, none)
  else if v = '-' then .ret ((t.raw v).to (.integerNone .minus), none)
  else if isDigit v then t.digit v (if v = '0' then .integerZero .plus else .integerSome .plus 1)
  else if v = '"' then .ret (t.to .string, none)
  else if v = '#' then .ret (t.to .commentLine, none)
  else if v = '+' then
    if t.tok.has flagPlusSign then .ret ((t.raw v).to (.integerNone .plus), none)
    else .say (.err (.characterStray v)) <| .ret (t, none)
  else if v = '/' then .ret ((t.raw v).to .slash, none)
  else if v = '=' then .say (.err (.characterStray v)) <| .say (.tok .colon) <| .ret (t, none)
  else if isWhitespace v then .say (.err (.characterStray v)) <| .ret (t.to .whitespace, none)
  else .ret ((t.raw v).to .keyword, none)

/-- The first half of `Tokenizer::advance`, token.rs 936-967. -/
def handle (t : Buffered) (ch : Option Char) : Run (Buffered × Option Char) :=
  match t.tok.state with
  | .none => .ret (t, ch)
  | .slash | .keyword | .whitespace | .commentLine => t.advanceMisc ch
  | .integerNone .. | .integerSome .. | .integerZero .. | .fractionNone .. | .fractionSome .. | .exponentNone ..
  | .exponentSign .. | .exponentSome .. => t.advanceNumber ch
  | .string | .stringEscape | .stringUnicode .. | .stringSurrogate .. | .stringSurrogateEscape ..
  | .stringSurrogateUnicode .. => t.advanceString ch

/-- `Tokenizer::advance`, token.rs 927-1115. -/
def advance (t : Buffered) (ch : Option Char) : Run Buffered :=
  let r := t.handle ch
  match r.res with
  | none => ⟨r.evs, none⟩
  | some (t, none) => ⟨r.evs, some t⟩
  | some (t, some v) =>
    let s := t.start v
    ⟨r.evs ++ s.evs, s.res.map (·.1)⟩

end Buffered

end Verif.Json
