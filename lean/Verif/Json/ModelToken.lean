/-! # Model of the JSON tokenizer, `lib/osi/src/json/token.rs`

Characters are Unicode scalar values. Capacities and borrowing (`Cow`) are not modelled, and neither is running out
of memory; hence the digit counts, which are bounded by the length of a vector, do not overflow. -/
namespace Verif.Json

/-- `FLAG_ALLOW_LEADING_ZERO`, `FLAG_ALLOW_PLUS_SIGN`, token.rs 25 and 31. -/
def flagLeadingZero : BitVec 32 := 1
def flagPlusSign : BitVec 32 := 2

/-- `Status`, token.rs 38-44. -/
inductive Status | done | busy
deriving DecidableEq, Repr

/-- `Sign`, token.rs 49-55. -/
inductive Sign | plus | minus
deriving DecidableEq, Repr

/-- `Error`, token.rs 60-80. -/
inductive Err
  | characterStray (c : Char)
  | keywordUnknown (s : List Char)
  | numberIncomplete
  | stringIncomplete
  | stringCharacterInvalid (c : Char)
  | stringEscapeInvalid (c : Char)
  | stringEscapeIncomplete
  | stringSurrogateUnpaired
  | comment (s : List Char)
deriving DecidableEq, Repr

/-- `Token`, token.rs 89-126. -/
inductive Token
  | colon
  | comma
  | arrayOpen
  | arrayClose
  | objectOpen
  | objectClose
  | null
  | «false»
  | «true»
  | whitespace (raw : List Char)
  | number (raw : List Char) (integer fraction exponent : List UInt8) (integerSign exponentSign : Sign)
  | string (raw chars : List Char)
deriving DecidableEq, Repr

/-- What is reported: `Report::report_error` and `Report::report_token`, token.rs 133-145. -/
inductive Ev
  | err (e : Err)
  | tok (t : Token)
deriving DecidableEq, Repr

/-- `State`, token.rs 152-173. -/
inductive State
  | none
  | slash
  | keyword
  | whitespace
  | integerNone (s : Sign)
  | integerSome (s : Sign) (n : Nat)
  | integerZero (s : Sign)
  | fractionNone (s : Sign) (n : Nat)
  | fractionSome (s : Sign) (n m : Nat)
  | exponentNone (s : Sign) (n m : Nat)
  | exponentSign (s : Sign) (n m : Nat) (t : Sign)
  | exponentSome (s : Sign) (n m : Nat) (t : Sign) (k : Nat)
  | string
  | stringEscape
  | stringUnicode (num : Nat) (value : BitVec 32)
  | stringSurrogate (lead : BitVec 32)
  | stringSurrogateEscape (lead : BitVec 32)
  | stringSurrogateUnicode (lead : BitVec 32) (num : Nat) (trail : BitVec 32)
  | commentLine
deriving DecidableEq, Repr

/-- `Tokenizer`, token.rs 188-194. -/
structure Tokenizer where
  flags : BitVec 32
  state : State
  acc : List Char
  accStr : List Char
  accNum : List UInt8
deriving DecidableEq, Repr

/-- What a function does up to its end: it reports, and then returns or panics (`none`). The report handler only answers
whether to go on, hence the calls do not depend on its answers; if it asks to stop then `?` leaves all functions up to
`push`, which discards what they did to the tokenizer. -/
structure Run (α : Type) where
  evs : List Ev
  res : Option α

namespace Run

def ret {α : Type} (a : α) : Run α := ⟨[], some a⟩
def panic {α : Type} : Run α := ⟨[], none⟩
/-- `report(…)?` and what follows. -/
def say {α : Type} (e : Ev) (k : Run α) : Run α := ⟨e :: k.evs, k.res⟩

end Run

/-! ## Characters -/

/-- `'0'..='9'`. -/
def isDigit (c : Char) : Bool := decide (48 ≤ c.toNat ∧ c.toNat ≤ 57)
/-- `'0'..='9' | 'a'..='f' | 'A'..='F'`. -/
def isHex (c : Char) : Bool :=
  isDigit c || decide (97 ≤ c.toNat ∧ c.toNat ≤ 102) || decide (65 ≤ c.toNat ∧ c.toNat ≤ 70)
/-- `char::to_digit(radix)`. -/
def toDigit (radix : Nat) (c : Char) : Option Nat :=
  let v :=
    if 48 ≤ c.toNat ∧ c.toNat ≤ 57 then some (c.toNat - 48)
    else if 97 ≤ c.toNat ∧ c.toNat ≤ 122 then some (c.toNat - 97 + 10)
    else if 65 ≤ c.toNat ∧ c.toNat ≤ 90 then some (c.toNat - 65 + 10)
    else none
  match v with
  | some v => if v < radix then some v else none
  | none => none
/-- `' ' | '\n' | '\r' | '\t'`. -/
def isSpace (c : Char) : Bool := c = ' ' || c = '\n' || c = '\r' || c = '\t'
/-- `char::is_whitespace`, the Unicode property `White_Space`. -/
def isWhitespace (c : Char) : Bool :=
  let n := c.toNat
  decide (9 ≤ n ∧ n ≤ 13) || n == 0x20 || n == 0x85 || n == 0xa0 || n == 0x1680 || decide (0x2000 ≤ n ∧ n ≤ 0x200a)
    || n == 0x2028 || n == 0x2029 || n == 0x202f || n == 0x205f || n == 0x3000
/-- `char::from_u32`. -/
def fromU32 (n : Nat) : Option Char := if h : n.isValidChar then some (Char.ofNatAux n h) else none

/-! ## Tokenizer -/

namespace Tokenizer

/-- `Tokenizer::with_flags`, token.rs 268-273, and `new`, 260-262. -/
def withFlags (flags : BitVec 32) : Tokenizer := ⟨flags, .none, [], [], []⟩

/-- `Tokenizer::prepare`, token.rs 277-285, and `reset`, 291-293. -/
def prepare (t : Tokenizer) : Tokenizer := ⟨t.flags, .none, [], [], []⟩

/-- `Tokenizer::status`, token.rs 300-305. -/
def status (t : Tokenizer) : Status :=
  match t.state with
  | .none => .done
  | _ => .busy

/-- `Tokenizer::acc_raw`, token.rs 307-309. -/
def raw (t : Tokenizer) (c : Char) : Tokenizer := { t with acc := t.acc ++ [c] }

/-- `Tokenizer::acc_num`, token.rs 311-313. -/
def num (t : Tokenizer) (c : Char) (k : Tokenizer → Run (Tokenizer × Option Char)) : Run (Tokenizer × Option Char) :=
  match toDigit 10 c with
  | some d => if d < 256 then k { t with accNum := t.accNum ++ [UInt8.ofNat d] } else .panic
  | none => .panic

/-- `Tokenizer::acc_str`, token.rs 315-317. -/
def str (t : Tokenizer) (c : Char) : Tokenizer := { t with accStr := t.accStr ++ [c] }

/-- `Tokenizer::report_keyword`, token.rs 337-347. -/
def keyword (t : Tokenizer) : Ev :=
  if t.acc = "null".toList then .tok .null
  else if t.acc = "false".toList then .tok .false
  else if t.acc = "true".toList then .tok .true
  else .err (.keywordUnknown t.acc)

/-- `Tokenizer::report_number`, token.rs 361-377; slices panic if out of range. -/
def number {α : Type} (t : Tokenizer) (s : Sign) (n m : Nat) (e : Sign) (k : Run α) : Run α :=
  if n ≤ t.accNum.length ∧ n + m ≤ t.accNum.length then
    .say (.tok (.number t.acc (t.accNum.take n) ((t.accNum.drop n).take m) (t.accNum.drop (n + m)) s e)) k
  else .panic

/-- The keyword part of `Tokenizer::advance_misc`, token.rs 469-513. -/
def advanceKeyword (t : Tokenizer) (rem : Option Char) : Run (Tokenizer × Option Char) :=
  match rem with
  | some v =>
    if v = ':' || v = ',' || v = '[' || v = ']' || v = '{' || v = '}' || v = ' ' || v = '\n' || v = '\r' || v = '\t'
        || v = '-' || v = '"' then
      .say t.keyword <| .ret (t.prepare, rem)
    else if v = '#' || v = '/' || v = '+' || v = '=' then
      .say t.keyword <| .ret (t.prepare, rem)
    else if isWhitespace v then
      .say t.keyword <| .ret (t.prepare, rem)
    else .ret (t.raw v, none)
  | none => .say t.keyword <| .ret (t.prepare, none)

/-- `Tokenizer::advance_misc`, token.rs 392-514. -/
def advanceMisc (t : Tokenizer) (ch : Option Char) : Run (Tokenizer × Option Char) :=
  match t.state with
  | .slash =>
    match ch with
    | some v =>
      if v = '/' then .ret ({ t.raw v with state := .commentLine }, none)
      else advanceKeyword { t with state := .keyword } (some v)
    | none => .say t.keyword <| .ret (t.prepare, none)
  | .keyword => advanceKeyword t ch
  | .whitespace =>
    match ch with
    | some v =>
      if isSpace v then .ret (t.raw v, none)
      else if isWhitespace v then .say (.err (.characterStray v)) <| .ret (t, none)
      else .say (.tok (.whitespace t.acc)) <| .ret (t.prepare, some v)
    | none => .say (.tok (.whitespace t.acc)) <| .ret (t.prepare, none)
  | .commentLine =>
    match ch with
    | some v =>
      if v = '\n' then .say (.err (.comment t.acc)) <| .ret (t.prepare, some v)
      else .ret (t.raw v, none)
    | none => .say (.err (.comment t.acc)) <| .ret (t.prepare, none)
  | _ => .panic

/-- Digits of numbers, for example token.rs 529-538. -/
def digit (t : Tokenizer) (v : Char) (s : State) : Run (Tokenizer × Option Char) :=
  (t.raw v).num v fun t => .ret ({ t with state := s }, none)

/-- The end of a number, for example token.rs 567-574. -/
def endNumber (t : Tokenizer) (s : Sign) (n m : Nat) (e : Sign) (ch : Option Char) : Run (Tokenizer × Option Char) :=
  t.number s n m e <| .ret (t.prepare, ch)

/-- The end of an incomplete number, for example token.rs 539-547. -/
def endIncomplete (t : Tokenizer) (s : Sign) (n m : Nat) (e : Sign) (ch : Option Char) : Run (Tokenizer × Option Char) :=
  .say (.err .numberIncomplete) <| t.number s n m e <| .ret (t.prepare, ch)

/-- Whether a flag is set, token.rs 589 and 1053. -/
def has (t : Tokenizer) (f : BitVec 32) : Bool := t.flags &&& f == f

/-- `Tokenizer::advance_number`, token.rs 516-712. -/
def advanceNumber (t : Tokenizer) (ch : Option Char) : Run (Tokenizer × Option Char) :=
  match t.state with
  | .integerNone s =>
    match ch with
    | some v =>
      if isDigit v then t.digit v (if v = '0' then .integerZero s else .integerSome s 1)
      else t.endIncomplete s 0 0 .plus ch
    | none => t.endIncomplete s 0 0 .plus ch
  | .integerSome s n =>
    match ch with
    | some v =>
      if isDigit v then t.digit v (.integerSome s (n + 1))
      else if v = '.' then .ret ({ t.raw v with state := .fractionNone s n }, none)
      else if v = 'e' || v = 'E' then .ret ({ t.raw v with state := .exponentNone s n 0 }, none)
      else t.endNumber s n 0 .plus ch
    | none => t.endNumber s n 0 .plus ch
  | .integerZero s =>
    match ch with
    | some v =>
      if v = '.' then .ret ({ t.raw v with state := .fractionNone s 1 }, none)
      else if v = 'e' || v = 'E' then .ret ({ t.raw v with state := .exponentNone s 1 0 }, none)
      else if isDigit v then
        if t.has flagLeadingZero then t.digit v (.integerSome s 2)
        else .say (.err (.characterStray v)) <| t.digit v (.integerSome s 2)
      else t.endNumber s 1 0 .plus ch
    | none => t.endNumber s 1 0 .plus ch
  | .fractionNone s n =>
    match ch with
    | some v =>
      if isDigit v then t.digit v (.fractionSome s n 1)
      else t.endIncomplete s n 0 .plus ch
    | none => t.endIncomplete s n 0 .plus ch
  | .fractionSome s n m =>
    match ch with
    | some v =>
      if v = 'e' || v = 'E' then .ret ({ t.raw v with state := .exponentNone s n m }, none)
      else if isDigit v then t.digit v (.fractionSome s n (m + 1))
      else t.endNumber s n m .plus ch
    | none => t.endNumber s n m .plus ch
  | .exponentNone s n m =>
    match ch with
    | some v =>
      if v = '+' then .ret ({ t.raw v with state := .exponentSign s n m .plus }, none)
      else if v = '-' then .ret ({ t.raw v with state := .exponentSign s n m .minus }, none)
      else if isDigit v then t.digit v (.exponentSome s n m .plus 1)
      else t.endIncomplete s n m .plus ch
    | none => t.endIncomplete s n m .plus ch
  | .exponentSign s n m e =>
    match ch with
    | some v =>
      if isDigit v then t.digit v (.exponentSome s n m e 1)
      else t.endIncomplete s n m e ch
    | none => t.endIncomplete s n m e ch
  | .exponentSome s n m e k =>
    match ch with
    | some v =>
      if isDigit v then t.digit v (.exponentSome s n m e (k + 1))
      else t.endNumber s n m e ch
    | none => t.endNumber s n m e ch
  | _ => .panic

/-- Whether a character has a simple escape sequence, token.rs 735. -/
def isSimple (c : Char) : Bool :=
  c = '"' || c = '\\' || c = '/' || c = 'b' || c = 'f' || c = 'n' || c = 'r' || c = 't'

/-- The character of a simple escape sequence, token.rs 737-744. -/
def simple (c : Char) : Char :=
  if c = 'b' then '\x08' else if c = 'f' then '\x0c' else if c = 'n' then '\x0a' else if c = 'r' then '\x0d'
  else if c = 't' then '\x09' else c

/-- The end of `Tokenizer::advance_string`, token.rs 894-924: a normal character of a string. -/
def advanceChar (t : Tokenizer) (v : Char) : Run (Tokenizer × Option Char) :=
  if t.state ≠ .string then .panic
  else if v = '"' then .say (.tok (.string t.acc t.accStr)) <| .ret (t.prepare, none)
  else if v = '\\' then .ret ({ t.raw v with state := .stringEscape }, none)
  else if v.toNat ≤ 0x1f then .say (.err (.stringCharacterInvalid v)) <| .ret ((t.raw v).str v, none)
  else .ret ((t.raw v).str v, none)

/-- `State::StringUnicode` with a digit, token.rs 774-797. -/
def advanceUnicode (t : Tokenizer) (num : Nat) (value : BitVec 32) (v : Char) : Run (Tokenizer × Option Char) :=
  match toDigit 16 v with
  | none => .panic
  | some d =>
    let value := value <<< 4 ||| BitVec.ofNat 32 d
    let t := t.raw v
    if num < 3 then .ret ({ t with state := .stringUnicode (num + 1) value }, none)
    else if value.toNat ≥ 0xd800 ∧ value.toNat ≤ 0xdbff then .ret ({ t with state := .stringSurrogate value }, none)
    else if value.toNat ≥ 0xdc00 ∧ value.toNat ≤ 0xdfff then
      .say (.err .stringSurrogateUnpaired) <| .ret ({ t with state := .string }, none)
    else
      match fromU32 value.toNat with
      | none => .panic
      | some c => .ret ({ t.str c with state := .string }, none)

/-- The character of a surrogate pair, token.rs 865-868; the arithmetic is that of `u32` with checks, `none` is a panic. -/
def surrogates (lead trail : BitVec 32) : Option Char :=
  if lead.toNat < 0xd800 ∨ trail.toNat < 0xdc00 then none
  else
    let n := 0x10000 + ((BitVec.ofNat 32 (lead.toNat - 0xd800)) <<< 10).toNat + (trail.toNat - 0xdc00)
    if n < 4294967296 then fromU32 n else none

/-- `State::StringSurrogateUnicode` with a digit, token.rs 849-878. -/
def advanceTrail (t : Tokenizer) (lead : BitVec 32) (num : Nat) (trail : BitVec 32) (v : Char) :
    Run (Tokenizer × Option Char) :=
  match toDigit 16 v with
  | none => .panic
  | some d =>
    let trail := trail <<< 4 ||| BitVec.ofNat 32 d
    let t := t.raw v
    if num < 3 then .ret ({ t with state := .stringSurrogateUnicode lead (num + 1) trail }, none)
    else if trail.toNat ≥ 0xd800 ∧ trail.toNat ≤ 0xdbff then
      .say (.err .stringSurrogateUnpaired) <| .ret ({ t with state := .string }, none)
    else if trail.toNat ≥ 0xdc00 ∧ trail.toNat ≤ 0xdfff then
      match surrogates lead trail with
      | none => .panic
      | some c => .ret ({ t.str c with state := .string }, none)
    else
      match fromU32 trail.toNat with
      | none => .panic
      | some _ => .say (.err .stringSurrogateUnpaired) <| .ret ({ t with state := .string }, none)

/-- `Tokenizer::advance_string`, token.rs 714-925. -/
def advanceString (t : Tokenizer) (ch : Option Char) : Run (Tokenizer × Option Char) :=
  match ch with
  | none => .say (.err .stringIncomplete) <| .ret (t.prepare, none)
  | some v =>
    match t.state with
    | .stringEscape =>
      if isSimple v then .ret ({ (t.raw v).str (simple v) with state := .string }, none)
      else if v = 'u' then .ret ({ t.raw v with state := .stringUnicode 0 0 }, none)
      else .say (.err (.stringEscapeInvalid v)) <| .ret ({ (t.raw v).str v with state := .string }, none)
    | .stringUnicode num value =>
      if isHex v then t.advanceUnicode num value v
      else .say (.err .stringEscapeIncomplete) <| advanceChar { t with state := .string } v
    | .stringSurrogate lead =>
      if v = '\\' then .ret ({ t.raw v with state := .stringSurrogateEscape lead }, none)
      else .say (.err .stringSurrogateUnpaired) <| advanceChar { t with state := .string } v
    | .stringSurrogateEscape lead =>
      if v = 'u' then .ret ({ t.raw v with state := .stringSurrogateUnicode lead 0 0 }, none)
      else if isSimple v then
        .say (.err .stringSurrogateUnpaired) <| .ret ({ (t.raw v).str (simple v) with state := .string }, none)
      else
        .say (.err .stringSurrogateUnpaired) <| .say (.err (.stringEscapeInvalid v)) <|
        .ret ({ (t.raw v).str v with state := .string }, none)
    | .stringSurrogateUnicode lead num trail =>
      if isHex v then t.advanceTrail lead num trail v
      else .say (.err .stringEscapeIncomplete) <| advanceChar { t with state := .string } v
    | _ => advanceChar t v

/-- The second half of `Tokenizer::advance`, token.rs 989-1113: a character that starts a token. The last cases have
the same effect and are merged. -/
def start (t : Tokenizer) (v : Char) : Run (Tokenizer × Option Char) :=
  if v = ':' then .say (.tok .colon) <| .ret (t, none)
  else if v = ',' then .say (.tok .comma) <| .ret (t, none)
  else if v = '[' then .say (.tok .arrayOpen) <| .ret (t, none)
  else if v = ']' then .say (.tok .arrayClose) <| .ret (t, none)
  else if v = '{' then .say (.tok .objectOpen) <| .ret (t, none)
  else if v = '}' then .say (.tok .objectClose) <| .ret (t, none)
  else if (97 ≤ v.toNat ∧ v.toNat ≤ 122) ∨ (65 ≤ v.toNat ∧ v.toNat ≤ 90) then .ret ({ t.raw v with state := .keyword }, none)
  else if isSpace v then .ret ({ t.raw v with state := .whitespace }, none)
  else if v = '-' then .ret ({ t.raw v with state := .integerNone .minus }, none)
  else if isDigit v then t.digit v (if v = '0' then .integerZero .plus else .integerSome .plus 1)
  else if v = '"' then .ret ({ t with state := .string }, none)
  else if v = '#' then .ret ({ t with state := .commentLine }, none)
  else if v = '+' then
    if t.has flagPlusSign then .ret ({ t.raw v with state := .integerNone .plus }, none)
    else .say (.err (.characterStray v)) <| .ret (t, none)
  else if v = '/' then .ret ({ t.raw v with state := .slash }, none)
  else if v = '=' then .say (.err (.characterStray v)) <| .say (.tok .colon) <| .ret (t, none)
  else if isWhitespace v then .say (.err (.characterStray v)) <| .ret ({ t with state := .whitespace }, none)
  else .ret ({ t.raw v with state := .keyword }, none)

/-- The first half of `Tokenizer::advance`, token.rs 936-967. -/
def handle (t : Tokenizer) (ch : Option Char) : Run (Tokenizer × Option Char) :=
  match t.state with
  | .none => .ret (t, ch)
  | .slash | .keyword | .whitespace | .commentLine => t.advanceMisc ch
  | .integerNone .. | .integerSome .. | .integerZero .. | .fractionNone .. | .fractionSome .. | .exponentNone ..
  | .exponentSign .. | .exponentSome .. => t.advanceNumber ch
  | .string | .stringEscape | .stringUnicode .. | .stringSurrogate .. | .stringSurrogateEscape ..
  | .stringSurrogateUnicode .. => t.advanceString ch

/-- `Tokenizer::advance`, token.rs 927-1115. -/
def advance (t : Tokenizer) (ch : Option Char) : Run Tokenizer :=
  let r := t.handle ch
  match r.res with
  | none => ⟨r.evs, none⟩
  | some (t, none) => ⟨r.evs, some t⟩
  | some (t, some v) =>
    let s := t.start v
    ⟨r.evs ++ s.evs, s.res.map (·.1)⟩

end Tokenizer

/-! ## Reports -/

/-- An implementation of `Report<R>` with state `ρ`, token.rs 133-145: `some` is `ControlFlow::Break`. -/
structure Report (ρ R : Type) where
  report : ρ → Ev → ρ × Option R

/-- The results of `push` and the like: `ControlFlow::Break`, `ControlFlow::Continue`, or a panic. -/
inductive Flow (R α : Type)
  | brk (r : R)
  | cont (a : α)
  | panic
deriving DecidableEq, Repr

/-- Reports in order, until the handler asks to stop. -/
def Report.all {ρ R : Type} (H : Report ρ R) : ρ → List Ev → ρ × Option R
  | s, [] => (s, none)
  | s, e :: l =>
    match H.report s e with
    | (s, some r) => (s, some r)
    | (s, none) => H.all s l

namespace Tokenizer

/-- `Tokenizer::push`, token.rs 1139-1153. -/
def push {ρ R : Type} (H : Report ρ R) (t : Tokenizer) (s : ρ) (ch : Option Char) : Tokenizer × ρ × Flow R Status :=
  let r := t.advance ch
  match H.all s r.evs with
  | (s, some x) => (t.prepare, s, .brk x)
  | (s, none) =>
    match r.res with
    | some t => (t, s, .cont t.status)
    | none => (t, s, .panic)

/-- `Tokenizer::push_str`, token.rs 1162-1171. -/
def pushStr {ρ R : Type} (H : Report ρ R) (t : Tokenizer) (s : ρ) : List Char → Tokenizer × ρ × Flow R Status
  | [] => (t, s, .cont t.status)
  | c :: l =>
    match t.push H s (some c) with
    | (t, s, .cont _) => pushStr H t s l
    | x => x

/-- `Tokenizer::parse_str`, token.rs 1183-1193. -/
def parseStr {ρ R : Type} (H : Report ρ R) (t : Tokenizer) (s : ρ) : List Char → Tokenizer × ρ × Flow R Status
  | [] =>
    match t.push H s none with
    | (t, s, .cont _) => (t, s, .cont .done)
    | x => x
  | c :: l =>
    match t.push H s (some c) with
    | (t, s, .cont _) => parseStr H t s l
    | x => x

end Tokenizer

/-- A handler that collects all reports, token.rs 1206-1222. -/
def collect : Report (List Ev) Unit := ⟨fun l e => (l ++ [e], none)⟩

/-- The reports for a text. -/
def tokens (flags : BitVec 32) (text : List Char) : List Ev :=
  ((Tokenizer.withFlags flags).parseStr collect [] text).2.1

-- The cases of the tests, token.rs 1234-1436.
#guard tokens 0 "null".toList = [.tok .null]
#guard tokens 0 ":,[]{}falsetrue".toList = [.tok .colon, .tok .comma, .tok .arrayOpen, .tok .arrayClose, .tok .objectOpen,
  .tok .objectClose, .err (.keywordUnknown "falsetrue".toList)]
#guard tokens 0 "12.34e-56".toList = [.tok (.number "12.34e-56".toList [1, 2] [3, 4] [5, 6] .plus .minus)]
#guard tokens 0 "-0e100".toList = [.tok (.number "-0e100".toList [0] [] [1, 0, 0] .minus .plus)]
#guard tokens 0 "\"\\\"\\\\\\/\\b\\f\\n\\r\\t\"".toList
  = [.tok (.string "\\\"\\\\\\/\\b\\f\\n\\r\\t".toList "\"\\/\x08\x0c\x0a\x0d\x09".toList)]
#guard tokens 0 "\"\\uD834\\udd1e\"".toList = [.tok (.string "\\uD834\\udd1e".toList [Char.ofNat 0x1d11e])]
#guard tokens 0 "\"\\u \"".toList = [.err .stringEscapeIncomplete, .tok (.string "\\u ".toList " ".toList)]
#guard tokens 0 "\"\\ud834\"".toList = [.err .stringSurrogateUnpaired, .tok (.string "\\ud834".toList [])]
#guard tokens 0 "+0e".toList = [.err (.characterStray '+'), .err .numberIncomplete, .tok (.number "0e".toList [0] [] [] .plus .plus)]
#guard tokens 0 "# foobar".toList = [.err (.comment " foobar".toList)]
#guard tokens 0 " \"foo\\\"bar\":-0.1e-10 ".toList = [.tok (.whitespace [' ']),
  .tok (.string "foo\\\"bar".toList "foo\"bar".toList), .tok .colon,
  .tok (.number "-0.1e-10".toList [0] [1] [1, 0] .minus .minus), .tok (.whitespace [' '])]

end Verif.Json
