import Verif.Json.ModelToken
/-! # Model of the JSON tokenizer with report handlers that panic, `lib/osi/src/json/token.rs`

The same functions as in `ModelToken.lean`, but each report is recorded together with the tokenizer at that point: it is what someone who catches a panic of
the report handler is left with, since only `ControlFlow::Break` makes `push` clean up (1139-1153). -/
namespace Verif.Json

/-- What a function does up to its end: reports with the tokenizer at that point, and then a result or a panic of its own (`none`). -/
structure RunU (α : Type) where
  pts : List (Ev × Tokenizer)
  res : Option α

namespace RunU

def ret {α : Type} (a : α) : RunU α := ⟨[], some a⟩
def panic {α : Type} : RunU α := ⟨[], none⟩
/-- `report(…)?` of a tokenizer, and what follows. -/
def say {α : Type} (t : Tokenizer) (e : Ev) (k : RunU α) : RunU α := ⟨(e, t) :: k.pts, k.res⟩

end RunU

namespace Tokenizer

/-- `Tokenizer::acc_num`, token.rs 311-313. -/
def numU (t : Tokenizer) (c : Char) (k : Tokenizer → RunU (Tokenizer × Option Char)) : RunU (Tokenizer × Option Char) :=
  match toDigit 10 c with
  | some d => if d < 256 then k { t with accNum := t.accNum ++ [UInt8.ofNat d] } else .panic
  | none => .panic

/-- `Tokenizer::report_number`, token.rs 361-377; slices panic if out of range. -/
def numberU {α : Type} (t : Tokenizer) (s : Sign) (n m : Nat) (e : Sign) (k : RunU α) : RunU α :=
  if n ≤ t.accNum.length ∧ n + m ≤ t.accNum.length then
    .say t (.tok (.number t.acc (t.accNum.take n) ((t.accNum.drop n).take m) (t.accNum.drop (n + m)) s e)) k
  else .panic

/-- The keyword part of `Tokenizer::advance_misc`, token.rs 469-513. -/
def advanceKeywordU (t : Tokenizer) (rem : Option Char) : RunU (Tokenizer × Option Char) :=
  match rem with
  | some v =>
    if v = ':' || v = ',' || v = '[' || v = ']' || v = '{' || v = '}' || v = ' ' || v = '\n' || v = '\r' || v = '\t'
        || v = '-' || v = '"' then
      .say t t.keyword <| .ret (t.prepare, rem)
    else if v = '#' || v = '/' || v = '+' || v = '=' then
      .say t t.keyword <| .ret (t.prepare, rem)
    else if isWhitespace v then
      .say t t.keyword <| .ret (t.prepare, rem)
    else .ret (t.raw v, none)
  | none => .say t t.keyword <| .ret (t.prepare, none)

/-- `Tokenizer::advance_misc`, token.rs 392-514. -/
def advanceMiscU (t : Tokenizer) (ch : Option Char) : RunU (Tokenizer × Option Char) :=
  match t.state with
  | .slash =>
    match ch with
    | some v =>
      if v = '/' then .ret ({ t.raw v with state := .commentLine }, none)
      else advanceKeywordU { t with state := .keyword } (some v)
    | none => .say t t.keyword <| .ret (t.prepare, none)
  | .keyword => advanceKeywordU t ch
  | .whitespace =>
    match ch with
    | some v =>
      if isSpace v then .ret (t.raw v, none)
      else if isWhitespace v then .say t (.err (.characterStray v)) <| .ret (t, none)
      else .say t (.tok (.whitespace t.acc)) <| .ret (t.prepare, some v)
    | none => .say t (.tok (.whitespace t.acc)) <| .ret (t.prepare, none)
  | .commentLine =>
    match ch with
    | some v =>
      if v = '\n' then .say t (.err (.comment t.acc)) <| .ret (t.prepare, some v)
      else .ret (t.raw v, none)
    | none => .say t (.err (.comment t.acc)) <| .ret (t.prepare, none)
  | _ => .panic

/-- Digits of numbers, for example token.rs 529-538. -/
def digitU (t : Tokenizer) (v : Char) (s : State) : RunU (Tokenizer × Option Char) :=
  (t.raw v).numU v fun t => .ret ({ t with state := s }, none)

/-- The end of a number, for example token.rs 567-574. -/
def endNumberU (t : Tokenizer) (s : Sign) (n m : Nat) (e : Sign) (ch : Option Char) : RunU (Tokenizer × Option Char) :=
  t.numberU s n m e <| .ret (t.prepare, ch)

/-- The end of an incomplete number, for example token.rs 539-547. -/
def endIncompleteU (t : Tokenizer) (s : Sign) (n m : Nat) (e : Sign) (ch : Option Char) : RunU (Tokenizer × Option Char) :=
  .say t (.err .numberIncomplete) <| t.numberU s n m e <| .ret (t.prepare, ch)

/-- `Tokenizer::advance_number`, token.rs 516-712. -/
def advanceNumberU (t : Tokenizer) (ch : Option Char) : RunU (Tokenizer × Option Char) :=
  match t.state with
  | .integerNone s =>
    match ch with
    | some v =>
      if isDigit v then t.digitU v (if v = '0' then .integerZero s else .integerSome s 1)
      else t.endIncompleteU s 0 0 .plus ch
    | none => t.endIncompleteU s 0 0 .plus ch
  | .integerSome s n =>
    match ch with
    | some v =>
      if isDigit v then t.digitU v (.integerSome s (n + 1))
      else if v = '.' then .ret ({ t.raw v with state := .fractionNone s n }, none)
      else if v = 'e' || v = 'E' then .ret ({ t.raw v with state := .exponentNone s n 0 }, none)
      else t.endNumberU s n 0 .plus ch
    | none => t.endNumberU s n 0 .plus ch
  | .integerZero s =>
    match ch with
    | some v =>
      if v = '.' then .ret ({ t.raw v with state := .fractionNone s 1 }, none)
      else if v = 'e' || v = 'E' then .ret ({ t.raw v with state := .exponentNone s 1 0 }, none)
      else if isDigit v then
        if t.has flagLeadingZero then t.digitU v (.integerSome s 2)
        else .say t (.err (.characterStray v)) <| t.digitU v (.integerSome s 2)
      else t.endNumberU s 1 0 .plus ch
    | none => t.endNumberU s 1 0 .plus ch
  | .fractionNone s n =>
    match ch with
    | some v =>
      if isDigit v then t.digitU v (.fractionSome s n 1)
      else t.endIncompleteU s n 0 .plus ch
    | none => t.endIncompleteU s n 0 .plus ch
  | .fractionSome s n m =>
    match ch with
    | some v =>
      if v = 'e' || v = 'E' then .ret ({ t.raw v with state := .exponentNone s n m }, none)
      else if isDigit v then t.digitU v (.fractionSome s n (m + 1))
      else t.endNumberU s n m .plus ch
    | none => t.endNumberU s n m .plus ch
  | .exponentNone s n m =>
    match ch with
    | some v =>
      if v = '+' then .ret ({ t.raw v with state := .exponentSign s n m .plus }, none)
      else if v = '-' then .ret ({ t.raw v with state := .exponentSign s n m .minus }, none)
      else if isDigit v then t.digitU v (.exponentSome s n m .plus 1)
      else t.endIncompleteU s n m .plus ch
    | none => t.endIncompleteU s n m .plus ch
  | .exponentSign s n m e =>
    match ch with
    | some v =>
      if isDigit v then t.digitU v (.exponentSome s n m e 1)
      else t.endIncompleteU s n m e ch
    | none => t.endIncompleteU s n m e ch
  | .exponentSome s n m e k =>
    match ch with
    | some v =>
      if isDigit v then t.digitU v (.exponentSome s n m e (k + 1))
      else t.endNumberU s n m e ch
    | none => t.endNumberU s n m e ch
  | _ => .panic

/-- The end of `Tokenizer::advance_string`, token.rs 894-924: a normal character of a string. -/
def advanceCharU (t : Tokenizer) (v : Char) : RunU (Tokenizer × Option Char) :=
  if t.state ≠ .string then .panic
  else if v = '"' then .say t (.tok (.string t.acc t.accStr)) <| .ret (t.prepare, none)
  else if v = '\\' then .ret ({ t.raw v with state := .stringEscape }, none)
  else if v.toNat ≤ 0x1f then .say t (.err (.stringCharacterInvalid v)) <| .ret ((t.raw v).str v, none)
  else .ret ((t.raw v).str v, none)

/-- `State::StringUnicode` with a digit, token.rs 774-797. -/
def advanceUnicodeU (t : Tokenizer) (num : Nat) (value : BitVec 32) (v : Char) : RunU (Tokenizer × Option Char) :=
  match toDigit 16 v with
  | none => .panic
  | some d =>
    let value := value <<< 4 ||| BitVec.ofNat 32 d
    let t := t.raw v
    if num < 3 then .ret ({ t with state := .stringUnicode (num + 1) value }, none)
    else if value.toNat ≥ 0xd800 ∧ value.toNat ≤ 0xdbff then .ret ({ t with state := .stringSurrogate value }, none)
    else if value.toNat ≥ 0xdc00 ∧ value.toNat ≤ 0xdfff then
      .say t (.err .stringSurrogateUnpaired) <| .ret ({ t with state := .string }, none)
    else
      match fromU32 value.toNat with
      | none => .panic
      | some c => .ret ({ t.str c with state := .string }, none)

/-- `State::StringSurrogateUnicode` with a digit, token.rs 849-878. -/
def advanceTrailU (t : Tokenizer) (lead : BitVec 32) (num : Nat) (trail : BitVec 32) (v : Char) :
    RunU (Tokenizer × Option Char) :=
  match toDigit 16 v with
  | none => .panic
  | some d =>
    let trail := trail <<< 4 ||| BitVec.ofNat 32 d
    let t := t.raw v
    if num < 3 then .ret ({ t with state := .stringSurrogateUnicode lead (num + 1) trail }, none)
    else if trail.toNat ≥ 0xd800 ∧ trail.toNat ≤ 0xdbff then
      .say t (.err .stringSurrogateUnpaired) <| .ret ({ t with state := .string }, none)
    else if trail.toNat ≥ 0xdc00 ∧ trail.toNat ≤ 0xdfff then
      match surrogates lead trail with
      | none => .panic
      | some c => .ret ({ t.str c with state := .string }, none)
    else
      match fromU32 trail.toNat with
      | none => .panic
      | some _ => .say t (.err .stringSurrogateUnpaired) <| .ret ({ t with state := .string }, none)

/-- `Tokenizer::advance_string`, token.rs 714-925. -/
def advanceStringU (t : Tokenizer) (ch : Option Char) : RunU (Tokenizer × Option Char) :=
  match ch with
  | none => .say t (.err .stringIncomplete) <| .ret (t.prepare, none)
  | some v =>
    match t.state with
    | .stringEscape =>
      if isSimple v then .ret ({ (t.raw v).str (simple v) with state := .string }, none)
      else if v = 'u' then .ret ({ t.raw v with state := .stringUnicode 0 0 }, none)
      else .say t (.err (.stringEscapeInvalid v)) <| .ret ({ (t.raw v).str v with state := .string }, none)
    | .stringUnicode num value =>
      if isHex v then t.advanceUnicodeU num value v
      else .say t (.err .stringEscapeIncomplete) <| advanceCharU { t with state := .string } v
    | .stringSurrogate lead =>
      if v = '\\' then .ret ({ t.raw v with state := .stringSurrogateEscape lead }, none)
      else .say t (.err .stringSurrogateUnpaired) <| advanceCharU { t with state := .string } v
    | .stringSurrogateEscape lead =>
      if v = 'u' then .ret ({ t.raw v with state := .stringSurrogateUnicode lead 0 0 }, none)
      else if isSimple v then
        .say t (.err .stringSurrogateUnpaired) <| .ret ({ (t.raw v).str (simple v) with state := .string }, none)
      else
        .say t (.err .stringSurrogateUnpaired) <| .say t (.err (.stringEscapeInvalid v)) <|
        .ret ({ (t.raw v).str v with state := .string }, none)
    | .stringSurrogateUnicode lead num trail =>
      if isHex v then t.advanceTrailU lead num trail v
      else .say t (.err .stringEscapeIncomplete) <| advanceCharU { t with state := .string } v
    | _ => advanceCharU t v

/-- The second half of `Tokenizer::advance`, token.rs 989-1113: a character that starts a token. The last cases have
the same effect and are merged. -/
def startU (t : Tokenizer) (v : Char) : RunU (Tokenizer × Option Char) :=
  if v = ':' then .say t (.tok .colon) <| .ret (t, none)
  else if v = ',' then .say t (.tok .comma) <| .ret (t, none)
  else if v = '[' then .say t (.tok .arrayOpen) <| .ret (t, none)
  else if v = ']' then .say t (.tok .arrayClose) <| .ret (t, none)
  else if v = '{' then .say t (.tok .objectOpen) <| .ret (t, none)
  else if v = '}' then .say t (.tok .objectClose) <| .ret (t, none)
  else if (97 ≤ v.toNat ∧ v.toNat ≤ 122) ∨ (65 ≤ v.toNat ∧ v.toNat ≤ 90) then .ret ({ t.raw v with state := .keyword }, none)
  else if isSpace v then .ret ({ t.raw v with state := .whitespace }, none)
  else if v = '-' then .ret ({ t.raw v with state := .integerNone .minus }, none)
  else if isDigit v then t.digitU v (if v = '0' then .integerZero .plus else .integerSome .plus 1)
  else if v = '"' then .ret ({ t with state := .string }, none)
  else if v = '#' then .ret ({ t with state := .commentLine }, none)
  else if v = '+' then
    if t.has flagPlusSign then .ret ({ t.raw v with state := .integerNone .plus }, none)
    else .say t (.err (.characterStray v)) <| .ret (t, none)
  else if v = '/' then .ret ({ t.raw v with state := .slash }, none)
  else if v = '=' then .say t (.err (.characterStray v)) <| .say t (.tok .colon) <| .ret (t, none)
  else if isWhitespace v then .say t (.err (.characterStray v)) <| .ret ({ t with state := .whitespace }, none)
  else .ret ({ t.raw v with state := .keyword }, none)

/-- The first half of `Tokenizer::advance`, token.rs 936-967. -/
def handleU (t : Tokenizer) (ch : Option Char) : RunU (Tokenizer × Option Char) :=
  match t.state with
  | .none => .ret (t, ch)
  | .slash | .keyword | .whitespace | .commentLine => t.advanceMiscU ch
  | .integerNone .. | .integerSome .. | .integerZero .. | .fractionNone .. | .fractionSome .. | .exponentNone ..
  | .exponentSign .. | .exponentSome .. => t.advanceNumberU ch
  | .string | .stringEscape | .stringUnicode .. | .stringSurrogate .. | .stringSurrogateEscape ..
  | .stringSurrogateUnicode .. => t.advanceStringU ch

/-- `Tokenizer::advance`, token.rs 927-1115. -/
def advanceU (t : Tokenizer) (ch : Option Char) : RunU Tokenizer :=
  let r := t.handleU ch
  match r.res with
  | none => ⟨r.pts, none⟩
  | some (t, none) => ⟨r.pts, some t⟩
  | some (t, some v) =>
    let s := t.startU v
    ⟨r.pts ++ s.pts, s.res.map (·.1)⟩

end Tokenizer

/-- What a report handler that may panic does: `ControlFlow::Continue`, `ControlFlow::Break`, or a panic. -/
inductive Answer (R : Type)
  | cont
  | brk (r : R)
  | panic
deriving DecidableEq, Repr

/-- An implementation of `Report<R>` with state `ρ`, token.rs 133-145, that may panic. -/
structure ReportU (ρ R : Type) where
  report : ρ → Ev → ρ × Answer R

/-- How reporting ends: all is reported, the handler asks to stop, or it panics and leaves this tokenizer behind. -/
inductive Ending (R : Type)
  | all
  | brk (r : R)
  | panic (t : Tokenizer)

/-- Reports in order. -/
def ReportU.all {ρ R : Type} (H : ReportU ρ R) : ρ → List (Ev × Tokenizer) → ρ × Ending R
  | s, [] => (s, .all)
  | s, (e, t) :: l =>
    match H.report s e with
    | (s, .cont) => H.all s l
    | (s, .brk r) => (s, .brk r)
    | (s, .panic) => (s, .panic t)

/-- The results of `push`: as in `Flow`, with the panics of the handler told apart from those of the tokenizer itself. -/
inductive FlowU (R α : Type)
  | brk (r : R)
  | cont (a : α)
  | handler
  | panic
deriving DecidableEq, Repr

/-- `Tokenizer::push`, token.rs 1139-1153; the tokenizer is what is left also if there is a panic. -/
def Tokenizer.pushU {ρ R : Type} (H : ReportU ρ R) (t : Tokenizer) (s : ρ) (ch : Option Char) : Tokenizer × ρ × FlowU R Status :=
  let r := t.advanceU ch
  match H.all s r.pts with
  | (s, .brk x) => (t.prepare, s, .brk x)
  | (s, .panic u) => (u, s, .handler)
  | (s, .all) =>
    match r.res with
    | some t => (t, s, .cont t.status)
    | none => (t, s, .panic)

end Verif.Json
