import Verif.Io.ModelStream
import Verif.Args.Utf8
/-! # Model of the streaming JSON tokenizer, `lib/tmp/src/fmt/json/token.rs`

The tokenizer reads from a stream (`io::stream::Read`), which is implemented by the caller: a reader is a function from its state to
slices. A token has its own copy of the bytes of slices. `usize` has 64 bits. Failed assertions, `unreachable!()`, arithmetic overflows
and accesses out of range are panics: `fault`, or `none`. -/
namespace Verif.Json.Bytes
open Verif.Io (usizeMax More SFlow StreamImpl)

/-- `io::stream::Read`, stream.rs 40-73; `advance` may panic. -/
structure Reader (σ : Type) extends StreamImpl σ where
  advance : σ → Nat → Option σ

/-- `Sign`, token.rs 109-115. -/
inductive Sign | plus | minus
deriving DecidableEq, Repr

/-- `Error`, token.rs 40-105. `numberIncomplete` is never raised. The `Utf8Error` of two variants is left out. -/
inductive Err
  | bufferRemaining
  | bufferChanged
  | itemNonUtf8 (raw : List UInt8)
  | itemUnknown (raw : List UInt8)
  | numberLeadingPlus
  | numberMultipleSigns
  | numberRangeEmpty
  | stringIncomplete
  | stringNonUtf8 (raw str : List UInt8)
  | stringUnescaped (code : UInt8)
  | stringEscapeUnknown (code : UInt8)
  | stringEscapeInvalid
  | stringEscapeUnpairedLeadSurrogate (lead : Nat)
  | stringEscapeUnpairedTrailSurrogate (trail : Nat)
deriving DecidableEq, Repr

/-- `Number`, token.rs 119-130. -/
structure Number where
  raw : List UInt8
  sign : Sign
  integer : List UInt8
  fraction : Option (List UInt8)
  exponent : Option (Sign × List UInt8)
deriving DecidableEq, Repr

/-- `Token`, token.rs 135-174. -/
inductive Token
  | error (e : Err)
  | whitespace (raw : List UInt8)
  | colon
  | comma
  | arrayOpen
  | arrayClose
  | objectOpen
  | objectClose
  | null
  | false
  | true
  | number (n : Number)
  | string (raw str : List UInt8)
deriving DecidableEq, Repr

/-- `core::ops::Range<usize>`. -/
structure Range where
  start : Nat
  stop : Nat
deriving DecidableEq, Repr

/-- The fields of `State::Number` and `State::NumberDone`, token.rs 181-194. -/
structure Num where
  sign : Sign
  integer : Range
  fraction : Range
  exponentSign : Sign
  exponent : Range
deriving DecidableEq, Repr

/-- `State`, token.rs 177-206. -/
inductive State
  | none
  | whitespace
  | item
  | number (n : Num)
  | numberDone (n : Num)
  | string (idxStart : Nat)
  | stringEscape
  | stringEscapeUnicode (idxStart : Nat)
  | stringEscapeUnicodeTrail (idxStart lead : Nat)
deriving DecidableEq, Repr

/-- `DecInner`, token.rs 208-213. -/
structure Dec where
  state : State
  idx : Nat
  done : Option Nat
  accStr : List UInt8
deriving DecidableEq, Repr

/-- `DecInner::new`, token.rs 231-238. -/
def Dec.new : Dec := ⟨.none, 0, none, []⟩

/-! ## Slices and arithmetic -/

/-- `&map[..n]`. -/
def upTo (map : List UInt8) (n : Nat) : Option (List UInt8) := if n ≤ map.length then some (map.take n) else none

/-- `&map[a..b]`. -/
def between (map : List UInt8) (a b : Nat) : Option (List UInt8) :=
  if a ≤ b ∧ b ≤ map.length then some ((map.take b).drop a) else none

/-- `usize::strict_add`. -/
def strictAdd (a b : Nat) : Option Nat := if a + b ≤ usizeMax then some (a + b) else none

/-- `usize::strict_sub`. -/
def strictSub (a b : Nat) : Option Nat := if b ≤ a then some (a - b) else none

/-- `char::to_digit(16)`. -/
def toDigit16 (b : UInt8) : Option Nat :=
  if 0x30 ≤ b ∧ b ≤ 0x39 then some (b.toNat - 0x30)
  else if 0x61 ≤ b ∧ b ≤ 0x66 then some (b.toNat - 0x61 + 10)
  else if 0x41 ≤ b ∧ b ≤ 0x46 then some (b.toNat - 0x41 + 10)
  else none

/-- `unicode_from_hex`, token.rs 221-228, of the bytes at some indices (636-641 and 696-701). The shifts and disjunctions of at most four
digits are written as sums. -/
def unicodeFromHex (map : List UInt8) (i : Nat) : Option Nat := do
  let a ← map[i]?
  let b ← map[i + 1]?
  let c ← map[i + 2]?
  let d ← map[i + 3]?
  let a ← toDigit16 a
  let b ← toDigit16 b
  let c ← toDigit16 c
  let d ← toDigit16 d
  some (((a * 16 + b) * 16 + c) * 16 + d)

/-- `char::from_u32`, which `unwrap()` panics for if it is not a Unicode scalar value. -/
def charFromU32 (n : Nat) : Option Char := if h : n.isValidChar then some (Char.ofNatAux n h) else none

/-- `char::REPLACEMENT_CHARACTER`. -/
def replacement : Char := '\uFFFD'

/-! ## Classes of bytes -/

/-- ` `, `\n`, `\r`, `\t`; token.rs 366 and 422. -/
def isSpace (b : UInt8) : Bool := b = 0x20 || b = 0x0a || b = 0x0d || b = 0x09

/-- `0` to `9`; token.rs 397, 434 and 469. -/
def isDigit (b : UInt8) : Bool := 0x30 ≤ b && b ≤ 0x39

/-- `+ - . 0-9 a-z A-Z`; token.rs 434-435. -/
def isWordByte (b : UInt8) : Bool :=
  b = 0x2b || b = 0x2d || b = 0x2e || isDigit b || (0x61 ≤ b && b ≤ 0x7a) || (0x41 ≤ b && b ≤ 0x5a)

/-- `0-9 a-f A-F`; token.rs 625 and 680. -/
def isHex (b : UInt8) : Bool := isDigit b || (0x61 ≤ b && b ≤ 0x66) || (0x41 ≤ b && b ≤ 0x46)

/-- `0x00..0x1f`, which excludes `0x1f`; token.rs 556 and 572. -/
def isControl (b : UInt8) : Bool := b < 0x1f

/-- token.rs 556. -/
def isPlain (b : UInt8) : Bool := !(b = 0x22 || b = 0x5c || isControl b)

/-- The predicate of token.rs 675-682, at a distance from `idx_start`. -/
def isTrailByte (i : Nat) (b : UInt8) : Bool :=
  match i with
  | 0 => b = 0x5c
  | 1 => b = 0x75
  | 2 | 3 | 4 | 5 => isHex b
  | _ => false

/-! ## Tokens -/

/-- `raise_whitespace`, token.rs 248-253. -/
def raiseWhitespace (map : List UInt8) : Option Token := if Args.isUtf8 map then some (.whitespace map) else none

/-- `raise_item`, token.rs 255-267. -/
def raiseItem (map : List UInt8) : Token :=
  if map = [0x6e, 0x75, 0x6c, 0x6c] then .null
  else if map = [0x66, 0x61, 0x6c, 0x73, 0x65] then .false
  else if map = [0x74, 0x72, 0x75, 0x65] then .true
  else if Args.isUtf8 map then .error (.itemUnknown map)
  else .error (.itemNonUtf8 map)

/-- `core::str::from_utf8(&map[range]).unwrap()`. -/
def text (map : List UInt8) (r : Range) : Option (List UInt8) :=
  (between map r.start r.stop).bind fun s => if Args.isUtf8 s then some s else none

/-- `raise_number`, token.rs 269-292. -/
def raiseNumber (map : List UInt8) (n : Num) : Option Token := do
  let integer ← text map n.integer
  let fraction ← if n.fraction.start ≠ 0 then (text map n.fraction).map some else some none
  let exponent ← if n.exponent.start ≠ 0 then (text map n.exponent).map fun s => some (n.exponentSign, s) else some none
  some (.number ⟨map, n.sign, integer, fraction, exponent⟩)

/-- The condition of token.rs 299-303. -/
def Num.rangeEmpty (n : Num) : Bool :=
  n.integer.start ≥ n.integer.stop || (n.fraction.start ≠ 0 && n.fraction.start ≥ n.fraction.stop) ||
    (n.exponent.start ≠ 0 && n.exponent.start ≥ n.exponent.stop)

/-- `number_done`, token.rs 294-316. -/
def numberDone (d : Dec) (raw : List UInt8) : Option (Dec × Option Token) :=
  match d.state with
  | .number n =>
    if n.rangeEmpty then some ({ d with state := .numberDone n }, some (.error .numberRangeEmpty))
    else (raiseNumber raw n).map fun t => ({ d with done := some d.idx }, some t)
  | _ => none

/-- `raise_string`, token.rs 318-330. -/
def raiseString (d : Dec) (map : List UInt8) : Option Token := do
  let data := if d.accStr.length > 0 then d.accStr else map
  let last ← strictSub data.length 1
  let data ← between data 1 last
  some (if Args.isUtf8 data then .string map data else .error (.stringNonUtf8 map data))

/-- `string_raw`, token.rs 332-336. -/
def stringRaw (d : Dec) (raw : List UInt8) : Dec := if d.accStr.length > 0 then { d with accStr := d.accStr ++ raw } else d

/-- `string_byte`, token.rs 338-343. -/
def stringByte (d : Dec) (raw : List UInt8) (v : UInt8) : Dec :=
  { d with accStr := (if d.accStr.length = 0 then raw else d.accStr) ++ [v] }

/-- `string_char`, token.rs 345-350. -/
def stringChar (d : Dec) (raw : List UInt8) (v : Char) : Dec :=
  { d with accStr := (if d.accStr.length = 0 then raw else d.accStr) ++ String.utf8EncodeChar v }

/-! ## Advancing

Each of the functions `advance_*` maps the stream once, and goes on with the map. -/

/-- What is mapped. -/
inductive Request
  | map (min : Nat) (max : Option Nat)
  | mapWhile (max : Option Nat) (p : Nat → UInt8 → Bool)

/-- The calls of `map` and `map_while`: token.rs 365, 419-423, 429-437, 450, 466-470, 553-557, 584-585, 620-626, 671-683. The `strict_sub` of the
last predicate would panic at the first call, since the index only grows after that. -/
def request (d : Dec) : Option Request :=
  match d.state with
  | .none => some (.map 1 (some 1))
  | .whitespace => some (.mapWhile none fun _ b => isSpace b)
  | .item => some (.mapWhile none fun _ b => isWordByte b)
  | .numberDone _ => some (.map d.idx none)
  | .number _ => some (.mapWhile none fun _ b => isDigit b)
  | .string _ => some (.mapWhile none fun _ b => isPlain b)
  | .stringEscape => (strictAdd d.idx 1).map fun n => .map n none
  | .stringEscapeUnicode s => (strictAdd s 4).map fun max => .mapWhile (some max) fun _ b => isHex b
  | .stringEscapeUnicodeTrail s _ =>
    if s ≤ d.idx then (strictAdd s 6).map fun max => .mapWhile (some max) fun i b => isTrailByte (i - s) b else none

/-- `advance_none`, token.rs 364-416. -/
def advanceNone (d : Dec) (map : List UInt8) : Option (Dec × Option Token) :=
  match map[0]? with
  | none => none
  | some b =>
    if isSpace b then some ({ d with state := .whitespace, idx := 1 }, none)
    else if b = 0x3a then some ({ d with done := some 1 }, some .colon)
    else if b = 0x2c then some ({ d with done := some 1 }, some .comma)
    else if b = 0x5b then some ({ d with done := some 1 }, some .arrayOpen)
    else if b = 0x5d then some ({ d with done := some 1 }, some .arrayClose)
    else if b = 0x7b then some ({ d with done := some 1 }, some .objectOpen)
    else if b = 0x7d then some ({ d with done := some 1 }, some .objectClose)
    else if b = 0x22 then some ({ d with state := .string 0, idx := 1 }, none)
    else if b = 0x2b then
      some ({ d with state := .number ⟨.plus, ⟨1, 1⟩, ⟨0, 0⟩, .plus, ⟨0, 0⟩⟩, idx := 1 }, some (.error .numberLeadingPlus))
    else if b = 0x2d then some ({ d with state := .number ⟨.minus, ⟨1, 1⟩, ⟨0, 0⟩, .plus, ⟨0, 0⟩⟩, idx := 1 }, none)
    else if isDigit b then some ({ d with state := .number ⟨.plus, ⟨0, 1⟩, ⟨0, 0⟩, .plus, ⟨0, 0⟩⟩, idx := 1 }, none)
    else some ({ d with state := .item, idx := 1 }, none)

/-- `advance_whitespace`, token.rs 424-425. -/
def advanceWhitespace (d : Dec) (map : List UInt8) : Option (Dec × Option Token) := do
  let raw ← upTo map d.idx
  let t ← raiseWhitespace raw
  some ({ d with done := some d.idx }, some t)

/-- `advance_item`, token.rs 438-439. -/
def advanceItem (d : Dec) (map : List UInt8) : Option (Dec × Option Token) := do
  let raw ← upTo map d.idx
  some ({ d with done := some d.idx }, some (raiseItem raw))

/-- `advance_number` if the number is done already, token.rs 451-454. -/
def advanceNumberDone (d : Dec) (n : Num) (map : List UInt8) : Option (Dec × Option Token) := do
  let raw ← upTo map d.idx
  let t ← raiseNumber raw n
  some ({ d with done := some d.idx }, some t)

/-- token.rs 472-481: the range of the part that the number is in. -/
def Num.grow (n : Num) (idx : Nat) : Num × Range :=
  if n.exponent.start ≠ 0 then ({ n with exponent := ⟨n.exponent.start, idx⟩ }, ⟨n.exponent.start, idx⟩)
  else if n.fraction.start ≠ 0 then ({ n with fraction := ⟨n.fraction.start, idx⟩ }, ⟨n.fraction.start, idx⟩)
  else ({ n with integer := ⟨n.integer.start, idx⟩ }, ⟨n.integer.start, idx⟩)

/-- token.rs 515, 525, 537 and 542. -/
def finishNumber (d : Dec) (map : List UInt8) : Option (Dec × Option Token) := (upTo map d.idx).bind (numberDone d)

/-- A sign within a number, token.rs 484-517. -/
def numberSign (d : Dec) (n : Num) (range : Range) (b : UInt8) (map : List UInt8) : Option (Dec × Option Token) :=
  let sign : Sign := if b = 0x2b then .plus else .minus
  if range = n.integer ∧ n.integer.start ≥ n.integer.stop then
    (strictAdd d.idx 1).map fun idx =>
      ({ d with idx := idx, state := .number { n with sign := sign, integer := ⟨idx, idx⟩ } },
        if idx ≤ 2 then some (.error .numberMultipleSigns) else none)
  else if range = n.exponent ∧ n.exponent.start ≥ n.exponent.stop then do
    let idx ← strictAdd d.idx 1
    let f ← strictAdd n.fraction.stop 2
    let i ← strictAdd n.integer.stop 2
    some ({ d with idx := idx, state := .number { n with exponentSign := sign, exponent := ⟨idx, idx⟩ } },
      if idx ≠ f ∧ idx ≠ i then some (.error .numberMultipleSigns) else none)
  else finishNumber d map

/-- A point within a number, token.rs 519-527. -/
def numberPoint (d : Dec) (n : Num) (range : Range) (map : List UInt8) : Option (Dec × Option Token) :=
  if range = n.integer then
    (strictAdd d.idx 1).map fun idx => ({ d with idx := idx, state := .number { n with fraction := ⟨idx, idx⟩ } }, none)
  else finishNumber d map

/-- The letter of an exponent, token.rs 529-539. -/
def numberExponent (d : Dec) (n : Num) (range : Range) (map : List UInt8) : Option (Dec × Option Token) :=
  if range ≠ n.exponent then
    (strictAdd d.idx 1).map fun idx => ({ d with idx := idx, state := .number { n with exponent := ⟨idx, idx⟩ } }, none)
  else finishNumber d map

/-- `advance_number`, token.rs 472-548. -/
def advanceNumber (d : Dec) (n : Num) (map : List UInt8) : Option (Dec × Option Token) :=
  let (n, range) := n.grow d.idx
  let d := { d with state := .number n }
  match map[d.idx]? with
  | none => none
  | some b =>
    if b = 0x2b ∨ b = 0x2d then numberSign d n range b map
    else if b = 0x2e then numberPoint d n range map
    else if b = 0x65 ∨ b = 0x45 then numberExponent d n range map
    else finishNumber d map

/-- `advance_string` outside of escapes, token.rs 559-580. -/
def advanceString (d : Dec) (s : Nat) (map : List UInt8) : Option (Dec × Option Token) :=
  match map[d.idx]? with
  | none => none
  | some b =>
    if b = 0x22 then do
      let idx ← strictAdd d.idx 1
      let part ← between map s idx
      let d := stringRaw { d with idx := idx } part
      let raw ← upTo map idx
      let t ← raiseString { d with done := some idx } raw
      some ({ d with done := some idx }, some t)
    else if b = 0x5c then do
      let part ← between map s d.idx
      let d := stringRaw d part
      let idx ← strictAdd d.idx 1
      some ({ d with idx := idx, state := .stringEscape }, none)
    else if isControl b then do
      let idx ← strictAdd d.idx 1
      let part ← between map s idx
      some (stringRaw { d with idx := idx } part, some (.error (.stringUnescaped b)))
    else none

/-- The bytes of escape sequences of one byte, token.rs 590-598. -/
def escapeByte (b : UInt8) : Option UInt8 :=
  if b = 0x22 ∨ b = 0x5c ∨ b = 0x2f then some b
  else if b = 0x62 then some 0x08
  else if b = 0x66 then some 0x0c
  else if b = 0x6e then some 0x0a
  else if b = 0x72 then some 0x0d
  else if b = 0x74 then some 0x09
  else none

/-- `advance_string` after a backslash, token.rs 584-616. -/
def advanceEscape (d : Dec) (map : List UInt8) : Option (Dec × Option Token) := do
  let idx ← strictAdd d.idx 1
  let esc ← map[d.idx]?
  let d := { d with idx := idx }
  match escapeByte esc with
  | some v => do
    let n ← strictSub idx 2
    let raw ← upTo map n
    some ({ stringByte d raw v with state := .string idx }, none)
  | none =>
    if esc = 0x75 then some ({ d with state := .stringEscapeUnicode idx }, none)
    else do
      let n ← strictSub idx 2
      let raw ← upTo map n
      some ({ stringByte d raw esc with state := .string idx }, some (.error (.stringEscapeUnknown esc)))

/-- `string_char(&map[..idx.strict_sub(back)], c)`. -/
def pushChar (d : Dec) (map : List UInt8) (idx back : Nat) (c : Char) : Option Dec := do
  let n ← strictSub idx back
  let raw ← upTo map n
  some (stringChar d raw c)

/-- `advance_string` within a Unicode escape, token.rs 628-667. -/
def advanceUnicode (d : Dec) (s : Nat) (map : List UInt8) : Option (Dec × Option Token) := do
  let max ← strictAdd s 4
  if d.idx ≠ max then do
    let d ← pushChar { d with state := .string d.idx } map s 2 replacement
    some (d, some (.error .stringEscapeInvalid))
  else do
    let code ← unicodeFromHex map s
    if 0xd800 ≤ code ∧ code ≤ 0xdbff then
      some ({ d with state := .stringEscapeUnicodeTrail d.idx code }, none)
    else if 0xdc00 ≤ code ∧ code ≤ 0xdfff then do
      let d ← pushChar d map d.idx 6 replacement
      some ({ d with state := .string d.idx }, some (.error (.stringEscapeUnpairedTrailSurrogate code)))
    else do
      let c ← charFromU32 code
      let d ← pushChar d map d.idx 6 c
      some ({ d with state := .string d.idx }, none)

/-- `advance_string` after a lead surrogate, token.rs 685-743. -/
def advanceTrail (d : Dec) (s lead : Nat) (map : List UInt8) : Option (Dec × Option Token) := do
  let max ← strictAdd s 6
  if d.idx ≠ max then do
    let d ← pushChar { d with state := .string s, idx := s } map s 6 replacement
    some (d, some (.error (.stringEscapeUnpairedLeadSurrogate lead)))
  else do
    let code ← unicodeFromHex map (s + 2)
    if 0xd800 ≤ code ∧ code ≤ 0xdbff then do
      let d ← pushChar d map d.idx 12 replacement
      some ({ d with state := .stringEscapeUnicodeTrail d.idx code }, some (.error (.stringEscapeUnpairedLeadSurrogate lead)))
    else if 0xdc00 ≤ code ∧ code ≤ 0xdfff then do
      let off ← strictSub lead 0xd800
      let c ← charFromU32 (0x10000 + off * 0x400 + (code - 0xdc00))
      let d ← pushChar d map d.idx 12 c
      some ({ d with state := .string d.idx }, none)
    else do
      let d ← pushChar d map d.idx 12 replacement
      let c ← charFromU32 code
      let d ← pushChar d map d.idx 6 c
      some ({ d with state := .string d.idx }, some (.error (.stringEscapeUnpairedLeadSurrogate lead)))

/-- The functions `advance_*`, once the stream is mapped. -/
def handle (d : Dec) (map : List UInt8) : Option (Dec × Option Token) :=
  match d.state with
  | .none => advanceNone d map
  | .whitespace => advanceWhitespace d map
  | .item => advanceItem d map
  | .numberDone n => advanceNumberDone d n map
  | .number n => advanceNumber d n map
  | .string s => advanceString d s map
  | .stringEscape => advanceEscape d map
  | .stringEscapeUnicode s => advanceUnicode d s map
  | .stringEscapeUnicodeTrail s lead => advanceTrail d s lead map

variable {σ : Type}

/-- `clear_done`, token.rs 752-759. -/
def clearDone (R : Reader σ) (st : σ) (d : Dec) : Option (σ × Dec) :=
  match d.done with
  | none => some (st, d)
  | some len => (R.advance st len).map fun st => (st, { d with done := none, state := .none, accStr := [] })

/-- What a function `advance_*` comes back with. -/
def finish (d : Dec) (r : Option (Dec × Option Token)) : Dec × SFlow (Option Token) :=
  match r with
  | none => (d, .fault)
  | some (d, t) => (d, .cont t)

/-- `advance_inner` after `clear_done`, token.rs 797-809. The index is advanced by `map_while` even if there is not enough data. -/
def advanceState (R : Reader σ) (st : σ) (d : Dec) : Dec × SFlow (Option Token) :=
  match request d with
  | none => (d, .fault)
  | some (.map min max) =>
    match R.map st min max with
    | .fault => (d, .fault)
    | .brk e => (d, .brk e)
    | .cont map => finish d (handle d map)
  | some (.mapWhile max p) =>
    let r := Io.readMapWhile R.toStreamImpl st d.idx max (fun (_ : Unit) i b => ((), p i b)) () usizeMax
    let d := { d with idx := r.n }
    match r.flow with
    | .fault => (d, .fault)
    | .brk e => (d, .brk e)
    | .cont map => finish d (handle d map)

/-- `advance_inner`, token.rs 794-810. -/
def advanceInner (R : Reader σ) (st : σ) (d : Dec) : σ × Dec × SFlow (Option Token) :=
  match clearDone R st d with
  | none => (st, d, .fault)
  | some (st, d) => (st, advanceState R st d)

/-- `advance`, token.rs 812-835, and `pop`, token.rs 845-847. The rounds of the loop are bounded by
`fuel`; that it is enough is proved. -/
def advance (R : Reader σ) : Nat → σ → Dec → σ × Dec × SFlow Token
  | 0, st, d => (st, d, .fault)
  | fuel + 1, st, d =>
    match advanceInner R st d with
    | (st, d, .fault) => (st, d, .fault)
    | (st, d, .brk e) => (st, d, .brk e)
    | (st, d, .cont none) => advance R fuel st d
    | (st, d, .cont (some t)) => (st, d, .cont t)

def pop (R : Reader σ) (st : σ) (d : Dec) : σ × Dec × SFlow Token := advance R (4 * usizeMax) st d

/-- `complete_inner` with data, token.rs 776-788. -/
def completeState (d : Dec) (map : List UInt8) : Option (Dec × Option Token) :=
  match d.state with
  | .none => some (d, none)
  | .whitespace => (raiseWhitespace map).map fun t => (d, some t)
  | .item => some (d, some (raiseItem map))
  | .number _ | .numberDone _ => numberDone d map
  | .string _ | .stringEscape | .stringEscapeUnicode _ | .stringEscapeUnicodeTrail _ _ => some (d, some (.error .stringIncomplete))

/-- `complete`, token.rs 761-792 and 857-859; `none` for a panic. -/
def complete (R : Reader σ) (st : σ) (d : Dec) : Option (σ × Dec × Option Token) :=
  match clearDone R st d with
  | none => none
  | some (st, d) =>
    if d.state = .none then
      match R.map st 1 none with
      | .fault => none
      | .brk _ => some (st, d, none)
      | .cont _ => some (st, d, some (.error .bufferRemaining))
    else
      match R.map st d.idx none with
      | .fault => none
      | .brk _ => some (st, { d with done := some d.idx }, some (.error .bufferChanged))
      | .cont map => (completeState d map).map fun (d, t) => (st, d, t)

/-- `Read for &[u8]`, stream.rs 237-250. -/
def slice : Reader (List UInt8) := { Io.sliceStream with advance := Io.sliceAdvance }

/-- Tokens until the tokenizer needs more data; used for tests. -/
def popAll : Nat → List UInt8 → Dec → List Token × List UInt8 × Dec
  | 0, buf, d => ([], buf, d)
  | n + 1, buf, d =>
    match pop slice buf d with
    | (buf, d, .cont t) => let r := popAll n buf d; (t :: r.1, r.2)
    | (buf, d, _) => ([], buf, d)

def completeAll : Nat → List UInt8 → Dec → List (Option Token)
  | 0, _, _ => []
  | n + 1, buf, d =>
    match complete slice buf d with
    | some (_, _, none) => []
    | some (buf, d, some t) => some t :: completeAll n buf d
    | none => [none]

def run (s : String) : List Token × List (Option Token) :=
  let r := popAll 100 s.toUTF8.toList .new
  (r.1, completeAll 3 r.2.1 r.2.2)

/-! token.rs 866-1300 has these among its tests. -/
#guard (run " [ \"foobar\", null ]").1 == [.whitespace [32], .arrayOpen, .whitespace [32],
  .string "\"foobar\"".toUTF8.toList "foobar".toUTF8.toList, .comma, .whitespace [32], .null, .whitespace [32], .arrayClose]
#guard (run " [ \"foobar\", null ]").2 == []
#guard (run "\"a\\u0062\\ud834\\udd1e\\n\" ").1 == [.string "\"a\\u0062\\ud834\\udd1e\\n\"".toUTF8.toList "ab𝄞\n".toUTF8.toList]
#guard (run "-12.5e+3 ").1 == [.number ⟨"-12.5e+3".toUTF8.toList, .minus, "12".toUTF8.toList, some "5".toUTF8.toList, some (.plus, "3".toUTF8.toList)⟩]
#guard (run "--1e+-+ ").1 == [.error .numberMultipleSigns, .error .numberMultipleSigns, .error .numberMultipleSigns, .error .numberRangeEmpty,
  .number ⟨"--1e+-+".toUTF8.toList, .minus, [0x31], none, some (.plus, [])⟩]
#guard (run "5").2 == [some (.number ⟨[0x35], .plus, [0x35], none, none⟩)]
#guard (run "12").2 == [some (.number ⟨[0x31, 0x32], .plus, [0x31], none, none⟩)]
#guard (run "-5").2 == [some (.error .numberRangeEmpty), none]
#guard (run "abc").2 == [some (.error (.itemUnknown [0x61, 0x62, 0x63])), some (.error (.itemUnknown [0x61, 0x62, 0x63])), some (.error (.itemUnknown [0x61, 0x62, 0x63]))]
#guard (run "\"\\nab\x01c\"").1 == [.error (.stringUnescaped 1), .string "\"\\nab\x01c\"".toUTF8.toList "\nab\x01ab\x01c".toUTF8.toList]
#guard (run "\"\x1f\"").1 == [.string "\"\x1f\"".toUTF8.toList "\x1f".toUTF8.toList]
#guard (run "\"\\ud800\\ud801\\udc00\\ud800\\u0041\\ud800x\"").1 == [.error (.stringEscapeUnpairedLeadSurrogate 0xd800),
  .error (.stringEscapeUnpairedLeadSurrogate 0xd800), .error (.stringEscapeUnpairedLeadSurrogate 0xd800),
  .string "\"\\ud800\\ud801\\udc00\\ud800\\u0041\\ud800x\"".toUTF8.toList "\uFFFD𐐀\uFFFDA\uFFFDx".toUTF8.toList]

end Verif.Json.Bytes
