import Verif.Json.ModelToken
/-! # Specification of the JSON tokenizer

The reports for a text, by cutting it into lexemes. Only the characters, the tokens and the errors are those of the
model. -/
namespace Verif.Json

/-- The text ends, or goes on with a character which is not in the class. -/
def Ends (p : Char → Bool) (l : List Char) : Prop := ∀ c l', l = c :: l' → p c = false

/-! ## Words, white space and comments -/

/-- Tokens of one character. -/
def punct : Char → Option Token
  | ':' => some .colon
  | ',' => some .comma
  | '[' => some .arrayOpen
  | ']' => some .arrayClose
  | '{' => some .objectOpen
  | '}' => some .objectClose
  | _ => none

/-- Characters which are not part of words: white space, and those that start other tokens or comments. -/
def isBreak (c : Char) : Bool := (punct c).isSome || c = '-' || c = '"' || c = '#' || c = '/' || c = '+' || c = '=' || isWhitespace c

/-- Words are keywords, or errors. -/
def word (w : List Char) : Ev :=
  if w = "null".toList then .tok .null
  else if w = "false".toList then .tok .false
  else if w = "true".toList then .tok .true
  else .err (.keywordUnknown w)

/-- White space which JSON does not allow. -/
def strays (w : List Char) : List Ev := (w.filter fun c => !isSpace c).map fun c => .err (.characterStray c)

/-! ## Numbers -/

/-- The value of a digit. -/
def digitVal (c : Char) : UInt8 := UInt8.ofNat (c.toNat - '0'.toNat)

/-- A run of digits, and their values. -/
def Digits (ds : List Char) : Prop := ∀ c ∈ ds, isDigit c = true

/-- The sign of a number. -/
inductive SignText (plus : Bool) : Sign → List Char → Prop
  | none : SignText plus .plus []
  | minus : SignText plus .minus ['-']
  | plus : plus = true → SignText plus .plus ['+']

/-- The fraction of a number: none, or a point and digits. -/
inductive FracText : List Char → List Char → Prop
  | none : FracText [] []
  | some (ds) : Digits ds → ds ≠ [] → FracText ('.' :: ds) ds

/-- The letter of the exponent. -/
def isE (c : Char) : Bool := c = 'e' || c = 'E'

/-- The sign of the exponent. -/
inductive ExpSign : Sign → List Char → Prop
  | none : ExpSign .plus []
  | minus : ExpSign .minus ['-']
  | plus : ExpSign .plus ['+']

/-- Leading zeros are an error at the second digit, unless they are allowed. -/
def leadingZero (zero : Bool) : List Char → List Err
  | '0' :: d :: _ => if zero then [] else [.characterStray d]
  | _ => []

/-- A number: its token, the errors, and the characters which would make it longer. -/
inductive Numeral (plus zero : Bool) : List Char → Token → List Err → (Char → Bool) → Prop
  /-- A sign only. -/
  | sign (s sg) : SignText plus s sg → sg ≠ [] →
      Numeral plus zero sg (.number sg [] [] [] s .plus) [.numberIncomplete] isDigit
  /-- An integer. -/
  | integer (s sg ds) : SignText plus s sg → Digits ds → ds ≠ [] →
      Numeral plus zero (sg ++ ds) (.number (sg ++ ds) (ds.map digitVal) [] [] s .plus) (leadingZero zero ds)
        (fun c => isDigit c || c = '.' || isE c)
  /-- No digit after the point. -/
  | point (s sg ds) : SignText plus s sg → Digits ds → ds ≠ [] →
      Numeral plus zero (sg ++ ds ++ ['.']) (.number (sg ++ ds ++ ['.']) (ds.map digitVal) [] [] s .plus)
        (leadingZero zero ds ++ [.numberIncomplete]) isDigit
  /-- A fraction. -/
  | fraction (s sg ds fs) : SignText plus s sg → Digits ds → ds ≠ [] → Digits fs → fs ≠ [] →
      Numeral plus zero (sg ++ ds ++ '.' :: fs) (.number (sg ++ ds ++ '.' :: fs) (ds.map digitVal) (fs.map digitVal) [] s .plus)
        (leadingZero zero ds) (fun c => isDigit c || isE c)
  /-- Nothing after the letter of the exponent. -/
  | exponent (s sg ds ft fs e) : SignText plus s sg → Digits ds → ds ≠ [] → FracText ft fs → isE e = true →
      Numeral plus zero (sg ++ ds ++ ft ++ [e])
        (.number (sg ++ ds ++ ft ++ [e]) (ds.map digitVal) (fs.map digitVal) [] s .plus)
        (leadingZero zero ds ++ [.numberIncomplete]) (fun c => isDigit c || c = '+' || c = '-')
  /-- Nothing after the sign of the exponent. -/
  | exponentSign (s sg ds ft fs e es et) : SignText plus s sg → Digits ds → ds ≠ [] → FracText ft fs → isE e = true →
      ExpSign es et → et ≠ [] →
      Numeral plus zero (sg ++ ds ++ ft ++ e :: et)
        (.number (sg ++ ds ++ ft ++ e :: et) (ds.map digitVal) (fs.map digitVal) [] s es)
        (leadingZero zero ds ++ [.numberIncomplete]) isDigit
  /-- An exponent. -/
  | full (s sg ds ft fs e es et xs) : SignText plus s sg → Digits ds → ds ≠ [] → FracText ft fs → isE e = true →
      ExpSign es et → Digits xs → xs ≠ [] →
      Numeral plus zero (sg ++ ds ++ ft ++ e :: et ++ xs)
        (.number (sg ++ ds ++ ft ++ e :: et ++ xs) (ds.map digitVal) (fs.map digitVal) (xs.map digitVal) s es)
        (leadingZero zero ds) isDigit

/-! ## Strings -/

/-- Escape sequences of one character. -/
def escape : Char → Option Char
  | '"' => some '"'
  | '\\' => some '\\'
  | '/' => some '/'
  | 'b' => some '\x08'
  | 'f' => some '\x0c'
  | 'n' => some '\n'
  | 'r' => some '\r'
  | 't' => some '\t'
  | _ => none

/-- The value of a hexadecimal digit. -/
def hexDigit (c : Char) : Nat :=
  if c.toNat ≤ '9'.toNat then c.toNat - '0'.toNat
  else if c.toNat ≤ 'F'.toNat then c.toNat - 'A'.toNat + 10
  else c.toNat - 'a'.toNat + 10

/-- The value of hexadecimal digits. -/
def hexVal (h : List Char) : Nat := h.foldl (fun n c => 16 * n + hexDigit c) 0

/-- Hexadecimal digits. -/
def Hexs (n : Nat) (h : List Char) : Prop := h.length = n ∧ ∀ c ∈ h, isHex c = true

/-- The surrogates. -/
def isLead (n : Nat) : Prop := 0xd800 ≤ n ∧ n ≤ 0xdbff
def isTrail (n : Nat) : Prop := 0xdc00 ≤ n ∧ n ≤ 0xdfff

/-- `Item raw next chars errs`: a part of a string, which is followed by `next`; the characters it stands for, and the
errors. -/
inductive Item : List Char → List Char → List Char → List Err → Prop
  | plain (c next) : 0x20 ≤ c.toNat → c ≠ '"' → c ≠ '\\' → Item [c] next [c] []
  | control (c next) : c.toNat < 0x20 → Item [c] next [c] [.stringCharacterInvalid c]
  | escape (c d next) : escape c = some d → Item ['\\', c] next [d] []
  | badEscape (c next) : escape c = none → c ≠ 'u' → Item ['\\', c] next [c] [.stringEscapeInvalid c]
  | unicode (h c next) : Hexs 4 h → c.toNat = hexVal h → Item ('\\' :: 'u' :: h) next [c] []
  | pair (h k c next) : Hexs 4 h → Hexs 4 k → isLead (hexVal h) → isTrail (hexVal k) →
      c.toNat = 0x10000 + (hexVal h - 0xd800) * 0x400 + (hexVal k - 0xdc00) →
      Item ('\\' :: 'u' :: h ++ '\\' :: 'u' :: k) next [c] []
  /-- Escapes with less than four digits. -/
  | short (n h next) : n < 4 → Hexs n h → next ≠ [] → Ends isHex next →
      Item ('\\' :: 'u' :: h) next [] [.stringEscapeIncomplete]
  | trail (h next) : Hexs 4 h → isTrail (hexVal h) → Item ('\\' :: 'u' :: h) next [] [.stringSurrogateUnpaired]
  /-- Lead surrogates must be followed by an escaped trail surrogate. -/
  | lead (h next) : Hexs 4 h → isLead (hexVal h) → next ≠ [] → Ends (· = '\\') next →
      Item ('\\' :: 'u' :: h) next [] [.stringSurrogateUnpaired]
  | leadEscape (h c d next) : Hexs 4 h → isLead (hexVal h) → Verif.Json.escape c = some d →
      Item ('\\' :: 'u' :: h ++ ['\\', c]) next [d] [.stringSurrogateUnpaired]
  | leadBadEscape (h c next) : Hexs 4 h → isLead (hexVal h) → Verif.Json.escape c = none → c ≠ 'u' →
      Item ('\\' :: 'u' :: h ++ ['\\', c]) next [c] [.stringSurrogateUnpaired, .stringEscapeInvalid c]
  | leadShort (n h k next) : Hexs 4 h → isLead (hexVal h) → n < 4 → Hexs n k → next ≠ [] → Ends isHex next →
      Item ('\\' :: 'u' :: h ++ '\\' :: 'u' :: k) next [] [.stringEscapeIncomplete]
  | leadOther (h k next) : Hexs 4 h → isLead (hexVal h) → Hexs 4 k → ¬ isTrail (hexVal k) →
      Item ('\\' :: 'u' :: h ++ '\\' :: 'u' :: k) next [] [.stringSurrogateUnpaired]

/-- `Body text raw chars errs rest`: a text begins with parts of a string and a quote. -/
inductive Body : List Char → List Char → List Char → List Err → List Char → Prop
  | close (rest) : Body ('"' :: rest) [] [] [] rest
  | item (raw text chars errs raws charss errss rest) : Item raw text chars errs → Body text raws charss errss rest →
      Body (raw ++ text) (raw ++ raws) (chars ++ charss) (errs ++ errss) rest

/-- The text ends within an escape sequence. -/
inductive Unfinished : List Char → Prop
  | escape : Unfinished ['\\']
  | unicode (n h) : n < 4 → Hexs n h → Unfinished ('\\' :: 'u' :: h)
  | lead (h) : Hexs 4 h → isLead (hexVal h) → Unfinished ('\\' :: 'u' :: h)
  | leadEscape (h) : Hexs 4 h → isLead (hexVal h) → Unfinished ('\\' :: 'u' :: h ++ ['\\'])
  | leadUnicode (n h k) : Hexs 4 h → isLead (hexVal h) → n < 4 → Hexs n k →
      Unfinished ('\\' :: 'u' :: h ++ '\\' :: 'u' :: k)

/-- A text consists of parts of a string, without a quote. -/
inductive Cut : List Char → List Err → Prop
  | nil : Cut [] []
  | unfinished (text) : Unfinished text → Cut text []
  | item (raw text chars errs errss) : Item raw text chars errs → Cut text errss → Cut (raw ++ text) (errs ++ errss)

/-! ## Texts -/

/-- `Lex plus zero text evs`: the reports for a text. -/
inductive Lex (plus zero : Bool) : List Char → List Ev → Prop
  | nil : Lex plus zero [] []
  | punct (c t l evs) : punct c = some t → Lex plus zero l evs → Lex plus zero (c :: l) (.tok t :: evs)
  /-- An equals sign is treated as a colon. -/
  | equals (l evs) : Lex plus zero l evs → Lex plus zero ('=' :: l) (.err (.characterStray '=') :: .tok .colon :: evs)
  | stray (l evs) : plus = false → Lex plus zero l evs → Lex plus zero ('+' :: l) (.err (.characterStray '+') :: evs)
  | space (w l evs) : w ≠ [] → (∀ c ∈ w, isWhitespace c = true) → Ends isWhitespace l → Lex plus zero l evs →
      Lex plus zero (w ++ l) (strays w ++ .tok (.whitespace (w.filter isSpace)) :: evs)
  | word (c w l evs) : isDigit c = false → (∀ d ∈ c :: w, isBreak d = false) → Ends (! isBreak ·) l → Lex plus zero l evs →
      Lex plus zero (c :: w ++ l) (word (c :: w) :: evs)
  /-- A slash without a second one starts a word. -/
  | slash (w l evs) : (∀ d ∈ w, isBreak d = false) → Ends (! isBreak ·) l → (w = [] → Ends (· = '/') l) → Lex plus zero l evs →
      Lex plus zero ('/' :: w ++ l) (.err (.keywordUnknown ('/' :: w)) :: evs)
  | hash (w l evs) : '\n' ∉ w → Ends (· ≠ '\n') l → Lex plus zero l evs →
      Lex plus zero ('#' :: w ++ l) (.err (.comment w) :: evs)
  | slashes (w l evs) : '\n' ∉ w → Ends (· ≠ '\n') l → Lex plus zero l evs →
      Lex plus zero ('/' :: '/' :: w ++ l) (.err (.comment ('/' :: '/' :: w)) :: evs)
  | number (raw t errs more l evs) : Numeral plus zero raw t errs more → Ends more l → Lex plus zero l evs →
      Lex plus zero (raw ++ l) (errs.map .err ++ .tok t :: evs)
  | string (text raw chars errs l evs) : Body text raw chars errs l → Lex plus zero l evs →
      Lex plus zero ('"' :: text) (errs.map .err ++ .tok (.string raw chars) :: evs)
  | cut (text errs) : Cut text errs → Lex plus zero ('"' :: text) (errs.map .err ++ [.err .stringIncomplete])

/-! ## Results -/

/-- Whether plus signs, and leading zeros, are allowed by flags. -/
def allowsPlus (fl : BitVec 32) : Bool := fl.getLsbD 1
def allowsZero (fl : BitVec 32) : Bool := fl.getLsbD 0

variable {ρ R : Type}

/-- The result of a parse, from the reports. -/
def outcome (H : Report ρ R) (fl : BitVec 32) (s : ρ) (evs : List Ev) : Tokenizer × ρ × Flow R Status :=
  (.withFlags fl, (H.all s evs).1, match (H.all s evs).2 with
    | some r => .brk r
    | none => .cont .done)

/-- A caller that pushes a text in pieces, and stops if the handler asks for it. -/
def pushAll (H : Report ρ R) (t : Tokenizer) (s : ρ) : List (List Char) → Tokenizer × ρ × Flow R Status
  | [] => (t, s, .cont t.status)
  | p :: ps =>
    match t.pushStr H s p with
    | (t, s, .cont _) => pushAll H t s ps
    | x => x

/-- A caller that pushes the end of the text. -/
def pushEnd (H : Report ρ R) (t : Tokenizer) (s : ρ) : Tokenizer × ρ × Flow R Status :=
  match t.push H s none with
  | (t, s, .cont _) => (t, s, .cont .done)
  | x => x

/-- The tokenizers which a caller can get, from characters and ends of texts in any order, with any handlers. -/
inductive Reachable (fl : BitVec 32) : Tokenizer → Prop
  | new : Reachable fl (.withFlags fl)
  | push {ρ R : Type} (H : Report ρ R) (t : Tokenizer) (s : ρ) (ch : Option Char) : Reachable fl t → Reachable fl (t.push H s ch).1
  | reset (t : Tokenizer) : Reachable fl t → Reachable fl t.prepare

/-! ## Tokens as they are written -/

/-- The text of a token. -/
def source : Token → List Char
  | .colon => [':']
  | .comma => [',']
  | .arrayOpen => ['[']
  | .arrayClose => [']']
  | .objectOpen => ['{']
  | .objectClose => ['}']
  | .null => "null".toList
  | .true => "true".toList
  | .false => "false".toList
  | .whitespace w => w
  | .number raw .. => raw
  | .string raw _ => '"' :: raw ++ ['"']

/-- The integer part of a number: zero, or digits which do not start with zero; or any digits if leading zeros are allowed. -/
inductive IntText (zero : Bool) : List Char → Prop
  | zero : IntText zero ['0']
  | digits (c ds) : c ≠ '0' → Digits (c :: ds) → IntText zero (c :: ds)
  | leading (ds) : zero = true → Digits ds → ds ≠ [] → IntText zero ds

/-- The exponent of a number. -/
inductive ExpText : Sign → List Char → List Char → Prop
  | none : ExpText .plus [] []
  | some (c e et xs) : isE c = true → ExpSign e et → Digits xs → xs ≠ [] → ExpText e (c :: et ++ xs) xs

/-- JSON numbers, their digits and their signs. -/
def JsonNumber (plus zero : Bool) (text : List Char) (int frac exp : List UInt8) (s e : Sign) : Prop :=
  ∃ sg ds ft fs xt xs, text = sg ++ ds ++ ft ++ xt ∧ SignText plus s sg ∧ IntText zero ds ∧ FracText ft fs ∧ ExpText e xt xs
    ∧ int = ds.map digitVal ∧ frac = fs.map digitVal ∧ exp = xs.map digitVal

/-- The ways to write a character within a JSON string. -/
inductive CharText (c : Char) : List Char → Prop
  | plain : 0x20 ≤ c.toNat → c ≠ '"' → c ≠ '\\' → CharText c [c]
  | escape (x) : escape x = some c → CharText c ['\\', x]
  | unicode (h) : Hexs 4 h → hexVal h = c.toNat → CharText c ('\\' :: 'u' :: h)
  | pair (h k) : Hexs 4 h → Hexs 4 k → isLead (hexVal h) → isTrail (hexVal k) →
      c.toNat = 0x10000 + (hexVal h - 0xd800) * 0x400 + (hexVal k - 0xdc00) → CharText c ('\\' :: 'u' :: h ++ '\\' :: 'u' :: k)

/-- The ways to write a string. -/
inductive StringText : List Char → List Char → Prop
  | nil : StringText [] []
  | cons (c s raw raws) : CharText c raw → StringText s raws → StringText (c :: s) (raw ++ raws)

/-- The ways to write a token. -/
def Written (plus zero : Bool) : Token → Prop
  | .whitespace w => w ≠ [] ∧ ∀ c ∈ w, isSpace c = true
  | .number raw int frac exp s e => JsonNumber plus zero raw int frac exp s e
  | .string raw s => StringText s raw
  | _ => True

/-- Numbers and keywords. -/
def isWordy : Token → Bool
  | .null | .true | .false | .number .. => true
  | _ => false

/-- White space. -/
def isBlank : Token → Bool
  | .whitespace _ => true
  | _ => false

/-- Numbers and keywords must be separated, and white space is one token. -/
def Separate : List Token → Prop
  | a :: b :: l => ¬ (isWordy a = true ∧ isWordy b = true) ∧ ¬ (isBlank a = true ∧ isBlank b = true) ∧ Separate (b :: l)
  | _ => True

end Verif.Json
