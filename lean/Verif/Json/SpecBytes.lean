import Verif.Json.ModelBytes
/-! # Specification of the streaming JSON tokenizer

A text is a sequence of bytes. It is cut into lexemes, followed by a tail that may go on once there is more text. This says which
tokens the lexemes and the tail stand for. Of the model only the types of tokens are used. -/
namespace Verif.Json.Bytes

/-! ## Bytes -/

def Space (b : UInt8) : Prop := b = 0x20 ∨ b = 0x0a ∨ b = 0x0d ∨ b = 0x09
def Digit (b : UInt8) : Prop := 0x30 ≤ b ∧ b ≤ 0x39
def Plus (b : UInt8) : Prop := b = 0x2b
def Minus (b : UInt8) : Prop := b = 0x2d
def SignByte (b : UInt8) : Prop := Plus b ∨ Minus b
def Point (b : UInt8) : Prop := b = 0x2e
def Exp (b : UInt8) : Prop := b = 0x65 ∨ b = 0x45
def Letter (b : UInt8) : Prop := (0x61 ≤ b ∧ b ≤ 0x7a) ∨ (0x41 ≤ b ∧ b ≤ 0x5a)
def Hex (b : UInt8) : Prop := Digit b ∨ (0x61 ≤ b ∧ b ≤ 0x66) ∨ (0x41 ≤ b ∧ b ≤ 0x46)

/-- The tokens of a single byte. -/
def mark : UInt8 → Option Token
  | 0x3a => some .colon
  | 0x2c => some .comma
  | 0x5b => some .arrayOpen
  | 0x5d => some .arrayClose
  | 0x7b => some .objectOpen
  | 0x7d => some .objectClose
  | _ => none

/-- Whatever starts nothing else starts a word. -/
def StartsWord (b : UInt8) : Prop := ¬ Space b ∧ mark b = none ∧ b ≠ 0x22 ∧ ¬ SignByte b ∧ ¬ Digit b

def InWord (b : UInt8) : Prop := SignByte b ∨ Point b ∨ Digit b ∨ Letter b

/-! ## Strings -/

/-- Four hexadecimal digits. -/
def Hex4 (h : List UInt8) : Prop := h.length = 4 ∧ ∀ b ∈ h, Hex b

def hexValue (b : UInt8) : Nat := if b ≤ 0x39 then b.toNat - 0x30 else if b ≤ 0x46 then b.toNat - 0x37 else b.toNat - 0x57

def value (h : List UInt8) : Nat := h.foldl (fun n b => 16 * n + hexValue b) 0

def Lead (h : List UInt8) : Prop := Hex4 h ∧ 0xd800 ≤ value h ∧ value h ≤ 0xdbff
def Trail (h : List UInt8) : Prop := Hex4 h ∧ 0xdc00 ≤ value h ∧ value h ≤ 0xdfff

/-- The code point of a pair of surrogates. -/
def paired (lead trail : Nat) : Nat := 0x10000 + (lead - 0xd800) * 0x400 + (trail - 0xdc00)

def escaped (h : List UInt8) : List UInt8 := 0x5c :: 0x75 :: h

/-- A beginning of an escaped code which is not complete, maybe empty. -/
def Opens (v : List UInt8) : Prop := ∃ w h, w ≠ [] ∧ Hex4 h ∧ v ++ w = escaped h

/-- The characters after a backslash and the bytes they stand for. -/
def simple : UInt8 → Option UInt8
  | 0x22 => some 0x22
  | 0x5c => some 0x5c
  | 0x2f => some 0x2f
  | 0x62 => some 0x08
  | 0x66 => some 0x0c
  | 0x6e => some 0x0a
  | 0x72 => some 0x0d
  | 0x74 => some 0x09
  | _ => none

/-- What strings are made of. -/
inductive Piece
  | plain (b : UInt8)
  | control (b : UInt8)
  | escape (b v : UInt8)
  | unknown (b : UInt8)
  | code (h : List UInt8)
  | pair (h1 h2 : List UInt8)
  | trail (h : List UInt8)
  | lead (h : List UInt8)
  | short (hs : List UInt8)

def Piece.bytes : Piece → List UInt8
  | plain b => [b]
  | control b => [b]
  | escape b _ => [0x5c, b]
  | unknown b => [0x5c, b]
  | code h => escaped h
  | pair h1 h2 => escaped h1 ++ escaped h2
  | trail h => escaped h
  | lead h => escaped h
  | short hs => escaped hs

/-- When a piece is one, if the text goes on with `v`. -/
def Piece.fits (v : List UInt8) : Piece → Prop
  | plain b => b ≠ 0x22 ∧ b ≠ 0x5c ∧ 0x1f ≤ b
  | control b => b < 0x1f
  | escape b w => simple b = some w
  | unknown b => simple b = none ∧ b ≠ 0x75
  | code h => Hex4 h ∧ ¬ Lead h ∧ ¬ Trail h
  | pair h1 h2 => Lead h1 ∧ Trail h2
  | trail h => Trail h
  | lead h => Lead h ∧ ¬ Opens v ∧ ∀ h2 v', v = escaped h2 ++ v' → ¬ Trail h2
  | short hs => hs.length < 4 ∧ (∀ b ∈ hs, Hex b) ∧ ∃ b v', v = b :: v' ∧ ¬ Hex b

def utf8 (n : Nat) : List UInt8 := String.utf8EncodeChar (Char.ofNat n)

/-- The text a piece stands for; U+FFFD if there is none. -/
def Piece.means : Piece → List UInt8
  | plain b => [b]
  | control b => [b]
  | escape _ v => [v]
  | unknown b => [b]
  | code h => utf8 (value h)
  | pair h1 h2 => utf8 (paired (value h1) (value h2))
  | trail _ => utf8 0xfffd
  | lead _ => utf8 0xfffd
  | short _ => utf8 0xfffd

/-- What is wrong with a piece. -/
def Piece.error : Piece → Option Err
  | control b => some (.stringUnescaped b)
  | unknown b => some (.stringEscapeUnknown b)
  | trail h => some (.stringEscapeUnpairedTrailSurrogate (value h))
  | lead h => some (.stringEscapeUnpairedLeadSurrogate (value h))
  | short _ => some .stringEscapeInvalid
  | _ => none

def allBytes (ps : List Piece) : List UInt8 := ps.flatMap Piece.bytes

/-- All pieces are ones, if the text goes on with `e` after the last of them. -/
def AllFit : List Piece → List UInt8 → Prop
  | [], _ => True
  | p :: ps, e => p.fits (allBytes ps ++ e) ∧ AllFit ps e

def errors (ps : List Piece) : List Token := ps.filterMap fun p => p.error.map .error

/-- The contents a string ought to have. -/
def meant (ps : List Piece) : List UInt8 := ps.flatMap Piece.means

/-- Pieces that stand for themselves. -/
def Piece.literal : Piece → Bool
  | plain _ => true
  | control _ => true
  | _ => false

/-- The contents that are reported after the first escape, where `run` is what came since the last escape: a control character has the
whole run repeated. -/
def toldAfter (run : List UInt8) : List Piece → List UInt8
  | [] => run
  | .plain b :: ps => toldAfter (run ++ [b]) ps
  | .control b :: ps => (run ++ [b]) ++ toldAfter (run ++ [b]) ps
  | p :: ps => run ++ p.means ++ toldAfter [] ps

/-- The contents that are reported. -/
def told : List Piece → List UInt8
  | [] => []
  | p :: ps => if p.literal then p.bytes ++ told ps else p.means ++ toldAfter [] ps

/-! ## Numbers -/

/-- A number, or something like it. -/
structure Numeral where
  signs : List UInt8
  digits : List UInt8
  fraction : Option (List UInt8)
  /-- The letter, signs and digits. -/
  exponent : Option (UInt8 × List UInt8 × List UInt8)

def Numeral.bytes (n : Numeral) : List UInt8 :=
  n.signs ++ n.digits ++ (match n.fraction with | none => [] | some f => 0x2e :: f)
    ++ (match n.exponent with | none => [] | some (c, s, e) => c :: (s ++ e))

def Numeral.Wf (n : Numeral) : Prop :=
  (n.signs ≠ [] ∨ n.digits ≠ []) ∧ (∀ b ∈ n.signs, SignByte b) ∧ (∀ b ∈ n.digits, Digit b)
  ∧ (∀ f, n.fraction = some f → ∀ b ∈ f, Digit b)
  ∧ (∀ c s e, n.exponent = some (c, s, e) → Exp c ∧ (∀ b ∈ s, SignByte b) ∧ ∀ b ∈ e, Digit b)

/-- Whether a number goes on with the byte. -/
def Numeral.Takes (n : Numeral) (b : UInt8) : Prop :=
  Digit b ∨
  match n.exponent with
  | some (_, _, e) => e = [] ∧ SignByte b
  | none => Exp b ∨ (n.fraction = none ∧ (Point b ∨ (n.digits = [] ∧ SignByte b)))

/-- The last sign counts. -/
def signOf (signs : List UInt8) : Sign := if signs.getLast? = some 0x2d then .minus else .plus

def Numeral.number (n : Numeral) : Number :=
  ⟨n.bytes, signOf n.signs, n.digits, n.fraction, n.exponent.map fun (_, s, e) => (signOf s, e)⟩

/-- Signs that are one too many: reported once before the number, but for each of them in the exponent. -/
def Numeral.signErrors (n : Numeral) : List Token :=
  (if n.signs.head? = some 0x2b then [.error .numberLeadingPlus] else [])
    ++ (if 2 ≤ n.signs.length then [.error .numberMultipleSigns] else [])
    ++ (match n.exponent with | none => [] | some (_, s, _) => List.replicate (s.length - 1) (.error .numberMultipleSigns))

/-- A part without digits. -/
def Numeral.Hollow (n : Numeral) : Prop :=
  n.digits = [] ∨ n.fraction = some [] ∨ ∃ c s, n.exponent = some (c, s, [])

instance (n : Numeral) : Decidable n.Hollow :=
  decidable_of_iff (n.digits = [] ∨ n.fraction = some [] ∨ (n.exponent.map fun (_, _, e) => e) = some []) <| by
    unfold Numeral.Hollow
    constructor
    · rintro (h | h | h)
      · exact .inl h
      · exact .inr (.inl h)
      · cases he : n.exponent with
        | none => rw [he] at h; simp at h
        | some x =>
          obtain ⟨c, s, e⟩ := x
          rw [he] at h
          simp only [Option.map_some, Option.some.injEq] at h
          exact .inr (.inr ⟨c, s, by rw [h]⟩)
    · rintro (h | h | ⟨c, s, h⟩)
      · exact .inl h
      · exact .inr (.inl h)
      · exact .inr (.inr (by rw [h]; rfl))

/-! ## Lexemes -/

inductive Lexeme
  | space (bs : List UInt8)
  | mark (b : UInt8) (t : Token)
  | word (bs : List UInt8)
  | number (n : Numeral)
  | string (ps : List Piece)

def Lexeme.bytes : Lexeme → List UInt8
  | space bs => bs
  | mark b _ => [b]
  | word bs => bs
  | number n => n.bytes
  | string ps => 0x22 :: (allBytes ps ++ [0x22])

/-- When a lexeme is one, if the text goes on with `v`: it is as long as possible, and it is known to be so. -/
def Lexeme.fits (v : List UInt8) : Lexeme → Prop
  | space bs => bs ≠ [] ∧ (∀ b ∈ bs, Space b) ∧ ∃ b v', v = b :: v' ∧ ¬ Space b
  | mark b t => Bytes.mark b = some t
  | word bs => (∃ b l, bs = b :: l ∧ StartsWord b ∧ ∀ c ∈ l, InWord c) ∧ ∃ b v', v = b :: v' ∧ ¬ InWord b
  | number n => n.Wf ∧ ∃ b v', v = b :: v' ∧ ¬ n.Takes b
  | string ps => AllFit ps (0x22 :: v)

def ascii (cs : List Char) : List UInt8 := cs.map fun c => c.toNat.toUInt8

/-- The token of a word. -/
def wordToken (bs : List UInt8) : Token :=
  if bs = ascii ['n', 'u', 'l', 'l'] then .null
  else if bs = ascii ['f', 'a', 'l', 's', 'e'] then .false
  else if bs = ascii ['t', 'r', 'u', 'e'] then .true
  else if Args.isUtf8 bs then .error (.itemUnknown bs)
  else .error (.itemNonUtf8 bs)

/-- The token of a string with the given bytes and contents. -/
def stringToken (raw str : List UInt8) : Token := if Args.isUtf8 str then .string raw str else .error (.stringNonUtf8 raw str)

def Lexeme.tokens : Lexeme → List Token
  | space bs => [.whitespace bs]
  | mark _ t => [t]
  | word bs => [wordToken bs]
  | number n => n.signErrors ++ (if n.Hollow then [.error .numberRangeEmpty] else []) ++ [.number n.number]
  | string ps => errors ps ++ [stringToken (0x22 :: (allBytes ps ++ [0x22])) (told ps)]

/-- The end of a text, which is a lexeme or part of one. -/
inductive Tail
  | none
  | space (bs : List UInt8)
  | word (bs : List UInt8)
  | number (n : Numeral)
  /-- Pieces of a string, and part of another one. -/
  | string (ps : List Piece) (part : List UInt8)

def Tail.bytes : Tail → List UInt8
  | none => []
  | space bs => bs
  | word bs => bs
  | number n => n.bytes
  | string ps part => 0x22 :: (allBytes ps ++ part)

/-- Part of a piece: of an escape, or of a pair of surrogates. -/
def Part (l : List UInt8) : Prop := Opens l ∨ ∃ h r, Lead h ∧ Opens r ∧ l = escaped h ++ r

def Tail.fits : Tail → Prop
  | none => True
  | space bs => bs ≠ [] ∧ ∀ b ∈ bs, Space b
  | word bs => ∃ b l, bs = b :: l ∧ StartsWord b ∧ ∀ c ∈ l, InWord c
  | number n => n.Wf
  | string ps part => AllFit ps part ∧ Part part

/-- Errors are reported early. -/
def Tail.tokens : Tail → List Token
  | number n => n.signErrors
  | string ps _ => errors ps
  | _ => []

/-- A text, its lexemes and its tail. -/
inductive Cut : List UInt8 → List Lexeme → Tail → Prop
  | tail (t : Tail) (h : t.fits) : Cut t.bytes [] t
  | lexeme (l : Lexeme) {v : List UInt8} {ls : List Lexeme} {t : Tail} (h : l.fits v) (hc : Cut v ls t) : Cut (l.bytes ++ v) (l :: ls) t

/-- The tokens of a text. -/
def tokens (ls : List Lexeme) (t : Tail) : List Token := ls.flatMap Lexeme.tokens ++ t.tokens

/-- The text a token was made of; none for most errors, since the lexeme itself is reported later on. -/
def source : Token → List UInt8
  | .error (.itemNonUtf8 raw) => raw
  | .error (.itemUnknown raw) => raw
  | .error (.stringNonUtf8 raw _) => raw
  | .error _ => []
  | .whitespace raw => raw
  | .colon => [0x3a]
  | .comma => [0x2c]
  | .arrayOpen => [0x5b]
  | .arrayClose => [0x5d]
  | .objectOpen => [0x7b]
  | .objectClose => [0x7d]
  | .null => ascii ['n', 'u', 'l', 'l']
  | .false => ascii ['f', 'a', 'l', 's', 'e']
  | .true => ascii ['t', 'r', 'u', 'e']
  | .number n => n.raw
  | .string raw _ => raw

/-- The ways to write a character within a string. -/
inductive Spells (c : Char) : List UInt8 → Prop
  | plain (h : c ≠ '"' ∧ c ≠ '\\' ∧ 0x20 ≤ c.toNat) : Spells c (String.utf8EncodeChar c)
  | escape {b v : UInt8} (h : simple b = some v) (hv : v.toNat = c.toNat) : Spells c [0x5c, b]
  | code {h : List UInt8} (hh : Hex4 h) (hv : value h = c.toNat) : Spells c (escaped h)
  | pair {h1 h2 : List UInt8} (hl : Lead h1) (ht : Trail h2) (hv : paired (value h1) (value h2) = c.toNat) : Spells c (escaped h1 ++ escaped h2)

/-- The ways to write the characters of a text. -/
inductive SpellsAll : List Char → List UInt8 → Prop
  | nil : SpellsAll [] []
  | cons {c : Char} {cs : List Char} {bs l : List UInt8} (h : Spells c bs) (hs : SpellsAll cs l) : SpellsAll (c :: cs) (bs ++ l)

/-- A number as JSON has it: a minus or not, digits, maybe a fraction, maybe an exponent with a sign or not. -/
def jsonNumber (neg : Bool) (i : List UInt8) (f : Option (List UInt8)) (e : Option (UInt8 × Option UInt8 × List UInt8)) : List UInt8 :=
  (if neg then [0x2d] else []) ++ i ++ (match f with | none => [] | some f => 0x2e :: f)
    ++ (match e with | none => [] | some (c, s, x) => c :: (s.toList ++ x))

/-- What is left to report once a text has ended. -/
def Tail.rest : Tail → List Token
  | none => []
  | space bs => [.whitespace bs]
  | word bs => [wordToken bs]
  | number n => (if n.Hollow then [.error .numberRangeEmpty] else []) ++ [.number n.number]
  | string _ _ => [.error .stringIncomplete]

/-! ## Streams and histories -/

/-- `isize::MAX`, the maximal size of a slice. -/
def isizeMax : Nat := 2 ^ 63 - 1

/-- A stream that holds `view st`, cf. the documentation of `Read`, stream.rs 28-73. Maps are beginnings of it that are at least as long as asked
for. Data is missing only if there is not enough of it. -/
structure Faithful {σ : Type} (R : Reader σ) (view : σ → List UInt8) : Prop where
  map : ∀ st min max, match R.map st min max with
    | .cont m => m <+: view st ∧ min ≤ m.length
    | .brk _ => (view st).length < min
    | .fault => False
  advance : ∀ st n, n ≤ (view st).length → ∃ st', R.advance st n = some st' ∧ view st' = (view st).drop n
  size : ∀ st, (view st).length ≤ isizeMax

/-- What may happen to a tokenizer: text arrives in the stream, and `pop` is called. `History R view fed toks w st d` says that `fed` is
the text that has arrived since the tokenizer was created, `toks` are the tokens that were reported, and `w` that the last thing that happened is
that `pop` asked for more. -/
inductive History {σ : Type} (R : Reader σ) (view : σ → List UInt8) : List UInt8 → List Token → Bool → σ → Dec → Prop
  | start (st : σ) : History R view (view st) [] false st .new
  | arrive {fed : List UInt8} {toks : List Token} {w : Bool} {st st' : σ} {d : Dec} (b : List UInt8)
      (h : History R view fed toks w st d) (hb : view st' = view st ++ b) : History R view (fed ++ b) toks false st' d
  | token {fed : List UInt8} {toks : List Token} {w : Bool} {st st' : σ} {d d' : Dec} {t : Token}
      (h : History R view fed toks w st d) (hp : pop R st d = (st', d', .cont t)) : History R view fed (toks ++ [t]) false st' d'
  | more {fed : List UInt8} {toks : List Token} {w : Bool} {st st' : σ} {d d' : Dec} {e : Io.More}
      (h : History R view fed toks w st d) (hp : pop R st d = (st', d', .brk e)) : History R view fed toks true st' d'

/-- Calling `complete` in a loop reports these tokens and then `None`. -/
inductive Completes {σ : Type} (R : Reader σ) : σ → Dec → List Token → Prop
  | done {st st' : σ} {d d' : Dec} (h : complete R st d = some (st', d', none)) : Completes R st d []
  | token {st st' : σ} {d d' : Dec} {t : Token} {ts : List Token} (h : complete R st d = some (st', d', some t)) (hc : Completes R st' d' ts) :
      Completes R st d (t :: ts)

end Verif.Json.Bytes
