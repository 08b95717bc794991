import Verif.Json.ModelDecode
import Verif.Json.SpecBytes
import Verif.Json.SpecStream
/-! # Specification of the JSON decoder on text

The tokens of a text are those of `Cut`, and what tokens mean is `Stream.Dec.run`. -/
namespace Verif.Json.Decode
open Verif.Json.Bytes (Reader Lexeme Tail)
open Verif.Json.Stream (Tok Item)

/-- The kinds of the tokens of a text that has been cut. -/
def kinds (ls : List Lexeme) (t : Tail) : List Tok := (Bytes.tokens ls t).map kind

/-- The items of a text that has been cut. -/
def items (ls : List Lexeme) (t : Tail) : List Item := (Stream.Dec.new.run (kinds ls t)).2

/-- What may happen to a decoder: text arrives in the stream, and `pop` is called. `History R view fed is w st d` says that `fed` is the text
that has arrived since the decoder was created, `is` are the items that were reported, and `w` that the last thing that happened is that `pop`
asked for more. -/
inductive History {σ : Type} (R : Reader σ) (view : σ → List UInt8) : List UInt8 → List Item → Bool → σ → Dec → Prop
  | start (st : σ) : History R view (view st) [] false st .new
  | arrive {fed : List UInt8} {is : List Item} {w : Bool} {st st' : σ} {d : Dec} (b : List UInt8)
      (h : History R view fed is w st d) (hb : view st' = view st ++ b) : History R view (fed ++ b) is false st' d
  | item {fed : List UInt8} {is : List Item} {w : Bool} {st st' : σ} {d d' : Dec} {i : Item}
      (h : History R view fed is w st d) (hp : pop R st d = (st', d', .cont i)) : History R view fed (is ++ [i]) false st' d'
  | more {fed : List UInt8} {is : List Item} {w : Bool} {st st' : σ} {d d' : Dec} {e : Io.More}
      (h : History R view fed is w st d) (hp : pop R st d = (st', d', .brk e)) : History R view fed is true st' d'

/-! ## JSON texts, cf. RFC 8259 -/

def Spaces (w : List UInt8) : Prop := ∀ b ∈ w, Bytes.Space b

/-- A string with its quotation marks. -/
def Quoted (s : List UInt8) : Prop := ∃ cs bs, Bytes.SpellsAll cs bs ∧ s = 0x22 :: (bs ++ [0x22])

/-- A scalar and the kind of its token. (Numbers may start with zeros.) -/
inductive Scalar : List UInt8 → Tok → Prop
  | null : Scalar (Bytes.ascii ['n', 'u', 'l', 'l']) .null
  | false : Scalar (Bytes.ascii ['f', 'a', 'l', 's', 'e']) .false
  | true : Scalar (Bytes.ascii ['t', 'r', 'u', 'e']) .true
  | number {neg : Bool} {i : List UInt8} {f : Option (List UInt8)} {e : Option (UInt8 × Option UInt8 × List UInt8)}
      (hi : i ≠ [] ∧ ∀ b ∈ i, Bytes.Digit b) (hf : ∀ x, f = some x → x ≠ [] ∧ ∀ b ∈ x, Bytes.Digit b)
      (he : ∀ c s x, e = some (c, s, x) → Bytes.Exp c ∧ (∀ b, s = some b → Bytes.SignByte b) ∧ x ≠ [] ∧ ∀ b ∈ x, Bytes.Digit b) :
      Scalar (Bytes.jsonNumber neg i f e) .number
  | string {s : List UInt8} (h : Quoted s) : Scalar s .string

mutual
/-- A value and the kinds of its tokens but for white space. -/
inductive Value : List UInt8 → List Tok → Prop
  | scalar {s : List UInt8} {k : Tok} (h : Scalar s k) : Value s [k]
  | array {w : List UInt8} (hw : Spaces w) : Value (0x5b :: (w ++ [0x5d])) [.arrayOpen, .arrayClose]
  | elements {es : List UInt8} {ks : List Tok} (h : Elements es ks) : Value (0x5b :: (es ++ [0x5d])) (.arrayOpen :: (ks ++ [.arrayClose]))
  | object {w : List UInt8} (hw : Spaces w) : Value (0x7b :: (w ++ [0x7d])) [.objectOpen, .objectClose]
  | members {ms : List UInt8} {ks : List Tok} (h : Members ms ks) : Value (0x7b :: (ms ++ [0x7d])) (.objectOpen :: (ks ++ [.objectClose]))
inductive Elements : List UInt8 → List Tok → Prop
  | one {w w' v : List UInt8} {ks : List Tok} (hw : Spaces w) (hw' : Spaces w') (h : Value v ks) : Elements (w ++ (v ++ w')) ks
  | more {w w' v es : List UInt8} {ks ks' : List Tok} (hw : Spaces w) (hw' : Spaces w') (h : Value v ks) (hs : Elements es ks') :
      Elements (w ++ (v ++ (w' ++ 0x2c :: es))) (ks ++ .comma :: ks')
inductive Members : List UInt8 → List Tok → Prop
  | one {w w' w3 w4 k v : List UInt8} {ks : List Tok} (hw : Spaces w) (hw' : Spaces w') (h3 : Spaces w3) (h4 : Spaces w4) (hk : Quoted k)
      (h : Value v ks) : Members (w ++ (k ++ (w' ++ 0x3a :: (w3 ++ (v ++ w4))))) (.string :: .colon :: ks)
  | more {w w' w3 w4 k v ms : List UInt8} {ks ks' : List Tok} (hw : Spaces w) (hw' : Spaces w') (h3 : Spaces w3) (h4 : Spaces w4) (hk : Quoted k)
      (h : Value v ks) (hs : Members ms ks') :
      Members (w ++ (k ++ (w' ++ 0x3a :: (w3 ++ (v ++ (w4 ++ 0x2c :: ms)))))) (.string :: .colon :: (ks ++ .comma :: ks'))
end

/-- What is to be reported for each token. -/
def report : Tok → Option Item
  | .arrayOpen => some .arrayOpen
  | .arrayClose => some .arrayClose
  | .objectOpen => some .objectOpen
  | .objectClose => some .objectClose
  | .null | .false | .true | .number | .string => some .prim
  | .error => some .error
  | .whitespace | .colon | .comma => none

end Verif.Json.Decode
