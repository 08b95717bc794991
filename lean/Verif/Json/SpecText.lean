import Verif.Json.SpecToken
/-! # Specification of JSON texts, cf. RFC 8259

Values, the texts of a value, and the marks that a text consists of without white space. -/
namespace Verif.Json.Text

/-- A JSON value. Numbers are kept as they are written: digits and signs. Members of objects keep their order, and may be repeated. -/
inductive Value
  | null
  | true
  | false
  | number (int frac exp : List UInt8) (s e : Sign)
  | string (s : List Char)
  | array (vs : List Value)
  | object (ms : List (List Char × Value))

def Spaces (w : List Char) : Prop := ∀ c ∈ w, isSpace c = true

/-- A string with its quotation marks. -/
def Quoted (s text : List Char) : Prop := ∃ raw, StringText s raw ∧ text = '"' :: raw ++ ['"']

mutual
/-- The texts of a value; the flags allow plus signs and leading zeros. -/
inductive Writes (plus zero : Bool) : Value → List Char → Prop
  | null : Writes plus zero .null ['n', 'u', 'l', 'l']
  | true : Writes plus zero .true ['t', 'r', 'u', 'e']
  | false : Writes plus zero .false ['f', 'a', 'l', 's', 'e']
  | number {text int frac exp s e} (h : JsonNumber plus zero text int frac exp s e) : Writes plus zero (.number int frac exp s e) text
  | string {s text} (h : Quoted s text) : Writes plus zero (.string s) text
  | empty {w} (hw : Spaces w) : Writes plus zero (.array []) ('[' :: (w ++ [']']))
  | array {vs es} (h : Elements plus zero vs es) : Writes plus zero (.array vs) ('[' :: (es ++ [']']))
  | nothing {w} (hw : Spaces w) : Writes plus zero (.object []) ('{' :: (w ++ ['}']))
  | object {ms es} (h : Members plus zero ms es) : Writes plus zero (.object ms) ('{' :: (es ++ ['}']))
/-- One or more elements. -/
inductive Elements (plus zero : Bool) : List Value → List Char → Prop
  | one {w w' v t} (hw : Spaces w) (hw' : Spaces w') (h : Writes plus zero v t) : Elements plus zero [v] (w ++ (t ++ w'))
  | more {w w' v t vs es} (hw : Spaces w) (hw' : Spaces w') (h : Writes plus zero v t) (hs : Elements plus zero vs es) :
      Elements plus zero (v :: vs) (w ++ (t ++ (w' ++ ',' :: es)))
/-- One or more members. -/
inductive Members (plus zero : Bool) : List (List Char × Value) → List Char → Prop
  | one {w w' k kt w3 w4 v t} (hw : Spaces w) (hw' : Spaces w') (h3 : Spaces w3) (h4 : Spaces w4) (hk : Quoted k kt)
      (h : Writes plus zero v t) : Members plus zero [(k, v)] (w ++ (kt ++ (w' ++ ':' :: (w3 ++ (t ++ w4)))))
  | more {w w' k kt w3 w4 v t ms es} (hw : Spaces w) (hw' : Spaces w') (h3 : Spaces w3) (h4 : Spaces w4) (hk : Quoted k kt)
      (h : Writes plus zero v t) (hs : Members plus zero ms es) :
      Members plus zero ((k, v) :: ms) (w ++ (kt ++ (w' ++ ':' :: (w3 ++ (t ++ (w4 ++ ',' :: es))))))
end

/-- A JSON text. -/
def IsText (plus zero : Bool) (v : Value) (text : List Char) : Prop :=
  ∃ w t w', Spaces w ∧ Spaces w' ∧ Writes plus zero v t ∧ text = w ++ (t ++ w')

/-- What is told about a value: tokens without white space, and without the way they are written. -/
inductive Mark
  | colon | comma | arrayOpen | arrayClose | objectOpen | objectClose | null | true | false
  | number (int frac exp : List UInt8) (s e : Sign)
  | string (s : List Char)
deriving DecidableEq

/-- The mark of a token. -/
def mark : Token → Option Mark
  | .colon => some .colon
  | .comma => some .comma
  | .arrayOpen => some .arrayOpen
  | .arrayClose => some .arrayClose
  | .objectOpen => some .objectOpen
  | .objectClose => some .objectClose
  | .null => some .null
  | .true => some .true
  | .false => some .false
  | .whitespace _ => none
  | .number _ i f x s e => some (.number i f x s e)
  | .string _ s => some (.string s)

mutual
/-- The marks of a value. -/
def Value.marks : Value → List Mark
  | .null => [.null]
  | .true => [.true]
  | .false => [.false]
  | .number i f x s e => [.number i f x s e]
  | .string s => [.string s]
  | .array vs => .arrayOpen :: (elementMarks vs ++ [.arrayClose])
  | .object ms => .objectOpen :: (memberMarks ms ++ [.objectClose])
def elementMarks : List Value → List Mark
  | [] => []
  | [v] => v.marks
  | v :: vs => v.marks ++ .comma :: elementMarks vs
def memberMarks : List (List Char × Value) → List Mark
  | [] => []
  | [(k, v)] => .string k :: .colon :: v.marks
  | (k, v) :: ms => .string k :: .colon :: (v.marks ++ .comma :: memberMarks ms)
end

end Verif.Json.Text
