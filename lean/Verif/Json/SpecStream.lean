import Verif.Json.ModelStream
/-! # Specification of the JSON stream decoder -/
namespace Verif.Json.Stream

/-- Values which consist of one token. -/
def isScalar : Tok → Bool
  | .null | .false | .true | .number | .string => true
  | _ => false

/-! ## JSON -/

mutual
/-- JSON values. -/
inductive Json : List Tok → Prop
  | scalar (t) : isScalar t = true → Json [t]
  | array : Json [.arrayOpen, .arrayClose]
  | elements (es) : Elements es → Json (.arrayOpen :: (es ++ [.arrayClose]))
  | object : Json [.objectOpen, .objectClose]
  | members (ms) : Members ms → Json (.objectOpen :: (ms ++ [.objectClose]))
inductive Elements : List Tok → Prop
  | one (v) : Json v → Elements v
  | more (v es) : Json v → Elements es → Elements (v ++ .comma :: es)
inductive Members : List Tok → Prop
  | one (v) : Json v → Members (.string :: .colon :: v)
  | more (v ms) : Json v → Members ms → Members (.string :: .colon :: (v ++ .comma :: ms))
end

/-- White space may be anywhere. -/
def strip (toks : List Tok) : List Tok := toks.filter (· ≠ .whitespace)

/-- A decoder accepts tokens, as a value: it reports no error, and all that was opened was closed. -/
def Accepts (toks : List Tok) : Prop :=
  let r := Dec.new.run toks
  Item.error ∉ r.2 ∧ (r.1.state = .root ∨ r.1.state = .rootDone)

/-! ## What is accepted -/

mutual
/-- Arrays with at most one scalar, or with arrays and objects only; objects which are not empty, with arrays and objects
only. -/
inductive Sparse : List Tok → Prop
  | array : Sparse [.arrayOpen, .arrayClose]
  | scalar (t) : isScalar t = true → Sparse [.arrayOpen, t, .arrayClose]
  | elements (es) : SparseElements es → Sparse (.arrayOpen :: (es ++ [.arrayClose]))
  | members (ms) : SparseMembers ms → Sparse (.objectOpen :: (ms ++ [.objectClose]))
inductive SparseElements : List Tok → Prop
  | one (v) : Sparse v → SparseElements v
  | more (v es) : Sparse v → SparseElements es → SparseElements (v ++ .comma :: es)
inductive SparseMembers : List Tok → Prop
  | one (v) : Sparse v → SparseMembers (.string :: .colon :: v)
  | more (v ms) : Sparse v → SparseMembers ms → SparseMembers (.string :: .colon :: (v ++ .comma :: ms))
end

/-- Any number of scalars. -/
def Scalars (ss : List Tok) : Prop := ∀ t ∈ ss, isScalar t = true

mutual
/-- The arrays and objects that the decoder accepts: any number of scalars are ignored before arrays and objects. -/
inductive Loose : List Tok → Prop
  | scalars (ss) : Scalars ss → Loose (.arrayOpen :: (ss ++ [.arrayClose]))
  | elements (es) : LooseElements es → Loose (.arrayOpen :: (es ++ [.arrayClose]))
  | members (ms) : LooseMembers ms → Loose (.objectOpen :: (ms ++ [.objectClose]))
inductive LooseElements : List Tok → Prop
  | one (ss v) : Scalars ss → Loose v → LooseElements (ss ++ v)
  | more (ss v es) : Scalars ss → Loose v → LooseElements es → LooseElements (ss ++ v ++ .comma :: es)
inductive LooseMembers : List Tok → Prop
  | one (ss v) : Scalars ss → Loose v → LooseMembers (.string :: .colon :: (ss ++ v))
  | more (ss v ms) : Scalars ss → Loose v → LooseMembers ms → LooseMembers (.string :: .colon :: (ss ++ v ++ .comma :: ms))
end

/-! ## Nesting -/

/-- The open arrays and objects after reports, innermost first; `none` if something was closed that was not open. Errors have no effect. -/
def nest : List Kind → List Item → Option (List Kind)
  | st, [] => some st
  | st, .arrayOpen :: l => nest (.array :: st) l
  | st, .objectOpen :: l => nest (.object :: st) l
  | .array :: st, .arrayClose :: l => nest st l
  | .object :: st, .objectClose :: l => nest st l
  | _, .arrayClose :: _ => none
  | _, .objectClose :: _ => none
  | st, .prim :: l => nest st l
  | st, .error :: l => nest st l

end Verif.Json.Stream
