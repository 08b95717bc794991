/-! # Model of the JSON stream decoder, `lib/tmp/src/fmt/json/stream.rs`

The decoder does not look into tokens, hence their contents are left out. -/
namespace Verif.Json.Stream

/-- `Token`, `lib/tmp/src/fmt/json/token.rs` 135-174, without contents. -/
inductive Tok | error | whitespace | colon | comma | arrayOpen | arrayClose | objectOpen | objectClose | null | false | true | number | string
deriving DecidableEq, Repr

/-- `Item`, stream.rs 37-45, without contents; `Item::Key` is never used. -/
inductive Item | error | prim | arrayOpen | arrayClose | objectOpen | objectClose
deriving DecidableEq, Repr

/-- `State`, stream.rs 49-60. -/
inductive State | root | rootDone | arrayOpen | arrayValue | arrayComma | objectOpen | objectKey | objectColon | objectValue | objectComma
deriving DecidableEq, Repr

/-- `Stack`, stream.rs 64-67. -/
inductive Kind | array | object
deriving DecidableEq, Repr

/-- `DecInner`, stream.rs 69-72; the end of the vector is the head of the list. -/
structure Dec where
  state : State
  stack : List Kind
deriving DecidableEq, Repr

namespace Dec

/-- `DecInner::new`, stream.rs 80-85. -/
def new : Dec := ⟨.root, []⟩

/-- `DecInner::unexpected` and `propagate`, stream.rs 87-93. -/
def unexpected (d : Dec) : Dec × Option Item := (d, some .error)

/-- `DecInner::value`, stream.rs 95-101. -/
def value (d : Dec) : Dec × Option Item := (d, some .prim)

/-- `self.stack.push(v)` if there is a parent, stream.rs 104-106 and 121-123. -/
def enter (d : Dec) : Option Kind → List Kind
  | some k => k :: d.stack
  | none => d.stack

/-- `DecInner::array_open`, stream.rs 103-109. -/
def arrayOpen (d : Dec) (parent : Option Kind) : Dec × Option Item := (⟨.arrayOpen, d.enter parent⟩, some .arrayOpen)

/-- `DecInner::object_open`, stream.rs 120-126. -/
def objectOpen (d : Dec) (parent : Option Kind) : Dec × Option Item := (⟨.objectOpen, d.enter parent⟩, some .objectOpen)

/-- `self.stack.pop()` and the new state, stream.rs 112-116 and 129-133. -/
def leave (d : Dec) : Dec :=
  match d.stack with
  | [] => ⟨.rootDone, []⟩
  | .array :: l => ⟨.arrayValue, l⟩
  | .object :: l => ⟨.objectValue, l⟩

/-- `DecInner::array_close`, stream.rs 111-118. -/
def arrayClose (d : Dec) : Dec × Option Item := (d.leave, some .arrayClose)

/-- `DecInner::object_close`, stream.rs 128-135. -/
def objectClose (d : Dec) : Dec × Option Item := (d.leave, some .objectClose)

/-- `self.state = …; None`, stream.rs 173, 214 and 243. -/
def goto (d : Dec) (s : State) : Dec × Option Item := ({ d with state := s }, none)

/-- `DecInner::advance`, stream.rs 137-284. It always continues. -/
def advance (d : Dec) (t : Tok) : Dec × Option Item :=
  match d.state, t with
  | .root, .error => d.unexpected
  | .root, .whitespace => (d, none)
  | .root, .colon => d.unexpected
  | .root, .comma => d.unexpected
  | .root, .arrayOpen => d.arrayOpen none
  | .root, .arrayClose => d.unexpected
  | .root, .objectOpen => d.objectOpen none
  | .root, .objectClose => d.unexpected
  | .root, .null => d.value
  | .root, .false => d.value
  | .root, .true => d.value
  | .root, .number => d.value
  | .root, .string => d.value
  | .arrayOpen, .error => d.unexpected
  | .arrayOpen, .whitespace => (d, none)
  | .arrayOpen, .colon => d.unexpected
  | .arrayOpen, .comma => d.unexpected
  | .arrayOpen, .arrayOpen => d.arrayOpen (some .array)
  | .arrayOpen, .arrayClose => d.arrayClose
  | .arrayOpen, .objectOpen => d.objectOpen (some .array)
  | .arrayOpen, .objectClose => d.unexpected
  | .arrayOpen, .null => d.value
  | .arrayOpen, .false => d.value
  | .arrayOpen, .true => d.value
  | .arrayOpen, .number => d.value
  | .arrayOpen, .string => d.value
  | .arrayValue, .error => d.unexpected
  | .arrayValue, .whitespace => (d, none)
  | .arrayValue, .colon => d.unexpected
  | .arrayValue, .comma => d.goto .arrayComma
  | .arrayValue, .arrayOpen => d.unexpected
  | .arrayValue, .arrayClose => d.arrayClose
  | .arrayValue, .objectOpen => d.unexpected
  | .arrayValue, .objectClose => d.unexpected
  | .arrayValue, .null => d.unexpected
  | .arrayValue, .false => d.unexpected
  | .arrayValue, .true => d.unexpected
  | .arrayValue, .number => d.unexpected
  | .arrayValue, .string => d.unexpected
  | .arrayComma, .error => d.unexpected
  | .arrayComma, .whitespace => (d, none)
  | .arrayComma, .colon => d.unexpected
  | .arrayComma, .comma => d.unexpected
  | .arrayComma, .arrayOpen => d.arrayOpen (some .array)
  | .arrayComma, .arrayClose => d.unexpected
  | .arrayComma, .objectOpen => d.objectOpen (some .array)
  | .arrayComma, .objectClose => d.unexpected
  | .arrayComma, .null => d.value
  | .arrayComma, .false => d.value
  | .arrayComma, .true => d.value
  | .arrayComma, .number => d.value
  | .arrayComma, .string => d.value
  | .objectOpen, .error => d.unexpected
  | .objectOpen, .whitespace => (d, none)
  | .objectOpen, .colon => d.unexpected
  | .objectOpen, .comma => d.unexpected
  | .objectOpen, .arrayOpen => d.unexpected
  | .objectOpen, .arrayClose => d.unexpected
  | .objectOpen, .objectOpen => d.unexpected
  | .objectOpen, .objectClose => d.unexpected
  | .objectOpen, .null => d.unexpected
  | .objectOpen, .false => d.unexpected
  | .objectOpen, .true => d.unexpected
  | .objectOpen, .number => d.unexpected
  | .objectOpen, .string => ({ d with state := .objectKey } : Dec).value
  | .objectKey, .error => d.unexpected
  | .objectKey, .whitespace => (d, none)
  | .objectKey, .colon => d.goto .objectColon
  | .objectKey, .comma => d.unexpected
  | .objectKey, .arrayOpen => d.unexpected
  | .objectKey, .arrayClose => d.unexpected
  | .objectKey, .objectOpen => d.unexpected
  | .objectKey, .objectClose => d.unexpected
  | .objectKey, .null => d.unexpected
  | .objectKey, .false => d.unexpected
  | .objectKey, .true => d.unexpected
  | .objectKey, .number => d.unexpected
  | .objectKey, .string => d.unexpected
  | .objectColon, .error => d.unexpected
  | .objectColon, .whitespace => (d, none)
  | .objectColon, .colon => d.unexpected
  | .objectColon, .comma => d.unexpected
  | .objectColon, .arrayOpen => d.arrayOpen (some .object)
  | .objectColon, .arrayClose => d.unexpected
  | .objectColon, .objectOpen => d.objectOpen (some .object)
  | .objectColon, .objectClose => d.unexpected
  | .objectColon, .null => d.value
  | .objectColon, .false => d.value
  | .objectColon, .true => d.value
  | .objectColon, .number => d.value
  | .objectColon, .string => d.value
  | .objectValue, .error => d.unexpected
  | .objectValue, .whitespace => (d, none)
  | .objectValue, .colon => d.unexpected
  | .objectValue, .comma => d.goto .objectComma
  | .objectValue, .arrayOpen => d.unexpected
  | .objectValue, .arrayClose => d.unexpected
  | .objectValue, .objectOpen => d.unexpected
  | .objectValue, .objectClose => d.objectClose
  | .objectValue, .null => d.unexpected
  | .objectValue, .false => d.unexpected
  | .objectValue, .true => d.unexpected
  | .objectValue, .number => d.unexpected
  | .objectValue, .string => d.unexpected
  | .objectComma, .error => d.unexpected
  | .objectComma, .whitespace => (d, none)
  | .objectComma, .colon => d.unexpected
  | .objectComma, .comma => d.unexpected
  | .objectComma, .arrayOpen => d.unexpected
  | .objectComma, .arrayClose => d.unexpected
  | .objectComma, .objectOpen => d.unexpected
  | .objectComma, .objectClose => d.unexpected
  | .objectComma, .null => d.unexpected
  | .objectComma, .false => d.unexpected
  | .objectComma, .true => d.unexpected
  | .objectComma, .number => d.unexpected
  | .objectComma, .string => ({ d with state := .objectKey } : Dec).value
  | .rootDone, .error => d.unexpected
  | .rootDone, .whitespace => (d, none)
  | .rootDone, .colon => d.unexpected
  | .rootDone, .comma => d.unexpected
  | .rootDone, .arrayOpen => d.unexpected
  | .rootDone, .arrayClose => d.unexpected
  | .rootDone, .objectOpen => d.unexpected
  | .rootDone, .objectClose => d.unexpected
  | .rootDone, .null => d.unexpected
  | .rootDone, .false => d.unexpected
  | .rootDone, .true => d.unexpected
  | .rootDone, .number => d.unexpected
  | .rootDone, .string => d.unexpected

/-- `Dec::pop`, stream.rs 297-333, with the tokens that the tokenizer has; `none` if it needs more. -/
def pop (d : Dec) : List Tok → Dec × List Tok × Option Item
  | [] => (d, [], none)
  | t :: l =>
    match d.advance t with
    | (d, some i) => (d, l, some i)
    | (d, none) => pop d l

/-- `Dec::pop` until more tokens are needed. -/
def run (d : Dec) : List Tok → Dec × List Item
  | [] => (d, [])
  | t :: l =>
    let r := d.advance t
    let s := run r.1 l
    (s.1, r.2.toList ++ s.2)

end Dec

end Verif.Json.Stream
