import Verif.Json.ModelBytes
import Verif.Json.ModelStream
/-! # Model of the JSON stream decoder with its tokenizer, `lib/tmp/src/fmt/json/stream.rs` 74-77 and 287-334 -/
namespace Verif.Json.Decode
open Verif.Io (usizeMax SFlow)
open Verif.Json.Bytes (Reader Token)
open Verif.Json.Stream (Tok Item)
variable {σ : Type}

/-- The patterns of stream.rs 141-281: they do not look into tokens. -/
def kind : Token → Tok
  | .error _ => .error
  | .whitespace _ => .whitespace
  | .colon => .colon
  | .comma => .comma
  | .arrayOpen => .arrayOpen
  | .arrayClose => .arrayClose
  | .objectOpen => .objectOpen
  | .objectClose => .objectClose
  | .null => .null
  | .false => .false
  | .true => .true
  | .number _ => .number
  | .string _ _ => .string

/-- `Dec`, stream.rs 74-77. The stream is a state that is passed along. -/
structure Dec where
  inner : Stream.Dec
  tokenizer : Bytes.Dec
deriving DecidableEq, Repr

/-- `Dec::with`, stream.rs 288-295. -/
def Dec.new : Dec := ⟨.new, .new⟩

/-- `Dec::advance_inner`, stream.rs 297-300. -/
def advanceInner (R : Reader σ) (st : σ) (d : Dec) : σ × Dec × SFlow (Option Item) :=
  match Bytes.pop R st d.tokenizer with
  | (st, t, .fault) => (st, { d with tokenizer := t }, .fault)
  | (st, t, .brk e) => (st, { d with tokenizer := t }, .brk e)
  | (st, t, .cont token) =>
    let r := d.inner.advance (kind token)
    (st, ⟨r.1, t⟩, .cont r.2)

/-- `Dec::advance`, stream.rs 302-329: a loop, which is given a bound here. It counts as a panic to reach the bound. -/
def advance (R : Reader σ) : Nat → σ → Dec → σ × Dec × SFlow Item
  | 0, st, d => (st, d, .fault)
  | fuel + 1, st, d =>
    match advanceInner R st d with
    | (st, d, .fault) => (st, d, .fault)
    | (st, d, .brk e) => (st, d, .brk e)
    | (st, d, .cont none) => advance R fuel st d
    | (st, d, .cont (some i)) => (st, d, .cont i)

/-- `Dec::pop`, stream.rs 331-333. -/
def pop (R : Reader σ) (st : σ) (d : Dec) : σ × Dec × SFlow Item := advance R usizeMax st d

/-! Sanity: items of a text in a slice. -/

def popAll : Nat → List UInt8 → Dec → List Item × List UInt8
  | 0, buf, _ => ([], buf)
  | n + 1, buf, d =>
    match pop Bytes.slice buf d with
    | (buf, d, .cont i) => let r := popAll n buf d; (i :: r.1, r.2)
    | (buf, _, _) => ([], buf)

#guard popAll 100 " [ [ \"foo\" ], {\"a\": []} ] 12".toUTF8.toList .new =
  ([.arrayOpen, .arrayOpen, .prim, .arrayClose, .objectOpen, .prim, .arrayOpen, .arrayClose, .objectClose, .arrayClose], "12".toUTF8.toList)

end Verif.Json.Decode
