import Verif.Text.ModelCompat
/-! # Model of `compat::Write::write_fmt`, `lib/osi/src/compat.rs` 21-23

What is formatted is any program that writes pieces of text, learns for each whether it was written, and says in the end whether it succeeded. This is all
that implementations of `Display` and the like can do with a formatter. `core::fmt::write` runs it. The underlying writer is known by its `write_all`;
`none` is a panic. -/
namespace Verif.Text
open Verif.Args

/-- Something to format: `core::fmt::Arguments` with all that it refers to. -/
inductive Format
  | done (ok : Bool)
  | write (v : Bytes) (k : Bool → Format)

/-- `core::fmt::write` to a sink, which is also what `core::fmt::Write::write_fmt` does unless it is overridden. -/
def Format.run {σ : Type} (sink : σ → Bytes → Option (σ × Bool)) : Format → σ → Option (σ × Bool)
  | .done ok, s => some (s, ok)
  | .write v k, s =>
    match sink s v with
    | none => none
    | some (s', ok) => (k ok).run sink s'

/-- `Write::write_str`, compat.rs 25-27: `write_all`, and its error is dropped. -/
def sinkOf {σ : Type} (all : σ → Bytes → Option (σ × Bool)) : σ → Bytes → Option (σ × Bool) := all

/-- The adapter of `std::io::Write::write_fmt`: it keeps the error of the writer, if there was one. -/
def adapter {σ : Type} (all : σ → Bytes → Option (σ × Bool)) : σ × Bool → Bytes → Option ((σ × Bool) × Bool) := fun (s, failed) v =>
  match all s v with
  | none => none
  | some (s', true) => some ((s', failed), true)
  | some (s', false) => some ((s', true), false)

/-- `Write::write_fmt`, compat.rs 21-23: that of `std::io::Write`, and its error is dropped. The standard library panics if formatting fails and the writer
did not. -/
def write_fmt {σ : Type} (all : σ → Bytes → Option (σ × Bool)) (f : Format) (s : σ) : Option (σ × Bool) :=
  match f.run (adapter all) (s, false) with
  | none => none
  | some ((s', _), true) => some (s', true)
  | some ((s', true), false) => some (s', false)
  | some ((_, false), false) => none

/-- `write_all` with what is left of the script of the writer. -/
def write_all_rest : List Call → Bytes → List Call
  | [], _ => []
  | c :: l, b =>
    if b = [] then c :: l
    else match c with
      | .took n => if n = 0 then l else if b.length < n then l else write_all_rest l (b.drop n)
      | .interrupted => write_all_rest l b
      | .failed => l

/-- The `write_all` of a scripted writer: the bytes it has taken so far, and what its next calls do. A writer that does not return is none. -/
def scripted (s : Bytes × List Call) (b : Bytes) : Option ((Bytes × List Call) × Bool) :=
  match write_all s.1 s.2 b with
  | .ok t => some ((t, write_all_rest s.2 b), true)
  | .error t => some ((t, write_all_rest s.2 b), false)
  | .waiting _ => none
  | .panic => none

/-- Pieces of text that are written in turn, up to the first failure: what `write!` does with a format string and values that heed failures. -/
def Format.plain : List Bytes → Format
  | [] => .done true
  | v :: l => .write v fun ok => if ok then Format.plain l else .done false

end Verif.Text
