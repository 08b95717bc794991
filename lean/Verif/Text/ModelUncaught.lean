/-! # Model of `lib/osi/src/error.rs`: `Uncaught`

A formatter is any state `σ` together with a function that writes a piece of text to it and may fail. A value is known by its implementations of
`Debug`, `Display` and `Error::source`; a value that lacks one of them has an arbitrary function there, which the type checker would not let
anyone call. That the enumeration is public, so that callers can take it apart, is not modelled: the property is about what its own
implementations expose. -/
namespace Verif.Text

/-- The characters of a string literal, as an explicit list. -/
macro "chars!" s:str : term => do
  let cs := (s.getString.toList.map Lean.Syntax.mkCharLit).toArray
  `([$cs,*])

/-- A function that writes to a formatter: the formatter afterwards, and whether it succeeded. -/
abbrev Fmt (σ : Type) := σ → σ × Bool

/-- The values that are folded. `E` stands for references to errors. -/
structure Value (σ E : Type) where
  debug : Fmt σ
  display : Fmt σ
  source : Option E

/-- `write!` with several pieces: each is written in turn, up to the first failure (`core::fmt::write`). -/
def pieces {σ : Type} : List (Fmt σ) → Fmt σ
  | [], s => (s, true)
  | f :: l, s => match f s with
    | (s, true) => pieces l s
    | (s, false) => (s, false)

/-- `Uncaught`, error.rs 13-31. -/
inductive Uncaught (σ E : Type)
  | any (v : Value σ E)
  | debug (v : Value σ E)
  | display (v : Value σ E)
  | error (v : Value σ E)
  | staticAny (v : Value σ E)
  | staticDebug (v : Value σ E)
  | staticDisplay (v : Value σ E)
  | staticError (v : Value σ E)

variable {σ E : Type}

/-- `Debug`, error.rs 33-58. `std` is the feature of that name, `lit` is `Formatter::write_str`. -/
def Uncaught.fmtDebug (std : Bool) (lit : List Char → Fmt σ) : Uncaught σ E → Fmt σ
  | .any _ => pieces [lit (chars! "Uncaught::Any()")]
  | .debug v => pieces [lit (chars! "Uncaught::Debug("), v.debug, lit (chars! ")")]
  | .display v => pieces [lit (chars! "Uncaught::Display("), v.display, lit (chars! ")")]
  | .error v => pieces [lit (chars! "Uncaught::Error("), if std then v.debug else v.display, lit (chars! ")")]
  | .staticAny _ => pieces [lit (chars! "Uncaught::StaticAny()")]
  | .staticDebug v => pieces [lit (chars! "Uncaught::StaticDebug("), v.debug, lit (chars! ")")]
  | .staticDisplay v => pieces [lit (chars! "Uncaught::StaticDisplay("), v.display, lit (chars! ")")]
  | .staticError v => pieces [lit (chars! "Uncaught::StaticError("), if std then v.debug else v.display, lit (chars! ")")]

/-- `Display`, error.rs 60-77. -/
def Uncaught.fmtDisplay (lit : List Char → Fmt σ) : Uncaught σ E → Fmt σ
  | .any _ => pieces [lit (chars! "Uncaught(Any)")]
  | .debug v => pieces [lit (chars! "Uncaught(Debug): "), v.debug]
  | .display v => pieces [lit (chars! "Uncaught(Display): "), v.display]
  | .error v => pieces [lit (chars! "Uncaught(Error): "), v.display]
  | .staticAny _ => pieces [lit (chars! "Uncaught(StaticAny)")]
  | .staticDebug v => pieces [lit (chars! "Uncaught(StaticDebug): "), v.debug]
  | .staticDisplay v => pieces [lit (chars! "Uncaught(StaticDisplay): "), v.display]
  | .staticError v => pieces [lit (chars! "Uncaught(StaticError): "), v.display]

/-- `Error::source`, error.rs 79-93; only with the feature `std`. -/
def Uncaught.source : Uncaught σ E → Option E
  | .any _ => none
  | .debug _ => none
  | .display _ => none
  | .error v => v.source
  | .staticAny _ => none
  | .staticDebug _ => none
  | .staticDisplay _ => none
  | .staticError v => v.source

/-- `fold_any`, `fold_static_any`, `box_any`, error.rs 98-115. Boxing does not change the implementations. -/
def fold_any (v : Value σ E) : Uncaught σ E := .any v
def fold_static_any (v : Value σ E) : Uncaught σ E := .staticAny v
def box_any (v : Value σ E) : Uncaught σ E := fold_any v
/-- `fold_debug`, `fold_static_debug`, `box_debug`, error.rs 119-136. -/
def fold_debug (v : Value σ E) : Uncaught σ E := .debug v
def fold_static_debug (v : Value σ E) : Uncaught σ E := .staticDebug v
def box_debug (v : Value σ E) : Uncaught σ E := fold_debug v
/-- `fold_display`, `fold_static_display`, `box_display`, error.rs 140-157. -/
def fold_display (v : Value σ E) : Uncaught σ E := .display v
def fold_static_display (v : Value σ E) : Uncaught σ E := .staticDisplay v
def box_display (v : Value σ E) : Uncaught σ E := fold_display v
/-- `fold_error`, `fold_static_error`, `box_error`, error.rs 161-214, in both variants. -/
def fold_error (v : Value σ E) : Uncaught σ E := .error v
def fold_static_error (v : Value σ E) : Uncaught σ E := .staticError v
def box_error (v : Value σ E) : Uncaught σ E := fold_error v

end Verif.Text
