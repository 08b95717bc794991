import Verif.Text.ModelUncaught
/-! # What an uncaught error shows, in terms of its constructors -/
namespace Verif.Text
variable {σ E : Type}

/-- All that the traits show of an error: the effect of `{:?}`, that of `{}`, and the source. `std` is the feature of that name, without which
there is no source. -/
structure Shown (σ E : Type) where
  debug : Fmt σ
  display : Fmt σ
  source : Option E

def shown (std : Bool) (lit : List Char → Fmt σ) (u : Uncaught σ E) : Shown σ E :=
  ⟨u.fmtDebug std lit, u.fmtDisplay lit, if std then u.source else none⟩

/-- The constructors, by what they are documented to expose. -/
def anyFolds : List (Value σ E → Uncaught σ E) := [fold_any, fold_static_any, box_any]
def debugFolds : List (Value σ E → Uncaught σ E) := [fold_debug, fold_static_debug, box_debug]
def displayFolds : List (Value σ E → Uncaught σ E) := [fold_display, fold_static_display, box_display]
def errorFolds : List (Value σ E → Uncaught σ E) := [fold_error, fold_static_error, box_error]

/-- A formatter that collects characters and never fails. -/
def collect (t : List Char) : Fmt (List Char) := fun s => (s ++ t, true)

/-- A value that prints these texts to it. -/
def texts (debug display : List Char) (source : Option E) : Value (List Char) E :=
  ⟨fun s => (s ++ debug, true), fun s => (s ++ display, true), source⟩

/-- The documented texts, by the name of the constructor: debug text and display text, given those of the value. -/
def debugText (name : List Char) (inner : List Char) : List Char := chars! "Uncaught::" ++ name ++ chars! "(" ++ inner ++ chars! ")"
def displayText (name : List Char) (inner : List Char) : List Char := chars! "Uncaught(" ++ name ++ chars! "): " ++ inner

end Verif.Text
