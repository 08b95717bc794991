import Verif.Types.SpecCoerce
/-! # Model of `coerce_unsafe!`, `lib/osi/src/polonius.rs` 11-27 -/
namespace Verif.Types

/-- What becomes of a use of the macro. -/
inductive Built
  /-- It does not compile. -/
  | error
  /-- It never gets there, since the operand does not return. -/
  | diverges
  | value (v : List Nat)
deriving DecidableEq, Repr

/-- `core::mem::transmute::<$from, $to>`: an error if the sizes differ, and else the same words. -/
def transmute (W : World) (a b : CTy) (v : List Nat) : Built :=
  if a.size W = b.size W ∧ a.size W ≠ none then .value v else .error

/-- `coerce_unsafe!($from, $to, $value)`, polonius.rs 14-27, where the value of the operand is `v`, and the coercion from the one type to
the other is `es`. -/
def coerceUnsafe (polonius : Bool) (W : World) (a b : CTy) (es : List Effect) (v : List Nat) : Built :=
  if polonius then
    match Effect.runs W es v with
    | some v => .value v
    | none => .diverges
  else transmute W a b v

/-- Whether `typed_offset_of!(container, field, ty)` compiles for a field of type `f`, mem.rs 11-22: a pointer to the field, `*const f`, is
assigned to a variable of type `*const ty`, which is a place where values are coerced. -/
def TypedOffset (f ty : CTy) : Prop := ∃ es, Coerces (.raw false f) (.raw false ty) es

end Verif.Types
