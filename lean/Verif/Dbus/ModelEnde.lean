import Verif.Dbus.ModelDec
/-! # Model of the format-independent encoder and decoder, `lib/tmp/src/fmt/dbus/ende.rs`

The enumerations `Enc` and `Dec` have one variant each, whose content is the encoder or decoder of dvar.rs; hence they are the same type here.
A panic is `none`. -/
namespace Verif.Dbus.Ende
open Verif.Io

/-- `Format`, ende.rs 8-15. -/
inductive Format | dvarBe | dvarLe | json
deriving DecidableEq, Repr

/-- `Enc::new`, ende.rs 26-40; `new_be` and `new_le`: dvar.rs 129-141. -/
def newEnc (s : Sig) : Format → Option Enc
  | .dvarBe => Enc.with_ s true
  | .dvarLe => Enc.with_ s false
  | .json => none

/-- `Dec::new`, ende.rs 68-82; `new_be` and `new_le`: dvar.rs 473-485. -/
def newDec (s : Sig) : Format → Option Dec
  | .dvarBe => Dec.with_ s true
  | .dvarLe => Dec.with_ s false
  | .json => none

/-- `Dec::more`, ende.rs 84-88. -/
def more (d : Dec) : Bool := d.more

/-- `Dec::close`, ende.rs 90-96. -/
def close {σ : Type} (d : Dec) (st : σ) : DStep σ := d.close st

/-- The `loop` of `Enc::inline`, ende.rs 49-62, with a bound on the rounds: every round goes to a smaller index. Both the `unwrap` and
`unreachable` of 52-54 are panics. -/
def inlineLoop {σ τ : Type} (e : Enc) (w : Writer τ) : Nat → Cursor → Dec → σ → Option (Enc × Writer τ × Dec × σ × DRes)
  | 0, _, _, _ => none
  | n + 1, cur, d, st =>
    if more d then none
    else
      match cur.idx_up with
      | none => none
      | some none => some (e, w, d, st, .ok)
      | some (some idx) =>
        match close d st with
        | none => none
        | some (d, st, .brk x) => some (e, w, d, st, .brk x)
        | some (d, st, _) => inlineLoop e w n (cur.maybe_move (some idx)) d st

/-- `Enc::inline`, ende.rs 42-64; `sig.cursor()`: signature.rs 870-872. -/
def inline {σ τ : Type} (e : Enc) (w : Writer τ) (s : Sig) (d : Dec) (st : σ) : Option (Enc × Writer τ × Dec × σ × DRes) :=
  match Cursor.new s with
  | none => none
  | some cur => inlineLoop e w (cur.idx + 1) cur d st

end Verif.Dbus.Ende
