import Verif.Json.ModelEffort
import Verif.Json.SpecDecode
import Verif.Json.SpecWork
/-! # Specification of the work of the JSON stream decoder (C132) -/
namespace Verif.Json.Effort
open Verif.Json.Bytes (Reader)
open Verif.Json.Work (Growth)
open Verif.Json.Stream (Item Kind nest)
open Verif.Json.Decode (Dec)

/-- What may happen to a decoder (cf. `Decode.History`), with the meter. -/
inductive Life {σ : Type} (G : Growth) (R : Reader σ) (view : σ → List UInt8) : List UInt8 → List Item → Bool → σ → Dec → Meter → Prop
  | start (st : σ) : Life G R view (view st) [] false st .new .new
  | arrive {fed : List UInt8} {is : List Item} {w : Bool} {st st' : σ} {d : Dec} {m : Meter} (b : List UInt8)
      (h : Life G R view fed is w st d m) (hb : view st' = view st ++ b) : Life G R view (fed ++ b) is false st' d m
  | item {fed : List UInt8} {is : List Item} {w : Bool} {st st' : σ} {d d' : Dec} {m m' : Meter} {i : Item}
      (h : Life G R view fed is w st d m) (hp : pop G R st d m = (st', d', m', .cont i)) : Life G R view fed (is ++ [i]) false st' d' m'
  | more {fed : List UInt8} {is : List Item} {w : Bool} {st st' : σ} {d d' : Dec} {m m' : Meter} {e : Io.More}
      (h : Life G R view fed is w st d m) (hp : pop G R st d m = (st', d', m', .brk e)) : Life G R view fed is true st' d' m'

/-- `n` arrays and objects were open at some time, as reported. -/
def WasOpen (is : List Item) (n : Nat) : Prop := ∃ p o, p <+: is ∧ nest [] p = some o ∧ o.length = n

/-- `[` and `{` -/
def bracket (b : UInt8) : Bool := b == 0x5b || b == 0x7b

end Verif.Json.Effort
