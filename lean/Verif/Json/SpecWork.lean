import Verif.Json.ModelWork
import Verif.Json.SpecBytes
/-! # Specification of the work of the streaming JSON tokenizer (C98) -/
namespace Verif.Json.Work
open Verif.Json.Bytes (Reader Dec)

/-- What may happen to a tokenizer (cf. `Bytes.History`), with the meter. -/
inductive Life {σ : Type} (G : Growth) (R : Reader σ) (view : σ → List UInt8) : List UInt8 → List Bytes.Token → Bool → σ → Dec → Meter → Prop
  | start (st : σ) : Life G R view (view st) [] false st .new .new
  | arrive {fed : List UInt8} {toks : List Bytes.Token} {w : Bool} {st st' : σ} {d : Dec} {m : Meter} (b : List UInt8)
      (h : Life G R view fed toks w st d m) (hb : view st' = view st ++ b) : Life G R view (fed ++ b) toks false st' d m
  | token {fed : List UInt8} {toks : List Bytes.Token} {w : Bool} {st st' : σ} {d d' : Dec} {m m' : Meter} {t : Bytes.Token}
      (h : Life G R view fed toks w st d m) (hp : pop G R st d m = (st', d', m', .cont t)) : Life G R view fed (toks ++ [t]) false st' d' m'
  | more {fed : List UInt8} {toks : List Bytes.Token} {w : Bool} {st st' : σ} {d d' : Dec} {m m' : Meter} {e : Io.More}
      (h : Life G R view fed toks w st d m) (hp : pop G R st d m = (st', d', m', .brk e)) : Life G R view fed toks true st' d' m'

/-- The number of control characters; a string must not have them unless they are escaped. -/
def controls (l : List UInt8) : Nat := l.countP (· < 0x1f)

/-- An error about a control character in a string that is not escaped. -/
def isUnescaped : Bytes.Token → Bool
  | .error (.stringUnescaped _) => true
  | _ => false

def unescaped (toks : List Bytes.Token) : Nat := toks.countP isUnescaped

/-- How much of the stream the tokenizer has looked at for the token that it is at. -/
def reached (d : Dec) : Nat :=
  match d.done, d.state with
  | some n, _ => n
  | none, .none => 0
  | none, _ => d.idx

end Verif.Json.Work
