import Verif.Json.ModelFlaky
import Verif.Json.SpecBytes
/-! # Streams that panic, and what may happen to a tokenizer and a decoder on them -/
namespace Verif.Json.Bytes

/-- A stream that holds `view st` and panics whenever it likes. A panicking `map` loses nothing. A panicking `advance` has discarded what it
was asked to, or nothing. When they do not panic, they do what `Read` asks for. -/
structure Flaky {σ : Type} (R : ReaderU σ) (view : σ → List UInt8) : Prop where
  map : ∀ st min max, view (R.map st min max).1 = view st ∧ match (R.map st min max).2 with
    | .cont m => m <+: view st ∧ min ≤ m.length
    | .brk _ => (view st).length < min
    | .unwound => True
    | .fault => False
  advance : ∀ st n, n ≤ (view st).length → view (R.advance st n).1 = (view st).drop n ∨
    ((R.advance st n).2 = true ∧ view (R.advance st n).1 = view st)
  size : ∀ st, (view st).length ≤ isizeMax

/-- A panic left no bytes in the stream that were to be discarded. `done` are the bytes of what was reported last, which the next call
discards. -/
def Dropped (view view' : List UInt8) (d : Dec) : Prop :=
  match d.done with
  | none => view' = view
  | some n => view' = view.drop n

/-- What was reported last is still in the stream after a panic. -/
def Kept (view view' : List UInt8) (d : Dec) : Prop := d.done ≠ none ∧ view' = view

/-- What may happen to a tokenizer on a stream that panics: text arrives in the stream, `pop` is called, it panics because the stream does, and the
panic is caught. `HistoryU R view fed toks w st d` says that `fed` is what the tokenizer has been given to read since it was created, that `toks` are the tokens
that were reported, and `w` that the last thing that happened is that `pop` asked for more.

A panic does not change what has been given to read (`unwound`), unless the stream panics instead of discarding a token: then what is in the stream,
that token first, is given to read as if nothing had been before (`again`). -/
inductive HistoryU {σ : Type} (R : ReaderU σ) (view : σ → List UInt8) : List UInt8 → List Token → Bool → σ → Dec → Prop
  | start (st : σ) : HistoryU R view (view st) [] false st .new
  | arrive {fed : List UInt8} {toks : List Token} {w : Bool} {st st' : σ} {d : Dec} (b : List UInt8)
      (h : HistoryU R view fed toks w st d) (hb : view st' = view st ++ b) : HistoryU R view (fed ++ b) toks false st' d
  | token {fed : List UInt8} {toks : List Token} {w : Bool} {st st' : σ} {d d' : Dec} {t : Token}
      (h : HistoryU R view fed toks w st d) (hp : popU R st d = (st', d', .cont t)) : HistoryU R view fed (toks ++ [t]) false st' d'
  | more {fed : List UInt8} {toks : List Token} {w : Bool} {st st' : σ} {d d' : Dec} {e : Io.More}
      (h : HistoryU R view fed toks w st d) (hp : popU R st d = (st', d', .brk e)) : HistoryU R view fed toks true st' d'
  | unwound {fed : List UInt8} {toks : List Token} {w : Bool} {st st' : σ} {d d' : Dec}
      (h : HistoryU R view fed toks w st d) (hp : popU R st d = (st', d', .unwound)) (hv : Dropped (view st) (view st') d) :
      HistoryU R view fed toks false st' d'
  | again {fed : List UInt8} {toks : List Token} {w : Bool} {st st' : σ} {d d' : Dec}
      (h : HistoryU R view fed toks w st d) (hp : popU R st d = (st', d', .unwound)) (hv : Kept (view st) (view st') d) :
      HistoryU R view (view st') [] false st' d'

/-- `advance` has always discarded what it was asked to when it panics. -/
def Discards {σ : Type} (R : ReaderU σ) (view : σ → List UInt8) : Prop :=
  ∀ st n, n ≤ (view st).length → view (R.advance st n).1 = (view st).drop n

end Verif.Json.Bytes

namespace Verif.Json.Decode
open Verif.Json.Bytes (ReaderU)
open Verif.Json.Stream (Item)

/-- What may happen to a decoder on a stream that panics, cf. `Bytes.HistoryU`; for streams that discard before they panic. -/
inductive HistoryU {σ : Type} (R : ReaderU σ) (view : σ → List UInt8) : List UInt8 → List Item → Bool → σ → Dec → Prop
  | start (st : σ) : HistoryU R view (view st) [] false st .new
  | arrive {fed : List UInt8} {is : List Item} {w : Bool} {st st' : σ} {d : Dec} (b : List UInt8)
      (h : HistoryU R view fed is w st d) (hb : view st' = view st ++ b) : HistoryU R view (fed ++ b) is false st' d
  | item {fed : List UInt8} {is : List Item} {w : Bool} {st st' : σ} {d d' : Dec} {i : Item}
      (h : HistoryU R view fed is w st d) (hp : popU R st d = (st', d', .cont i)) : HistoryU R view fed (is ++ [i]) false st' d'
  | more {fed : List UInt8} {is : List Item} {w : Bool} {st st' : σ} {d d' : Dec} {e : Io.More}
      (h : HistoryU R view fed is w st d) (hp : popU R st d = (st', d', .brk e)) : HistoryU R view fed is true st' d'
  | unwound {fed : List UInt8} {is : List Item} {w : Bool} {st st' : σ} {d d' : Dec}
      (h : HistoryU R view fed is w st d) (hp : popU R st d = (st', d', .unwound)) : HistoryU R view fed is false st' d'

end Verif.Json.Decode
