import Verif.Json.SpecDecode
/-! # What the streaming JSON tokenizer and decoder ask for

`Read::map` breaks with a `More` if there is not enough data, and the caller passes it to whoever fills the stream
(`lib/tmp/src/io/stream.rs` 16-26 and 63-70): `min` is the number of bytes the stream must hold, counted from its current position, and `max`
the number of bytes that are of use. Somebody who waits for `min` bytes waits forever if the peer does not send that many before it gets an
answer, and calls again and again if the stream holds that many already. -/
namespace Verif.Json.Next
open Verif.Json.Bytes (Reader)

/-- A stream that lacks data reports what was asked for, stream.rs 63-70. -/
def Reports {σ : Type} (R : Reader σ) : Prop :=
  ∀ (st : σ) (min : Nat) (max : Option Nat) (e : Io.More), R.map st min max = .brk e → e = ⟨min, max⟩

/-- A request for the byte after those the stream holds: no further bytes need to arrive, and that byte is of use. -/
def NextByte (held : List UInt8) (e : Io.More) : Prop :=
  e.min = held.length + 1 ∧ ∀ m, e.max = some m → e.min ≤ m

/-- The place in the text, counted from one, of the last byte that is asked for: `held` is what the stream still holds of the text. -/
def place (fed held : List UInt8) (e : Io.More) : Nat := fed.length - held.length + e.min

end Verif.Json.Next
