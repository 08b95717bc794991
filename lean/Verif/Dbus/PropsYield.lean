import Verif.Dbus.LemmasYield
import Verif.Dbus.PropsDec
/-! # Properties: a D-Bus decoder delivers no more than there is

C122. -/
namespace Verif.Dbus
open Verif.Io

variable {σ : Type} {I : ReadImpl σ} {data : List UInt8} {s : Sig} {t : Ty}

/-- C122. For every reader of some data, whatever the data is, every signature, and every history of calls: all that was delivered,
the numbers, the strings with their lengths and terminators, and the lengths of arrays, is together not larger than the data and
one terminator. Nothing is delivered twice, except to sub-decoders that are not committed. -/
theorem yield_bounded (hL : Linear I data) (hd : data.length < usizeMax) (hs : View s t) (be : Bool) (st : σ) (l : List Ask)
    (hl : Ask.sanes l) :
    ∃ d d' st' rs, Dec.with_ s be = some d ∧ Ask.runs I l d st = some (d', st', rs) ∧ Ask.sizes l rs ≤ data.length + 1 := by
  obtain ⟨d, d', st', rs, b, h1, h2, h3⟩ := decoder_refines hL hd hs be st l hl
  refine ⟨d, d', st', rs, h1, h2, ?_⟩
  rcases h3.yields.2 with h | h
  · omega
  · simpa [DSt.new] using h

/-- C122. In particular, the number of values that are delivered, and thus the number of rounds of every loop that reads a value in
each round, is at most half of the length of the data, rounded up, whatever lengths of arrays the data claims. -/
theorem rounds_bounded (hL : Linear I data) (hd : data.length < usizeMax) (hs : View s t) (be : Bool) (st : σ) (l : List Ask)
    (hl : Ask.sanes l) :
    ∃ d d' st' rs, Dec.with_ s be = some d ∧ Ask.runs I l d st = some (d', st', rs) ∧ Ask.yieldeds l rs ≤ (data.length + 1) / 2 := by
  obtain ⟨d, d', st', rs, h1, h2, h3⟩ := yield_bounded hL hd hs be st l hl
  have := yieldeds_sizes l rs
  exact ⟨d, d', st', rs, h1, h2, by omega⟩

/-- An array that claims 2^32 - 1 bytes. The fourth element is not delivered. -/
example : (decFrom false "aq" [255, 255, 255, 255, 1, 0, 2, 0, 3, 0] [.array, .more, .u16, .more, .u16, .more, .u16, .more, .u16]).map
    (fun rs => (rs.map Ans.show, Ask.sizes [.array, .more, .u16, .more, .u16, .more, .u16, .more, .u16] rs))
    = some ([.inr [], .inr [1], .inr [1], .inr [1], .inr [2], .inr [1], .inr [3], .inr [1], .inl (some (.io .exceeded))], 10) := by
  decide +kernel

/-- C122. The bounds are reached: an empty signature without terminator is a value in one byte of data. -/
theorem yield_reached : (decFrom false "g" [0] [.signature]).map (fun rs => (Ask.sizes [.signature] rs, Ask.yieldeds [.signature] rs))
    = some (2, 1) := by decide +kernel

/-- Sub-decoders that are not committed can deliver the same data again, those that are committed cannot. -/
example : (decFrom false "q" [1, 0] [.sub none [.u16], .sub none [.u16], .sub none [.u16, .commit], .sub none [.u16, .commit]]).map
    (Ask.sizes [.sub none [.u16], .sub none [.u16], .sub none [.u16, .commit], .sub none [.u16, .commit]]) = some 2 := by decide +kernel

end Verif.Dbus
