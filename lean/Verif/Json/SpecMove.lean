import Verif.Json.SpecBuf
/-! # What has been done to a JSON tokenizer, in bytes -/
namespace Verif.Json

/-- The bytes that the buffers hold. -/
def Buffered.held (t : Buffered) : Nat := bytes t.tok.acc + bytes t.tok.accStr + t.tok.accNum.length

/-- `Toil fl r k t`: what a caller may have made of a tokenizer, as in `Life`, where `r` bytes of text were pushed, and clones were made of buffers of
`k` bytes in all. -/
inductive Toil (fl : BitVec 32) : Nat → Nat → Buffered → Prop
  | new : Toil fl 0 0 (.withFlags fl)
  | push {r k t evs t'} (c : Char) : Toil fl r k t → t.advance (some c) = ⟨evs, some t'⟩ → Toil fl (r + c.utf8Size) k t'
  | eof {r k t evs t'} : Toil fl r k t → t.advance none = ⟨evs, some t'⟩ → Toil fl r k t'
  | stop {r k t evs t'} (c : Char) (a b n m : Nat) : Toil fl r k t → t.advance (some c) = ⟨evs, some t'⟩ → a ≤ 4096 → b ≤ 4096 → n ≤ 4096 →
    m ≤ t'.prepare.moved → Toil fl (r + c.utf8Size) k ⟨t.tok.prepare, a, b, n, m⟩
  | stopEof {r k t evs t'} (a b n m : Nat) : Toil fl r k t → t.advance none = ⟨evs, some t'⟩ → a ≤ 4096 → b ≤ 4096 → n ≤ 4096 →
    m ≤ t'.prepare.moved → Toil fl r k ⟨t.tok.prepare, a, b, n, m⟩
  | reset {r k t} : Toil fl r k t → Toil fl r k t.prepare
  | clone {r k t} : Toil fl r k t → Toil fl r (k + t.held) t.clone

end Verif.Json
