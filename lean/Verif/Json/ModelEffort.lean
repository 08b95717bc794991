import Verif.Json.ModelDecode
import Verif.Json.ModelWork
/-! # Model of the work of the JSON stream decoder, `lib/tmp/src/fmt/json/stream.rs`

The decoder of `ModelDecode` on top of the tokenizer of `ModelWork`, with a meter that is read nowhere: it counts the calls of `pop`, holds the meter of the
tokenizer, and follows the capacity of `stack`. That the decoder is the same is proved. -/
namespace Verif.Json.Effort
open Verif.Io (usizeMax SFlow)
open Verif.Json.Bytes (Reader)
open Verif.Json.Work (Growth amortized)
open Verif.Json.Stream (Item)
open Verif.Json.Decode (Dec kind)
variable {σ : Type}

structure Meter where
  /-- calls of `pop` -/
  calls : Nat
  /-- the meter of the tokenizer -/
  tok : Work.Meter
  /-- the capacity of `stack`, stream.rs 71; an entry takes a byte -/
  cap : Nat
deriving DecidableEq, Repr

/-- `DecInner::new`, stream.rs 80-85, and `Dec::with` of the tokenizer: nothing is allocated. -/
def Meter.new : Meter := ⟨0, .new, 0⟩

/-- `advance_inner`, stream.rs 297-300. `stack` grows by `push` (stream.rs 105 and 122); `pop` (112 and 129) leaves its capacity as it is. -/
def advanceInner (G : Growth) (R : Reader σ) (st : σ) (d : Dec) (m : Meter) : σ × Dec × Meter × SFlow (Option Item) :=
  match Work.pop G R st d.tokenizer m.tok with
  | (st, t, mt, .fault) => (st, { d with tokenizer := t }, { m with tok := mt }, .fault)
  | (st, t, mt, .brk e) => (st, { d with tokenizer := t }, { m with tok := mt }, .brk e)
  | (st, t, mt, .cont token) =>
    let r := d.inner.advance (kind token)
    (st, ⟨r.1, t⟩, { m with tok := mt, cap := G.grow m.cap r.1.stack.length }, .cont r.2)

/-- `advance`, stream.rs 302-329. -/
def advance (G : Growth) (R : Reader σ) : Nat → σ → Dec → Meter → σ × Dec × Meter × SFlow Item
  | 0, st, d, m => (st, d, m, .fault)
  | fuel + 1, st, d, m =>
    match advanceInner G R st d m with
    | (st, d, m, .fault) => (st, d, m, .fault)
    | (st, d, m, .brk e) => (st, d, m, .brk e)
    | (st, d, m, .cont none) => advance G R fuel st d m
    | (st, d, m, .cont (some i)) => (st, d, m, .cont i)

/-- `pop`, stream.rs 331-333. -/
def pop (G : Growth) (R : Reader σ) (st : σ) (d : Dec) (m : Meter) : σ × Dec × Meter × SFlow Item :=
  advance G R usizeMax st d { m with calls := m.calls + 1 }

/-- Items until the decoder needs more data; used for tests. -/
def popAll : Nat → List UInt8 → Dec → Meter → Dec × Meter
  | 0, _, d, m => (d, m)
  | n + 1, buf, d, m =>
    match pop amortized Bytes.slice buf d m with
    | (buf, d, m, .cont _) => popAll n buf d m
    | (_, d, m, _) => (d, m)

#guard (popAll 100 "[ [ \"foo\" ], {\"a\": []} ] ".toUTF8.toList .new .new).2.calls == 11
#guard (popAll 100 "[ [ \"foo\" ], {\"a\": []} ] ".toUTF8.toList .new .new).2.tok.calls == 19
#guard (popAll 100 "[ [ \"foo\" ], {\"a\": []} ] ".toUTF8.toList .new .new).2.cap == 8
#guard (popAll 100 "[[[[[[[[[[[[]]]]]]]]]]]]".toUTF8.toList .new .new) == (⟨⟨.rootDone, []⟩, .new⟩, ⟨25, ⟨25, 25, 0, 0, 0⟩, 16⟩)

end Verif.Json.Effort
