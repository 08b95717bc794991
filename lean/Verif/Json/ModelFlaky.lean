import Verif.Json.ModelDecode
/-! # Model of the streaming JSON tokenizer and decoder on streams that panic

`lib/tmp/src/fmt/json/token.rs` 752-859, `lib/tmp/src/fmt/json/stream.rs` 297-333 and `lib/tmp/src/io/stream.rs` 188-218 once more, for
implementations of `Read` whose functions may unwind. What they leave behind is kept, since callers can catch the panic and go on. -/
namespace Verif.Json.Bytes
open Verif.Io (usizeMax More)

/-- `ControlFlow<More, α>`, or a panic: of the tokenizer itself, or of the stream. -/
inductive UFlow (α : Type)
  | cont (a : α)
  | brk (e : More)
  | fault
  | unwound
deriving DecidableEq, Repr

/-- `Read`, io/stream.rs 40-73, of an implementation with state `σ`. Both functions leave a state behind, even `map` that takes `&self`: an
implementation can count its calls, and so panic now and not the next time. `advance` says whether it panicked. -/
structure ReaderU (σ : Type) where
  map : σ → Nat → Option Nat → σ × UFlow (List UInt8)
  advance : σ → Nat → σ × Bool

variable {σ : Type}

/-- The loop of `read_map_while`, io/stream.rs 200-217. The offset `n` belongs to the caller (`&mut usize`), and so survives a panic. -/
def whileLoopU (R : ReaderU σ) (max : Option Nat) (p : Nat → UInt8 → Bool) : Nat → σ → Nat → σ × Nat × UFlow (List UInt8)
  | 0, st, n => (st, n, .fault)
  | fuel + 1, st, n =>
    let maxV := max.getD usizeMax
    if n + 1 ≤ usizeMax then
      match R.map st (n + 1) max with
      | (st, .fault) => (st, n, .fault)
      | (st, .unwound) => (st, n, .unwound)
      | (st, .brk e) => (st, n, .brk e)
      | (st, .cont map) =>
        let map := map.take (min map.length maxV)
        if map.length ≥ n + 1 ∧ map.length ≤ maxV then
          match Io.testLoop (fun (_ : Unit) i b => ((), p i b)) map map.length n () with
          | (n, _, none) => (st, n, .fault)
          | (n, _, some true) => (st, n, .cont map)
          | (n, _, some false) => if n ≥ maxV then (st, n, .cont map) else whileLoopU R max p fuel st n
        else (st, n, .fault)
    else (st, n, .fault)

/-- `clear_done`, token.rs 752-759: the tokenizer is as new before `advance` is called. The result says whether that panicked. -/
def clearDoneU (R : ReaderU σ) (st : σ) (d : Dec) : σ × Dec × Bool :=
  match d.done with
  | none => (st, d, false)
  | some len =>
    let r := R.advance st len
    (r.1, { d with done := none, state := .none, accStr := [] }, r.2)

/-- What a function `advance_*` comes back with. -/
def finishU (d : Dec) (r : Option (Dec × Option Token)) : Dec × UFlow (Option Token) :=
  match r with
  | none => (d, .fault)
  | some (d, t) => (d, .cont t)

/-- `advance_inner` after `clear_done`, token.rs 797-809. -/
def advanceStateU (R : ReaderU σ) (st : σ) (d : Dec) : σ × Dec × UFlow (Option Token) :=
  match request d with
  | none => (st, d, .fault)
  | some (.map min max) =>
    match R.map st min max with
    | (st, .fault) => (st, d, .fault)
    | (st, .unwound) => (st, d, .unwound)
    | (st, .brk e) => (st, d, .brk e)
    | (st, .cont map) => (st, finishU d (handle d map))
  | some (.mapWhile max p) =>
    match whileLoopU R max p usizeMax st d.idx with
    | (st, n, .fault) => (st, { d with idx := n }, .fault)
    | (st, n, .unwound) => (st, { d with idx := n }, .unwound)
    | (st, n, .brk e) => (st, { d with idx := n }, .brk e)
    | (st, n, .cont map) => (st, finishU { d with idx := n } (handle { d with idx := n } map))

/-- `advance_inner`, token.rs 794-810. -/
def advanceInnerU (R : ReaderU σ) (st : σ) (d : Dec) : σ × Dec × UFlow (Option Token) :=
  match clearDoneU R st d with
  | (st, d, true) => (st, d, .unwound)
  | (st, d, false) => advanceStateU R st d

/-- `advance`, token.rs 812-835. The rounds of the loop are bounded by `fuel`; that it is enough is proved. -/
def advanceU (R : ReaderU σ) : Nat → σ → Dec → σ × Dec × UFlow Token
  | 0, st, d => (st, d, .fault)
  | fuel + 1, st, d =>
    match advanceInnerU R st d with
    | (st, d, .fault) => (st, d, .fault)
    | (st, d, .unwound) => (st, d, .unwound)
    | (st, d, .brk e) => (st, d, .brk e)
    | (st, d, .cont none) => advanceU R fuel st d
    | (st, d, .cont (some t)) => (st, d, .cont t)

/-- `pop`, token.rs 845-847. -/
def popU (R : ReaderU σ) (st : σ) (d : Dec) : σ × Dec × UFlow Token := advanceU R (4 * usizeMax) st d

/-- What `complete` comes back with, or a panic. -/
inductive End
  | ended (t : Option Token)
  | fault
  | unwound
deriving DecidableEq, Repr

/-- `complete`, token.rs 761-792 and 857-859. -/
def completeU (R : ReaderU σ) (st : σ) (d : Dec) : σ × Dec × End :=
  match clearDoneU R st d with
  | (st, d, true) => (st, d, .unwound)
  | (st, d, false) =>
    if d.state = .none then
      match R.map st 1 none with
      | (st, .fault) => (st, d, .fault)
      | (st, .unwound) => (st, d, .unwound)
      | (st, .brk _) => (st, d, .ended none)
      | (st, .cont _) => (st, d, .ended (some (.error .bufferRemaining)))
    else
      match R.map st d.idx none with
      | (st, .fault) => (st, d, .fault)
      | (st, .unwound) => (st, d, .unwound)
      | (st, .brk _) => (st, { d with done := some d.idx }, .ended (some (.error .bufferChanged)))
      | (st, .cont map) =>
        match completeState d map with
        | none => (st, d, .fault)
        | some (d, t) => (st, d, .ended t)

end Verif.Json.Bytes

namespace Verif.Json.Decode
open Verif.Io (usizeMax)
open Verif.Json.Bytes (ReaderU UFlow)
open Verif.Json.Stream (Item)
variable {σ : Type}

/-- `Dec::advance_inner`, stream.rs 297-300. -/
def advanceInnerU (R : ReaderU σ) (st : σ) (d : Dec) : σ × Dec × UFlow (Option Item) :=
  match Bytes.popU R st d.tokenizer with
  | (st, t, .fault) => (st, { d with tokenizer := t }, .fault)
  | (st, t, .unwound) => (st, { d with tokenizer := t }, .unwound)
  | (st, t, .brk e) => (st, { d with tokenizer := t }, .brk e)
  | (st, t, .cont token) =>
    let r := d.inner.advance (kind token)
    (st, ⟨r.1, t⟩, .cont r.2)

/-- `Dec::advance`, stream.rs 302-329. -/
def advanceU (R : ReaderU σ) : Nat → σ → Dec → σ × Dec × UFlow Item
  | 0, st, d => (st, d, .fault)
  | fuel + 1, st, d =>
    match advanceInnerU R st d with
    | (st, d, .fault) => (st, d, .fault)
    | (st, d, .unwound) => (st, d, .unwound)
    | (st, d, .brk e) => (st, d, .brk e)
    | (st, d, .cont none) => advanceU R fuel st d
    | (st, d, .cont (some i)) => (st, d, .cont i)

/-- `Dec::pop`, stream.rs 331-333. -/
def popU (R : ReaderU σ) (st : σ) (d : Dec) : σ × Dec × UFlow Item := advanceU R usizeMax st d

end Verif.Json.Decode
