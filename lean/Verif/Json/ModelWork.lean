import Verif.Json.ModelBytes
import Verif.Json.ModelBuf
/-! # Model of the work of the streaming JSON tokenizer, `lib/tmp/src/fmt/json/token.rs`

The tokenizer of `ModelBytes`, with a meter that is read nowhere: it counts the calls of `pop`, the rounds of its loop, the bytes that predicates are
called for, the bytes that are appended to `acc_str`, and follows the capacity of `acc_str`. That the tokenizer is the same is proved. -/
namespace Verif.Json.Work
open Verif.Io (usizeMax More SFlow StreamImpl)
open Verif.Json.Bytes (Reader Dec)

/-- How vectors grow (`Vec::extend_from_slice` and `Vec::push`, token.rs 332-350): the capacity after one or more appends, from the capacity before and
the length after. The standard library keeps the capacity if it suffices; otherwise it takes twice the capacity, or what is needed if that is more, and at
least eight bytes. -/
structure Growth where
  grow : Nat → Nat → Nat
  keeps : ∀ cap len, len ≤ cap → grow cap len = cap
  modest : ∀ cap len, cap < len → len ≤ grow cap len ∧ grow cap len ≤ max 8 (2 * len)

/-- One append of the standard library, `RawVec::grow_amortized`. -/
def amortized : Growth where
  grow cap len := reserved cap 0 len
  keeps cap len h := by unfold reserved; rw [if_pos (by omega)]
  modest cap len h := by unfold reserved; rw [if_neg (by omega)]; omega

structure Meter where
  /-- calls of `pop` -/
  calls : Nat
  /-- rounds of the loop of token.rs 813-834 -/
  rounds : Nat
  /-- calls of the predicates of `map_while`, stream.rs 208 -/
  tests : Nat
  /-- bytes that were appended to `acc_str` -/
  copied : Nat
  /-- the capacity of `acc_str` -/
  cap : Nat
deriving DecidableEq, Repr

/-- `DecInner::new`, token.rs 231-238: nothing is allocated. -/
def Meter.new : Meter := ⟨0, 0, 0, 0, 0⟩

variable {σ : Type}

/-- `clear_done`, token.rs 752-759: `acc_str` is cleared, and shrunk. -/
def clearDone (R : Reader σ) (st : σ) (d : Dec) (m : Meter) : Option (σ × Dec × Meter) :=
  match d.done with
  | none => some (st, d, m)
  | some len => (R.advance st len).map fun st => (st, { d with done := none, state := .none, accStr := [] }, { m with cap := shrunk m.cap 0 4096 })

/-- What a function `advance_*` comes back with. They do not remove anything from `acc_str`. -/
def finish (G : Growth) (d : Dec) (m : Meter) (r : Option (Dec × Option Bytes.Token)) : Dec × Meter × SFlow (Option Bytes.Token) :=
  match r with
  | none => (d, m, .fault)
  | some (d', t) =>
    (d', { m with copied := m.copied + (d'.accStr.length - d.accStr.length), cap := G.grow m.cap d'.accStr.length }, .cont t)

/-- `advance_inner` after `clear_done`, token.rs 797-809. -/
def advanceState (G : Growth) (R : Reader σ) (st : σ) (d : Dec) (m : Meter) : Dec × Meter × SFlow (Option Bytes.Token) :=
  match Bytes.request d with
  | none => (d, m, .fault)
  | some (.map min max) =>
    match R.map st min max with
    | .fault => (d, m, .fault)
    | .brk e => (d, m, .brk e)
    | .cont map => finish G d m (Bytes.handle d map)
  | some (.mapWhile max p) =>
    let r := Io.readMapWhile R.toStreamImpl st d.idx max (fun (n : Nat) i b => (n + 1, p i b)) m.tests usizeMax
    let d := { d with idx := r.n }
    let m := { m with tests := r.pred }
    match r.flow with
    | .fault => (d, m, .fault)
    | .brk e => (d, m, .brk e)
    | .cont map => finish G d m (Bytes.handle d map)

/-- `advance_inner`, token.rs 794-810. -/
def advanceInner (G : Growth) (R : Reader σ) (st : σ) (d : Dec) (m : Meter) : σ × Dec × Meter × SFlow (Option Bytes.Token) :=
  match clearDone R st d m with
  | none => (st, d, m, .fault)
  | some (st, d, m) => (st, advanceState G R st d m)

/-- `advance`, token.rs 812-835. -/
def advance (G : Growth) (R : Reader σ) : Nat → σ → Dec → Meter → σ × Dec × Meter × SFlow Bytes.Token
  | 0, st, d, m => (st, d, m, .fault)
  | fuel + 1, st, d, m =>
    match advanceInner G R st d { m with rounds := m.rounds + 1 } with
    | (st, d, m, .fault) => (st, d, m, .fault)
    | (st, d, m, .brk e) => (st, d, m, .brk e)
    | (st, d, m, .cont none) => advance G R fuel st d m
    | (st, d, m, .cont (some t)) => (st, d, m, .cont t)

/-- `pop`, token.rs 845-847. -/
def pop (G : Growth) (R : Reader σ) (st : σ) (d : Dec) (m : Meter) : σ × Dec × Meter × SFlow Bytes.Token :=
  advance G R (4 * usizeMax) st d { m with calls := m.calls + 1 }

/-- Tokens until the tokenizer needs more data; used for tests. -/
def popAll : Nat → List UInt8 → Dec → Meter → Dec × Meter
  | 0, _, d, m => (d, m)
  | n + 1, buf, d, m =>
    match pop amortized Bytes.slice buf d m with
    | (buf, d, m, .cont _) => popAll n buf d m
    | (_, d, m, _) => (d, m)

#guard (popAll 100 "[\"ab\\ncd\", 17.5]".toUTF8.toList .new .new).2 == ⟨7, 13, 11, 7, 8⟩
#guard (popAll 100 "\"\\n\x01\x01\x01\x01".toUTF8.toList .new .new).1.accStr.length == 12

end Verif.Json.Work
