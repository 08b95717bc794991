import Verif.Io.ModelMap
/-! # Model of streaming I/O, `lib/tmp/src/io/stream.rs` -/
namespace Verif.Io

/-- `More`, stream.rs 21-26. -/
structure More where
  min : Nat
  max : Option Nat
deriving DecidableEq, Repr

/-- `ControlFlow<More, α>`, or a panic. -/
inductive SFlow (α : Type)
  | cont (a : α)
  | brk (e : More)
  | fault
deriving DecidableEq, Repr

/-- `Read::map`, stream.rs 72, of an implementation with state `σ`. -/
structure StreamImpl (σ : Type) where
  map : σ → Nat → Option Nat → SFlow (List UInt8)

/-- Outcome of `read_map_while`: the offset `n`, the state of the predicate, and the control flow. -/
structure WhileOut (τ : Type) where
  n : Nat
  pred : τ
  flow : SFlow (List UInt8)

/-- The inner loop of `read_map_while`, stream.rs 207-212: the offset, the state of the predicate and whether the
predicate failed. `left` is the number of bytes of the map that were not looked at. -/
def testLoop {τ : Type} (pred : τ → Nat → UInt8 → τ × Bool) (map : List UInt8) : Nat → Nat → τ → Nat × τ × Option Bool
  | left, n, t =>
    if n < map.length then
      match left with
      | 0 => (n, t, none)
      | left + 1 =>
        match map[n]? with
        | none => (n, t, none)
        | some b =>
          match pred t n b with
          | (t, false) => (n, t, some true)
          | (t, true) => testLoop pred map left (n + 1) t
    else (n, t, some false)

/-- The outer loop of `read_map_while`, stream.rs 200-217. -/
def whileLoop {σ τ : Type} (I : StreamImpl σ) (st : σ) (max : Option Nat) (pred : τ → Nat → UInt8 → τ × Bool) :
    Nat → Nat → τ → WhileOut τ
  | 0, n, t => ⟨n, t, .fault⟩
  | fuel + 1, n, t =>
    let maxV := max.getD usizeMax
    if n + 1 ≤ usizeMax then
      match I.map st (n + 1) max with
      | .fault => ⟨n, t, .fault⟩
      | .brk e => ⟨n, t, .brk e⟩
      | .cont map =>
        let map := map.take (min map.length maxV)
        if map.length ≥ n + 1 ∧ map.length ≤ maxV then
          match testLoop pred map map.length n t with
          | (n, t, none) => ⟨n, t, .fault⟩
          | (n, t, some true) => ⟨n, t, .cont map⟩
          | (n, t, some false) => if n ≥ maxV then ⟨n, t, .cont map⟩ else whileLoop I st max pred fuel n t
        else ⟨n, t, .fault⟩
    else ⟨n, t, .fault⟩

/-- `read_map_while`, stream.rs 188-218. The state of the stream does not change during a call (`map` takes `&self`).
A predicate is `FnMut`, hence its state. Every round but the last makes progress within the data there is, which
is bounded by the `fuel`. -/
def readMapWhile {σ τ : Type} (I : StreamImpl σ) (st : σ) (n : Nat) (max : Option Nat)
    (pred : τ → Nat → UInt8 → τ × Bool) (t : τ) (fuel : Nat) : WhileOut τ := whileLoop I st max pred fuel n t

/-- `Read for &[u8]`, stream.rs 237-250. -/
def sliceStream : StreamImpl (List UInt8) where
  map data min max := if min ≤ data.length then .cont data else .brk ⟨min, max⟩

/-- `advance` of `Read for &[u8]`, stream.rs 238-241. -/
def sliceAdvance (data : List UInt8) (len : Nat) : Option (List UInt8) :=
  if len ≤ data.length then some (data.drop len) else none

/-- A vector as a stream for writing, stream.rs 252-264: its committed contents, its capacity, and the contents of
the spare capacity. -/
structure VecStream where
  data : List UInt8
  cap : Nat
  spare : Mem

/-- `Vec::reserve`: the growth policy is that of the allocator. -/
structure Grow where
  grow : Nat → Nat → Nat → Nat
  enough : ∀ len cap n, len + n ≤ grow len cap n ∧ cap ≤ grow len cap n

/-- `Write::map` for vectors, stream.rs 260-263: the length of the mapped slice, `none` if reserving panics because a
vector cannot have that capacity. Running out of memory is not modelled. -/
def vecStreamMap (G : Grow) (v : VecStream) (min : Nat) (max : Option Nat) : Option (VecStream × Nat) :=
  let n := max.getD min
  if v.data.length + n ≤ isizeMax then
    let cap := G.grow v.data.length v.cap n
    some ({ v with cap := cap }, cap - v.data.length)
  else none

/-- `Write::commit` for vectors, stream.rs 253-258: `none` if a byte was not initialised. -/
def vecStreamCommit (v : VecStream) (n : Nat) : Option VecStream := do
  let bs ← (List.range n).mapM v.spare
  some { v with data := v.data ++ bs, spare := fun i => v.spare (i + n) }

/-- `Write::write` for vectors, stream.rs 154-164. -/
def vecStreamWrite (G : Grow) (v : VecStream) (bs : List UInt8) : Option VecStream :=
  match vecStreamMap G v bs.length (some bs.length) with
  | none => none
  | some r => if bs.length ≤ r.2 then vecStreamCommit { r.1 with spare := put r.1.spare 0 bs } bs.length else none

/-- `Write::map_unchecked` for vectors, stream.rs 135-144: the bytes, if they are initialised. -/
def vecStreamUnchecked (G : Grow) (v : VecStream) (n : Nat) : Option (VecStream × List UInt8) :=
  match vecStreamMap G v n (some n) with
  | none => none
  | some r =>
    if n ≤ r.2 then do
      let bs ← (List.range n).mapM r.1.spare
      some (r.1, bs)
    else none

end Verif.Io
