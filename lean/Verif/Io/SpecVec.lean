import Verif.Io.ModelVec
/-! # Specification: what a caller knows about the buffer it writes to

A caller that keeps to the documentation needs to know which cells it has initialised, and to what. This is kept in a
ledger, which has no notion of lengths, capacities or memory. -/
namespace Verif.Io

/-- The data that was committed, and the cells after it that the caller has initialised. -/
structure Ledger where
  data : List UInt8
  mine : Mem

/-- "The first `len` bytes of the stream buffer have been initialized" (stream.rs 95-98, 127-131, map.rs 68-71): their values. -/
def Ledger.first (s : Ledger) (n : Nat) : Option (List UInt8) := (List.range n).mapM s.mine

/-- Committed bytes move from the buffer to the data. -/
def Ledger.commit (s : Ledger) (n : Nat) (bs : List UInt8) : Ledger := ⟨s.data ++ bs, fun i => s.mine (i + n)⟩

/-- A call, and what the caller knows afterwards. Bytes the caller sees through `map_unchecked` are recorded, with the
values the caller expects. -/
def SCall.play (A : Alloc) (v : RawVec) (s : Ledger) : SCall → Played (RawVec × Ledger × List (Option UInt8) × List UInt8)
  | .map min max t =>
    match v.smap A min max with
    | none => .panic
    | some (v, n) => .done ({ v with mem := touch v.mem v.len n t }, { s with mine := touch s.mine 0 n t }, [], [])
  | .unchecked n t =>
    match s.first n with
    | none => .breach
    | some bs =>
      match v.sunchecked A n with
      | none => .panic
      | some (v, seen) =>
        .done ({ v with mem := touch v.mem v.len n fun i => (t i).map some }, { s with mine := touch s.mine 0 n fun i => (t i).map some },
          seen, bs)
  | .commit n =>
    match s.first n with
    | none => .breach
    | some bs =>
      match v.commit n with
      | none => .panic
      | some v => .done (v, s.commit n bs, [], [])
  | .write bs =>
    match v.swrite A bs with
    | none => .panic
    | some v => .done (v, s.commit bs.length bs, [], [])

/-- A history of calls. -/
def SCall.plays (A : Alloc) : List SCall → RawVec → Ledger → Played (RawVec × Ledger × List (Option UInt8) × List UInt8)
  | [], v, s => .done (v, s, [], [])
  | c :: l, v, s =>
    match c.play A v s with
    | .panic => .panic
    | .breach => .breach
    | .done (v, s, o, e) =>
      match SCall.plays A l v s with
      | .panic => .panic
      | .breach => .breach
      | .done (v, s, o', e') => .done (v, s, o ++ o', e ++ e')

/-- A call of `map::Write`. Its indices do not change with a commit; the ledger is about all cells, and `data` is what was
committed. -/
def MCall.play (A : Alloc) (v : RawVec) (s : Ledger) : MCall → Played (RawVec × Ledger)
  | .map idx len t =>
    match v.mmap A idx len with
    | none => .panic
    | some none => .done (v, s)
    | some (some v) => .done ({ v with mem := touch v.mem idx len t }, { s with mine := touch s.mine idx len t })
  | .commit n =>
    match s.first n with
    | none => .breach
    | some bs =>
      match v.commit n with
      | none => .panic
      | some v => .done (v, { s with data := s.data ++ bs })

/-- A history of calls. -/
def MCall.plays (A : Alloc) : List MCall → RawVec → Ledger → Played (RawVec × Ledger)
  | [], v, s => .done (v, s)
  | c :: l, v, s =>
    match c.play A v s with
    | .panic => .panic
    | .breach => .breach
    | .done (v, s) => MCall.plays A l v s

/-- The vector is in order: its elements are within its capacity, and all are initialised. Anything else is undefined behaviour as soon
as the vector is used. -/
def RawVec.Sound (v : RawVec) : Prop := v.len ≤ v.cap ∧ ∀ i < v.len, v.mem i ≠ none

/-- The vector holds the data. -/
def RawVec.Holds (v : RawVec) (data : List UInt8) : Prop := v.len = data.length ∧ v.len ≤ v.cap ∧ ∀ i < v.len, v.mem i = data[i]?

/-- The allocator keeps what is in the cells behind the length when a vector grows: that of the standard library does, since it
moves the whole allocation, although the documentation of `Vec` does not promise it. -/
def Alloc.Keeps (A : Alloc) : Prop := ∀ v n i, v.len ≤ i → i < v.cap → A.fresh v n i = v.mem i

/-- A vector with the given elements and capacity for more. -/
def RawVec.of (data : List UInt8) (more : Nat) : RawVec := ⟨data.length, data.length + more, fun i => data[i]?⟩

/-- Nothing is known about the buffer. -/
def Ledger.of (data : List UInt8) : Ledger := ⟨data, fun _ => none⟩

end Verif.Io
