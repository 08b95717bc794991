import Verif.Io.ModelMap
/-! # Specification of mapped I/O: what implementations have to guarantee, and what follows for users -/
namespace Verif.Io

/-- A reader of `data`: if anything is asked for, its maps are not empty and begin with the byte at the index. They
may be shorter or longer than asked for, and different every time; or it refuses. -/
structure Linear {σ : Type} (I : ReadImpl σ) (data : List UInt8) : Prop where
  size : data.length ≤ usizeMax
  map : ∀ st idx len, 0 < len → match (I.map st idx len).2 with
    | .cont m => m ≠ [] ∧ m <+: data.drop idx
    | .brk _ => True
    | .fault => False

/-- A writer: maps are not empty and within the address space, or it refuses. -/
structure Good {σ : Type} (I : WriteImpl σ) : Prop where
  map : ∀ st idx len, 0 < len → match (I.map st idx len).2 with
    | .cont n => 0 < n ∧ idx + n ≤ usizeMax
    | .brk _ => True
    | .fault => False

/-- A writer which never maps more than it was asked for. -/
structure Exact {σ : Type} (I : WriteImpl σ) : Prop extends Good I where
  le : ∀ st idx len n, (I.map st idx len).2 = .cont n → n ≤ len

/-- `Wrote w idx data r`: `r` is a proper outcome of writing `data` at `idx`. Either all of it was written, nothing
else was changed, and the index is behind it; or the writer refused at some byte, with everything before it
written. -/
inductive Wrote {σ : Type} (I : WriteImpl σ) (w : Writer σ) (idx : Nat) (data : List UInt8) : WriteOut σ → Prop
  | all (st : σ) : (data = [] ∨ idx + data.length ≤ usizeMax) →
      Wrote I w idx data ⟨⟨st, put w.mem idx data⟩, idx + data.length, .cont ()⟩
  | refused (st st' : σ) (k : Nat) (e : Option IoErr) : k < data.length →
      I.map st (idx + k) (data.length - k) = (st', .brk e) →
      Wrote I w idx data ⟨⟨st', put w.mem idx (data.take k)⟩, idx + k, .brk e⟩

/-- `Calls I a l b`: a writer gets from state `a` to state `b` by calls of `map` and by commits of the lengths `l`. -/
inductive Calls {σ : Type} (I : WriteImpl σ) (a : σ) : List Nat → σ → Prop
  | nil : Calls I a [] a
  | map {l : List Nat} {b : σ} (idx len : Nat) : Calls I a l b → Calls I a l (I.map b idx len).1
  | commit {l : List Nat} {b : σ} (len : Nat) : Calls I a l b → Calls I a (l ++ [len]) (I.commit b len)

/-- `Yields T it l`: the iterator yields the items of `l`, and its hints are correct. -/
inductive Yields {ι : Type} (T : Iter ι) : ι → List UInt8 → Prop
  | nil {it it' : ι} : T.hint it = some 0 → T.next it = some (none, it') → Yields T it []
  | cons {it it' : ι} {b : UInt8} {l : List UInt8} : T.hint it = some (l.length + 1) → T.next it = some (some b, it') →
      Yields T it' l → Yields T it (b :: l)

/-- The number of bytes to the next multiple. -/
def padding (idx align : Nat) : Nat := (align - idx % align) % align

/-- A writer that never refuses what can be addressed, such as a vector. -/
def Willing {σ : Type} (I : WriteImpl σ) : Prop := ∀ st idx n, idx + n ≤ usizeMax → ∀ x, (I.map st idx n).2 ≠ .brk x

end Verif.Io
