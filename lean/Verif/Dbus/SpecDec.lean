import Verif.Dbus.ModelDec
import Verif.Dbus.SpecDvar
import Verif.Args.Utf8
/-! # Specification of the D-Bus decoder -/
namespace Verif.Dbus
open Verif.Io

/-- What a decoder has read: whether its value is complete, the open arrays with the types of their elements and their
lengths, the innermost one first, and the offset of the next byte. -/
structure DSt where
  ty : Ty
  full : Bool
  arrays : List (Ty × Nat)
  idx : Nat
  committed : Bool

namespace DSt

/-- The beginning. -/
def new (t : Ty) (idx : Nat) : DSt := ⟨t, false, [], idx, false⟩

/-- The type of the next value. -/
def next (a : DSt) : Option Ty :=
  match a.arrays with
  | (u, _) :: _ => some u
  | [] => if a.full then none else some a.ty

/-- A value was read, what follows begins at `idx`. -/
def past (a : DSt) (idx : Nat) : DSt := { a with idx := idx, full := a.full || a.arrays.isEmpty }

end DSt

/-- The next multiple. -/
def up (off align : Nat) : Nat := off + padding off align

/-- A part of the data. -/
def field (data : List UInt8) (off n : Nat) : Option (List UInt8) :=
  if off + n ≤ data.length then some ((data.drop off).take n) else none

/-- Calls for a value. -/
def Ask.isValue : Ask → Bool
  | .u16 => true
  | .string => true
  | .signature => true
  | .array => true
  | _ => false

/-- Whether a call is for values of a type. -/
def Ask.suits : Ask → Ty → Bool
  | .u16, .basic .uint16 => true
  | .string, .basic .string => true
  | .signature, .basic .signature => true
  | .array, .array _ => true
  | _, _ => false

/-- The size of the length of a string. -/
def Ask.width : Ask → Option Nat
  | .string => some 4
  | .signature => some 1
  | _ => none

/-- The answers if the reader refuses. -/
def Ans.isIo : Ans → Prop
  | .brk none => True
  | .brk (some (.io _)) => True
  | _ => False

mutual
/-- `Gives R be data a x r b`: a decoder of `data` in state `a` may answer the call `x` with `r` and then is in state
`b`. Data before index `n` may be refused by the reader if `R n`. -/
inductive Gives (R : Nat → Prop) (be : Bool) (data : List UInt8) : DSt → Ask → Ans → DSt → Prop
  /-- A call which does not suit the next type is rejected. -/
  | mismatch (a x) : x.isValue = true → (∀ u, a.next = some u → x.suits u = false) →
      Gives R be data a x (.brk (some .mismatch)) a
  /-- Numbers. -/
  | u16 (a bs) : a.next = some (.basic .uint16) → field data (up a.idx 2) 2 = some bs →
      Gives R be data a .u16 (.u16 (BitVec.ofNat 16 (deNum be bs))) (a.past (up a.idx 2 + 2))
  | u16Io (a r) : a.next = some (.basic .uint16) → R (up a.idx 2 + 2) → r.isIo → Gives R be data a .u16 r a
  /-- Strings have a length, and a terminator. -/
  | text (a x u w bs s) : a.next = some u → x.suits u = true → x.width = some w → field data (up a.idx w) w = some bs →
      field data (up a.idx w + w) (deNum be bs) = some s → Args.isUtf8 s = true →
      Gives R be data a x (.str s) (a.past (up a.idx w + w + deNum be bs + 1))
  | textBad (a x u w bs s) : a.next = some u → x.suits u = true → x.width = some w → field data (up a.idx w) w = some bs →
      field data (up a.idx w + w) (deNum be bs) = some s → Args.isUtf8 s = false →
      Gives R be data a x (.brk (some .dataNonUtf8)) a
  | textIo (a x u w r) : a.next = some u → x.suits u = true → x.width = some w →
      (R (up a.idx w + w) ∨ ∃ bs, field data (up a.idx w) w = some bs ∧ R (up a.idx w + w + deNum be bs)) → r.isIo →
      Gives R be data a x r a
  /-- Arrays are opened. -/
  | array (a u bs) : a.next = some (.array u) → field data (up a.idx 4) 4 = some bs →
      Gives R be data a .array .ok { a with arrays := (u, deNum be bs) :: a.arrays, idx := firstElement a.idx u }
  | arrayIo (a u r) : a.next = some (.array u) → (R (up a.idx 4 + 4) ∨ usizeMax < firstElement a.idx u) → r.isIo →
      Gives R be data a .array r a
  /-- Arrays can be closed at any time. -/
  | close (a u n l) : a.arrays = (u, n) :: l → Gives R be data a .close .ok (DSt.past { a with arrays := l } a.idx)
  | closeMismatch (a) : a.arrays = [] → Gives R be data a .close (.brk (some .mismatch)) a
  /-- A commit is rejected while something is missing, and accepted otherwise. -/
  | pending (a) : (a.arrays ≠ [] ∨ a.full = false) → Gives R be data a .commit (.brk (some .pending)) a
  | commit (a) : a.arrays = [] → a.full = true → Gives R be data a .commit .ok { a with committed := true }
  /-- What `more` answers: not whether the array has more elements, see `more_wrong`. -/
  | more (a) : Gives R be data a .more
      (.more (match a.arrays with | [] => false | (_, n) :: _ => decide (a.idx < n))) a
  /-- A sub-decoder exists if there is a next value, of the given type if there is one. -/
  | subMismatch (a s l) : (∀ u, a.next = some u → ∃ s', s = some s' ∧ s'.text ≠ some u.bytes) →
      Gives R be data a (.sub s l) (.brk (some .mismatch)) a
  /-- A sub-decoder which was not committed changes nothing. -/
  | subDropped (a s l rs u b) : a.next = some u → (∀ s', s = some s' → s'.text = some u.bytes) →
      GivesAll R be data (DSt.new u a.idx) l rs b → b.committed = false → Gives R be data a (.sub s l) (.sub rs) a
  | subCommitted (a s l rs u b) : a.next = some u → (∀ s', s = some s' → s'.text = some u.bytes) →
      GivesAll R be data (DSt.new u a.idx) l rs b → b.committed = true → Gives R be data a (.sub s l) (.sub rs) (a.past b.idx)
/-- Several calls. -/
inductive GivesAll (R : Nat → Prop) (be : Bool) (data : List UInt8) : DSt → List Ask → List Ans → DSt → Prop
  | nil (a) : GivesAll R be data a [] [] a
  | cons (a b c x l r rs) : Gives R be data a x r b → GivesAll R be data b l rs c →
      GivesAll R be data a (x :: l) (r :: rs) c
end

mutual
/-- The signatures given to sub-decoders are signatures. -/
def Ask.sane : Ask → Prop
  | .sub s l => (∀ s', s = some s' → ∃ t, View s' t) ∧ Ask.sanes l
  | _ => True
def Ask.sanes : List Ask → Prop
  | [] => True
  | x :: l => x.sane ∧ Ask.sanes l
end

/-- The data up to `n` is not there: the address space ends, or the reader refuses something within it. -/
def Short {σ : Type} (I : ReadImpl σ) (n : Nat) : Prop :=
  usizeMax < n ∨ ∃ st i k e, i + k ≤ n ∧ (I.map st i k).2 = .brk e

mutual
/-- `Reads v l rs`: the calls `l` read the value `v`, and these are the right answers. Values can also be read with a
sub-decoder. -/
inductive Reads : Val → List Ask → List Ans → Prop
  | u16 (v) : Reads (.u16 v) [.u16] [.u16 v]
  | string (s) : Args.isUtf8 s = true → Reads (.string s) [.string] [.str s]
  | signature (s) : Args.isUtf8 s = true → Reads (.signature s) [.signature] [.str s]
  | array (t vs l rs) : ReadsAll vs l rs → Reads (.array t vs) (.array :: l ++ [.close]) (.ok :: rs ++ [.ok])
  | sub (v l rs) : Reads v l rs → Reads v [.sub none (l ++ [.commit])] [.sub (rs ++ [.ok])]
inductive ReadsAll : List Val → List Ask → List Ans → Prop
  | nil : ReadsAll [] [] []
  | cons (v vs l l' rs rs') : Reads v l rs → ReadsAll vs l' rs' → ReadsAll (v :: vs) (l ++ l') (rs ++ rs')
end

mutual
/-- Values the decoder has calls for, with text that is UTF-8. -/
def Val.readable : Val → Prop
  | .u16 _ => True
  | .string s => Args.isUtf8 s = true
  | .signature s => Args.isUtf8 s = true
  | .array _ vs => Val.readables vs
  | _ => False
def Val.readables : List Val → Prop
  | [] => True
  | v :: vs => v.readable ∧ Val.readables vs
end

end Verif.Dbus
