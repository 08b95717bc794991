import Verif.Dbus.SpecTree
import Verif.Dbus.ModelDvar
import Verif.Dbus.PropsCursor
import Verif.Io.Spec
/-! # Specification: values, their marshalling, and what an encoder does

D-Bus Specification, "Marshaling (Wire Format)". Only values of types which the encoder has calls for: the numbers
`q`, `u`, `t`, the strings, variants and the containers other than maybes. -/
namespace Verif.Dbus
open Verif.Io

/-- Values. Strings are their bytes. -/
inductive Val
  | u16 (v : BitVec 16)
  | u32 (v : BitVec 32)
  | u64 (v : BitVec 64)
  | string (s : List UInt8)
  | object (s : List UInt8)
  | signature (s : List UInt8)
  | variant (t : Ty) (v : Val)
  | array (t : Ty) (vs : List Val)
  | struct (vs : List Val)
  | dict (k v : Val)

mutual
/-- `v.has t`: the value `v` is of type `t`. -/
def Val.has : Val → Ty → Prop
  | .u16 _, .basic .uint16 => True
  | .u32 _, .basic .uint32 => True
  | .u64 _, .basic .uint64 => True
  | .string _, .basic .string => True
  | .object _, .basic .objectPath => True
  | .signature _, .basic .signature => True
  | .variant t v, .variant => v.has t
  | .array t vs, .array t' => t = t' ∧ Val.each vs t
  | .struct vs, .struct ts => Val.all vs ts
  | .dict k v, .dict kt vt => k.has (.basic kt) ∧ v.has vt
  | _, _ => False
/-- All values are of the same type. -/
def Val.each : List Val → Ty → Prop
  | [], _ => True
  | v :: vs, t => v.has t ∧ Val.each vs t
/-- Values of given types. -/
def Val.all : List Val → List Ty → Prop
  | [], [] => True
  | v :: vs, t :: ts => v.has t ∧ Val.all vs ts
  | _, _ => False
end

/-- Zeroes up to the next multiple of `align`. -/
def pad (off align : Nat) : List UInt8 := List.replicate (padding off align) 0

/-- Where the first element of an array begins: behind the length, which is aligned to 4, and aligned for the type
of the elements. -/
def firstElement (off : Nat) (t : Ty) : Nat :=
  off + padding off 4 + 4 + padding (off + padding off 4 + 4) (2 ^ t.dvarAlign)

mutual
/-- The marshalled value at an offset. -/
def Val.marshal (be : Bool) (off : Nat) : Val → List UInt8
  | .u16 v => pad off 2 ++ enNum be 2 v.toNat
  | .u32 v => pad off 4 ++ enNum be 4 v.toNat
  | .u64 v => pad off 8 ++ enNum be 8 v.toNat
  | .string s => pad off 4 ++ enNum be 4 s.length ++ s ++ [0]
  | .object s => pad off 4 ++ enNum be 4 s.length ++ s ++ [0]
  | .signature s => enNum be 1 s.length ++ s ++ [0]
  | .variant t v => enNum be 1 t.size ++ t.bytes ++ [0] ++ v.marshal be (off + t.size + 2)
  | .array t vs => pad off 4 ++ enNum be 4 (Val.marshals be (firstElement off t) vs).length
      ++ pad (off + padding off 4 + 4) (2 ^ t.dvarAlign) ++ Val.marshals be (firstElement off t) vs
  | .struct vs => pad off 8 ++ Val.marshals be (off + padding off 8) vs
  | .dict k v => pad off 8 ++ k.marshal be (off + padding off 8)
      ++ v.marshal be (off + padding off 8 + (k.marshal be (off + padding off 8)).length)
/-- Values one after the other. -/
def Val.marshals (be : Bool) (off : Nat) : List Val → List UInt8
  | [] => []
  | v :: vs => v.marshal be off ++ Val.marshals be (off + (v.marshal be off).length) vs
end

mutual
/-- All lengths fit into their fields. -/
def Val.fits (be : Bool) (off : Nat) : Val → Prop
  | .u16 _ => True
  | .u32 _ => True
  | .u64 _ => True
  | .string s => s.length < 2 ^ 32
  | .object s => s.length < 2 ^ 32
  | .signature s => s.length < 2 ^ 8
  | .variant t v => t.size < 2 ^ 8 ∧ v.fits be (off + t.size + 2)
  | .array t vs => (Val.marshals be (firstElement off t) vs).length < 2 ^ 32 ∧ Val.fit be (firstElement off t) vs
  | .struct vs => Val.fit be (off + padding off 8) vs
  | .dict k v => k.fits be (off + padding off 8)
      ∧ v.fits be (off + padding off 8 + (k.marshal be (off + padding off 8)).length)
def Val.fit (be : Bool) (off : Nat) : List Val → Prop
  | [] => True
  | v :: vs => v.fits be off ∧ Val.fit be (off + (v.marshal be off).length) vs
end

#guard (Val.struct [.u16 1, .array (.basic .uint64) [.u64 2], .variant (.basic .string) (.string [97])]).marshal false 0
  = [1, 0, 0, 0, 8, 0, 0, 0, 2, 0, 0, 0, 0, 0, 0, 0, 1, 115, 0, 0, 1, 0, 0, 0, 97, 0]

/-! ## What an encoder has got so far -/

/-- Containers being written. The root is not a container, but the single value of the whole encoding. -/
inductive Open
  | root
  | variant (t : Ty)
  | array (t : Ty)
  | struct
  | dict

/-- A container with its values so far, their types, and the types to come. -/
structure Part where
  kind : Open
  vals : List Val
  tys : List Ty
  todo : List Ty

namespace Part

/-- The type of the next value. -/
def next (p : Part) : Option Ty :=
  match p.kind with
  | .array t => some t
  | _ => p.todo.head?

/-- Arrays can always end, others if all values are there. -/
def full (p : Part) : Bool :=
  match p.kind with
  | .array _ => true
  | _ => p.todo.isEmpty

/-- A value is added. -/
def add (p : Part) (v : Val) : Part :=
  match p.kind with
  | .array _ => { p with vals := p.vals ++ [v] }
  | _ => { p with vals := p.vals ++ [v], tys := p.tys ++ p.todo.take 1, todo := p.todo.tail }

/-- The value of a container which is closed. The root is not closed. -/
def value (p : Part) : Option Val :=
  match p.kind, p.vals with
  | .array t, vs => some (.array t vs)
  | .struct, vs => some (.struct vs)
  | .dict, [k, v] => some (.dict k v)
  | .variant t, [v] => some (.variant t v)
  | _, _ => none

/-- The offset of the contents of a container that begins at `off`. -/
def start (p : Part) (off : Nat) : Nat :=
  match p.kind with
  | .root => off
  | .variant t => off + t.size + 2
  | .array t => firstElement off t
  | .struct => off + padding off 8
  | .dict => off + padding off 8

/-- The contents so far. -/
def body (p : Part) (be : Bool) (off : Nat) : List UInt8 := Val.marshals be (p.start off) p.vals

end Part

/-- Bytes, some of which are not known. -/
abbrev Pat := List (Option UInt8)

/-- Known bytes. -/
def known (bs : List UInt8) : Pat := bs.map some

/-- What precedes the contents. The length of an array is zero until it is closed; if it has contents then an attempt
to close it might have failed after it wrote a part of the length. -/
def Part.head (p : Part) (be : Bool) (off : Nat) : Pat :=
  match p.kind with
  | .root => []
  | .variant t => known (enNum be 1 t.size ++ t.bytes ++ [0])
  | .array t => known (pad off 4) ++ List.replicate 4 (if p.body be off = [] then some 0 else none)
      ++ known (pad (off + padding off 4 + 4) (2 ^ t.dvarAlign))
  | .struct => known (pad off 8)
  | .dict => known (pad off 8)

/-- The bytes of the containers being written, the innermost one first, behind `pre`. -/
def Part.bytes (be : Bool) (pre : Pat) : List Part → Pat
  | [] => pre
  | p :: ps => Part.bytes be pre ps ++ (p.head be (Part.bytes be pre ps).length ++ known (p.body be (Part.bytes be pre ps).length))

/-- The state of an encoder: containers being written, and whether it was committed. -/
structure St where
  parts : List Part
  committed : Bool

/-- The beginning. -/
def St.new (t : Ty) : St := ⟨[⟨.root, [], [], [t]⟩], false⟩

/-- Calls which begin a value or are a value. -/
def Op.isValue : Op → Bool
  | .close => false
  | .commit => false
  | .sub .. => false
  | _ => true

/-- Whether a call is for values of a type. -/
def Op.suits : Op → Ty → Bool
  | .u16 _, .basic .uint16 => true
  | .u32 _, .basic .uint32 => true
  | .u64 _, .basic .uint64 => true
  | .string _, .basic .string => true
  | .object _, .basic .objectPath => true
  | .signature _, .basic .signature => true
  | .variant _, .variant => true
  | .array, .array _ => true
  | .structure, .struct _ => true
  | .dict, .dict .. => true
  | _, _ => false

/-- Strings that are too long, and signatures whose claimed length is too long. -/
def Op.long : Op → Prop
  | .string s => 2 ^ 32 ≤ s.length
  | .object s => 2 ^ 32 ≤ s.length
  | .signature s => 2 ^ 8 ≤ s.length
  | .variant s => ∃ n, s.len = some n ∧ 2 ^ 8 ≤ n
  | _ => False

/-- What a successful call for a value of type `u` changes: basic values are added, others are opened. -/
inductive Effect : Op → Ty → List Part → List Part → Prop
  | u16 (v u p ps) : Effect (.u16 v) u (p :: ps) (p.add (.u16 v) :: ps)
  | u32 (v u p ps) : Effect (.u32 v) u (p :: ps) (p.add (.u32 v) :: ps)
  | u64 (v u p ps) : Effect (.u64 v) u (p :: ps) (p.add (.u64 v) :: ps)
  | string (s u p ps) : Effect (.string s) u (p :: ps) (p.add (.string s) :: ps)
  | object (s u p ps) : Effect (.object s) u (p :: ps) (p.add (.object s) :: ps)
  | signature (s u p ps) : Effect (.signature s) u (p :: ps) (p.add (.signature s) :: ps)
  | variant (s t u ps) : View s t → Effect (.variant s) u ps (⟨.variant t, [], [], [t]⟩ :: ps)
  | array (t ps) : Effect .array (.array t) ps (⟨.array t, [], [], []⟩ :: ps)
  | struct (ts ps) : Effect .structure (.struct ts) ps (⟨.struct, [], [], ts⟩ :: ps)
  | dict (k v ps) : Effect .dict (.dict k v) ps (⟨.dict, [], [], [.basic k, v]⟩ :: ps)

/-- The results if the writer refuses. -/
def DRes.isIo : DRes → Prop
  | .brk none => True
  | .brk (some (.io _)) => True
  | _ => False

/-- The lengths of arrays have 32 bits. -/
def Part.tooLong (p : Part) (be : Bool) (off : Nat) : Prop :=
  match p.kind with
  | .array _ => 2 ^ 32 ≤ (p.body be off).length
  | _ => False

/-- Whether a container may be closed. -/
def Part.closes (p : Part) : Bool :=
  match p.kind with
  | .root => false
  | _ => p.full

mutual
/-- `Does R be pre a op out b`: an encoder in state `a` may answer the call `op` with `out` and then is in state `b`.
Data before index `n` may be refused by the writer if `R n`. -/
inductive Does (R : Nat → Prop) (be : Bool) : Pat → St → Op → Out → St → Prop
  /-- A call which does not suit the next type is rejected. -/
  | mismatch (pre p ps c op) : op.isValue = true → (∀ u, p.next = some u → op.suits u = false) →
      Does R be pre ⟨p :: ps, c⟩ op (.res (.brk (some .mismatch))) ⟨p :: ps, c⟩
  /-- A string that is too long is rejected. -/
  | long (pre p ps c op u) : p.next = some u → op.suits u = true → op.long →
      Does R be pre ⟨p :: ps, c⟩ op (.res (.brk (some .dataOverflow))) ⟨p :: ps, c⟩
  /-- Other calls succeed, -/
  | value (pre p ps c op u qs) : p.next = some u → op.suits u = true → ¬ op.long → Effect op u (p :: ps) qs →
      Does R be pre ⟨p :: ps, c⟩ op (.res .ok) ⟨qs, c⟩
  /-- unless the writer refuses. -/
  | valueIo (pre p ps c op u qs r) : p.next = some u → op.suits u = true → ¬ op.long → Effect op u (p :: ps) qs →
      R (Part.bytes be pre qs).length → r.isIo →
      Does R be pre ⟨p :: ps, c⟩ op (.res r) ⟨p :: ps, c⟩
  /-- Closing a container that is not full, or the root, is rejected. -/
  | closeMismatch (pre p ps c) : p.closes = false →
      Does R be pre ⟨p :: ps, c⟩ .close (.res (.brk (some .mismatch))) ⟨p :: ps, c⟩
  /-- Closing an array that is too long is rejected. -/
  | closeLong (pre p ps c) : p.closes = true → p.tooLong be (Part.bytes be pre ps).length →
      Does R be pre ⟨p :: ps, c⟩ .close (.res (.brk (some .dataOverflow))) ⟨p :: ps, c⟩
  /-- Otherwise the value is added to the outer container, -/
  | close (pre p q ps c v) : p.closes = true → ¬ p.tooLong be (Part.bytes be pre (q :: ps)).length → p.value = some v →
      Does R be pre ⟨p :: q :: ps, c⟩ .close (.res .ok) ⟨q.add v :: ps, c⟩
  /-- unless the writer refuses. -/
  | closeIo (pre p q ps c v r) : p.closes = true → ¬ p.tooLong be (Part.bytes be pre (q :: ps)).length → p.value = some v →
      R (Part.bytes be pre (q.add v :: ps)).length → r.isIo →
      Does R be pre ⟨p :: q :: ps, c⟩ .close (.res r) ⟨p :: q :: ps, c⟩
  /-- A commit is rejected while something is missing, -/
  | pending (pre p ps c) : (ps ≠ [] ∨ p.full = false) →
      Does R be pre ⟨p :: ps, c⟩ .commit (.res (.brk (some .pending))) ⟨p :: ps, c⟩
  /-- and accepted otherwise. -/
  | commit (pre p c) : p.full = true → Does R be pre ⟨[p], c⟩ .commit (.res .ok) ⟨[p], true⟩
  /-- A sub-encoder exists if there is a next value, of the given type if there is one. -/
  | subMismatch (pre p ps c s ops) : (∀ u, p.next = some u → ∃ s', s = some s' ∧ s'.text ≠ some u.bytes) →
      Does R be pre ⟨p :: ps, c⟩ (.sub s ops) (.res (.brk (some .mismatch))) ⟨p :: ps, c⟩
  /-- A sub-encoder which was not committed changes nothing. -/
  | subDropped (pre p ps c s ops outs u qs) : p.next = some u → (∀ s', s = some s' → s'.text = some u.bytes) →
      DoesAll R be (Part.bytes be pre (p :: ps)) (St.new u) ops outs ⟨qs, false⟩ →
      Does R be pre ⟨p :: ps, c⟩ (.sub s ops) (.sub outs) ⟨p :: ps, c⟩
  /-- The value of a committed sub-encoder is added. -/
  | subCommitted (pre p ps c s ops outs u q v) : p.next = some u → (∀ s', s = some s' → s'.text = some u.bytes) →
      DoesAll R be (Part.bytes be pre (p :: ps)) (St.new u) ops outs ⟨[q], true⟩ → q.vals = [v] →
      Does R be pre ⟨p :: ps, c⟩ (.sub s ops) (.sub outs) ⟨p.add v :: ps, c⟩
/-- Several calls. -/
inductive DoesAll (R : Nat → Prop) (be : Bool) : Pat → St → List Op → List Out → St → Prop
  | nil (pre a) : DoesAll R be pre a [] [] a
  | cons (pre a b c op ops out outs) : Does R be pre a op out b → DoesAll R be pre b ops outs c →
      DoesAll R be pre a (op :: ops) (out :: outs) c
end

/-- The bytes of memory are those of a pattern. -/
def Holds (m : Mem) (x : Pat) : Prop := ∀ i b, x[i]? = some (some b) → m i = some b

mutual
/-- The signatures given to calls are those of types, and those of variants have the short representation or are
too long anyway (see `long_variant`). -/
def Op.sane : Op → Prop
  | .variant s => ∃ t, View s t ∧ (s.kind = .node8 ∨ 2 ^ 8 ≤ 6 * t.size)
  | .sub s ops => (∀ s', s = some s' → ∃ t, View s' t) ∧ Op.sanes ops
  | _ => True
def Op.sanes : List Op → Prop
  | [] => True
  | op :: ops => op.sane ∧ Op.sanes ops
end

/-! ## Ways to write a value -/

mutual
/-- `Writes v ops`: the calls for the value `v`. Any part of it may be written by a sub-encoder. -/
inductive Writes : Val → List Op → Prop
  | u16 (v) : Writes (.u16 v) [.u16 v]
  | u32 (v) : Writes (.u32 v) [.u32 v]
  | u64 (v) : Writes (.u64 v) [.u64 v]
  | string (s) : Writes (.string s) [.string s]
  | object (s) : Writes (.object s) [.object s]
  | signature (s) : Writes (.signature s) [.signature s]
  | variant (s t v ops) : View s t → s.kind = .node8 → Writes v ops →
      Writes (.variant t v) (.variant s :: (ops ++ [.close]))
  | array (t vs ops) : WritesAll vs ops → Writes (.array t vs) (.array :: (ops ++ [.close]))
  | struct (vs ops) : WritesAll vs ops → Writes (.struct vs) (.structure :: (ops ++ [.close]))
  | dict (k v ops) : WritesAll [k, v] ops → Writes (.dict k v) (.dict :: (ops ++ [.close]))
  | sub (v ops) : Writes v ops → Writes v [.sub none (ops ++ [.commit])]
/-- The calls for values, one after the other. -/
inductive WritesAll : List Val → List Op → Prop
  | nil : WritesAll [] []
  | cons (v vs ops ops') : Writes v ops → WritesAll vs ops' → WritesAll (v :: vs) (ops ++ ops')
end

mutual
/-- All variants have types of at most 31 codes. -/
def Val.short : Val → Prop
  | .variant t v => t.size ≤ 31 ∧ v.short
  | .array _ vs => Val.shorts vs
  | .struct vs => Val.shorts vs
  | .dict k v => k.short ∧ v.short
  | _ => True
def Val.shorts : List Val → Prop
  | [] => True
  | v :: vs => v.short ∧ Val.shorts vs
end

mutual
/-- All calls succeeded, also those of sub-encoders. -/
def Out.good : Out → Prop
  | .res r => r = .ok
  | .sub outs => Out.goods outs
def Out.goods : List Out → Prop
  | [] => True
  | o :: os => o.good ∧ Out.goods os
end

/-! ## Outcomes -/

/-- Memory begins with these bytes. -/
def Begins (m : Mem) (bs : List UInt8) : Prop := ∀ i, (h : i < bs.length) → m i = some bs[i]

/-- Errors that are not from the writer. -/
def DErr.own : DErr → Prop
  | .io _ => False
  | _ => True

end Verif.Dbus
