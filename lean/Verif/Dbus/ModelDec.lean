import Verif.Dbus.ModelDvar
import Verif.Args.Utf8
/-! # Model of the D-Bus decoder, `lib/tmp/src/fmt/dbus/dvar.rs` 56-63, 95-106 and 453-740

The decoder works on any implementation of `io::map::Read`, whose state is passed in and out. A panic is `none`. What a
call writes to the variable of the caller is part of its answer. Allocations are modelled in `ModelMem`. The references
to the parent of a sub-decoder are modelled as for the encoder. -/
namespace Verif.Dbus
open Verif.Io

/-- `u16::from_le_bytes` and the like. -/
def leNat : List UInt8 → Nat
  | [] => 0
  | b :: l => b.toNat + 256 * leNat l

/-- `Format::de_u8`, `de_u16`, `de_u32`, dvar.rs 95-105. -/
def deNum (be : Bool) (l : List UInt8) : Nat := leNat (if be then l.reverse else l)

/-- `Dec`, dvar.rs 56-63. -/
structure Dec where
  be : Bool
  cursor : Cursor
  level : Level
  stack : List (Element × Level × Option Cursor)
  link : Option (Option Nat)
  handed : Option Nat
deriving DecidableEq, Repr

/-- Answers: a value; `Flow::Continue` or `Ok`; `Flow::Break` or `Err`; that of `more`; those of a sub-decoder. -/
inductive Ans
  | u16 (v : BitVec 16)
  | str (s : List UInt8)
  | ok
  | brk (e : Option DErr)
  | more (b : Bool)
  | sub (l : List Ans)

/-- What a call leaves behind. -/
abbrev DStep (σ : Type) := Option (Dec × σ × Ans)

namespace Dec

/-- `Dec::with`, dvar.rs 454-471. -/
def with_ (s : Sig) (be : Bool) : Option Dec := do
  let c ← Cursor.new s
  some ⟨be, c, ⟨0, 0, 0⟩, [], none, none⟩

/-- `Dec::more`, dvar.rs 487-489. -/
def more (d : Dec) : Bool := d.level.idx < d.level.meta_

/-- `Dec::read` and `read_uninit` followed by `?`, dvar.rs 538-552. -/
def io {σ : Type} (d : Dec) (r : ReadOut σ) (k : σ → Nat → List UInt8 → DStep σ) : DStep σ :=
  match r.flow with
  | .cont _ => k r.st r.idx r.out
  | .brk x => some (d, r.st, .brk (x.map .io))
  | .fault => none

/-- `Dec::align` followed by `?`, dvar.rs 554-566. -/
def align {σ : Type} (d : Dec) (st : σ) (idx exp : Nat) (k : Nat → DStep σ) : DStep σ :=
  match shl1 exp with
  | none => none
  | some m =>
    match checkedNextMultipleOf idx m with
    | none => some (d, st, .brk (some (.io .overflow)))
    | some v => k v

/-- The element check of all calls, for example dvar.rs 573-575. -/
def expect {σ : Type} (d : Dec) (st : σ) (el : Element) (k : DStep σ) : DStep σ :=
  match d.cursor.element with
  | none => none
  | some x => if x ≠ some el then some (d, st, .brk (some .mismatch)) else k

/-- The last lines of `fixed`, `str8` and `str32`, for example dvar.rs 580-583. -/
def advance {σ : Type} (d : Dec) (st : σ) (idx : Nat) (a : Ans) : DStep σ :=
  match d.cursor.move_step with
  | none => none
  | some c => some ({ d with level := { d.level with idx := idx }, cursor := c }, st, a)

/-- `Dec::u16`, dvar.rs 664-669, with `fixed`, 568-584. -/
def u16 {σ : Type} (I : ReadImpl σ) (d : Dec) (st : σ) : DStep σ :=
  d.expect st .u16 <|
  d.align st d.level.idx Element.u16.dvarExp fun idx =>
  d.io (read I st idx 2) fun st idx out =>
  d.advance st idx (.u16 (BitVec.ofNat 16 (deNum d.be out)))

/-- The second half of `str8` and `str32`, dvar.rs 603-622 and 642-661: the string is checked, the terminator is not
read. -/
def text {σ : Type} (I : ReadImpl σ) (d : Dec) (st : σ) (idx len : Nat) : DStep σ :=
  d.io (read I st idx len) fun st idx out =>
  if Args.isUtf8 out then
    if idx + 1 ≤ usizeMax then d.advance st (idx + 1) (.str out) else none
  else some (d, st, .brk (some .dataNonUtf8))

/-- `Dec::str8`, dvar.rs 586-623. -/
def str8 {σ : Type} (I : ReadImpl σ) (d : Dec) (st : σ) (el : Element) : DStep σ :=
  d.expect st el <|
  d.align st d.level.idx Element.u8.dvarExp fun idx =>
  d.io (read I st idx 1) fun st idx out =>
  d.text I st idx (deNum d.be out)

/-- `Dec::str32`, dvar.rs 625-662. -/
def str32 {σ : Type} (I : ReadImpl σ) (d : Dec) (st : σ) (el : Element) : DStep σ :=
  d.expect st el <|
  d.align st d.level.idx Element.u32.dvarExp fun idx =>
  d.io (read I st idx 4) fun st idx out =>
  d.text I st idx (deNum d.be out)

/-- `Dec::array`, dvar.rs 679-698. -/
def array {σ : Type} (I : ReadImpl σ) (d : Dec) (st : σ) : DStep σ :=
  d.expect st .array <|
  match d.cursor.down with
  | none => none
  | some none => none
  | some (some el) =>
    d.align st d.level.idx Element.u32.dvarExp fun idx =>
    d.io (read I st idx 4) fun st idx out =>
    d.align st idx el.dvarExp fun idx =>
    match d.cursor.move_down with
    | none => none
    | some c => some ({ d with
        cursor := c
        level := ⟨idx, d.level.from_, deNum d.be out⟩
        stack := (.array, d.level, none) :: d.stack }, st, .ok)

/-- The end of `Dec::close`, dvar.rs 726-738. -/
def pop {σ : Type} (d : Dec) (st : σ) (upLevel : Level) (upCursor : Option Cursor)
    (stack : List (Element × Level × Option Cursor)) : DStep σ :=
  match (match upCursor with | some c => some c | none => d.cursor.move_up) with
  | none => none
  | some c =>
    match c.move_step with
    | none => none
    | some c => some ({ d with level := { upLevel with idx := d.level.idx }, cursor := c, stack := stack }, st, .ok)

/-- `Dec::close`, dvar.rs 700-739. -/
def close {σ : Type} (d : Dec) (st : σ) : DStep σ :=
  match d.cursor.idx_step with
  | none => none
  | some (some _) => some (d, st, .brk (some .mismatch))
  | some none =>
    match d.stack with
    | [] => some (d, st, .brk (some .mismatch))
    | (el, upLevel, upCursor) :: stack =>
      match el with
      | .variant => d.pop st upLevel upCursor stack
      | .array => d.pop st upLevel upCursor stack
      | .structOpen => d.pop st upLevel upCursor stack
      | .dictOpen => d.pop st upLevel upCursor stack
      | _ => none

/-- `Dec::commit`, dvar.rs 523-536. -/
def commit {σ : Type} (d : Dec) (st : σ) : DStep σ :=
  match d.cursor.idx_step with
  | none => none
  | some step =>
    if step.isSome || !d.stack.isEmpty then some (d, st, .brk (some .pending))
    else if d.link.isSome then some ({ d with link := none, handed := some d.level.idx }, st, .ok)
    else some (d, st, .ok)

/-- `Dec::dec`, dvar.rs 491-511: a sub-decoder, or a mismatch. -/
def sub (d : Dec) : Option (Option Dec) := do
  let step ← d.cursor.idx_step
  match ← d.cursor.sigAt with
  | none => some none
  | some v => do
    let c ← Cursor.new v
    some (some ⟨d.be, c, ⟨d.level.idx, d.level.idx, d.level.idx⟩, [], some step, none⟩)

/-- `Dec::dec_with`, dvar.rs 513-521. -/
def subWith (d : Dec) (s : Sig) : Option (Option Dec) := do
  match ← d.cursor.sigAt with
  | none => some none
  | some v => do
    if ← s.eq v then d.sub else some none

/-- What remains of a sub-decoder, dvar.rs 528-533. -/
def merge (d : Dec) (x : Dec) (step : Option Nat) : Dec :=
  match x.handed with
  | none => d
  | some idx => { d with level := { d.level with idx := idx }, cursor := d.cursor.maybe_move step }

end Dec

/-- The calls of the decoder. -/
inductive Ask
  | u16
  | string
  | signature
  | array
  | close
  | commit
  | more
  | sub (s : Option Sig) (l : List Ask)

mutual
/-- A call. `string` and `signature`: dvar.rs 671-677. -/
def Ask.run {σ : Type} (I : ReadImpl σ) : Ask → Dec → σ → DStep σ
  | .u16, d, st => d.u16 I st
  | .string, d, st => d.str32 I st .string
  | .signature, d, st => d.str8 I st .signature
  | .array, d, st => d.array I st
  | .close, d, st => d.close st
  | .commit, d, st => d.commit st
  | .more, d, st => some (d, st, .more d.more)
  | .sub s l, d, st =>
    match (match s with | none => d.sub | some s => d.subWith s) with
    | none => none
    | some none => some (d, st, .brk (some .mismatch))
    | some (some x) =>
      match Ask.runs I l x st with
      | none => none
      | some (x', st, as) => some (d.merge x' (x.link.bind id), st, .sub as)
/-- Several calls, one after the other. -/
def Ask.runs {σ : Type} (I : ReadImpl σ) : List Ask → Dec → σ → Option (Dec × σ × List Ans)
  | [], d, st => some (d, st, [])
  | x :: l, d, st =>
    match Ask.run I x d st with
    | none => none
    | some (d, st, a) =>
      match Ask.runs I l d st with
      | none => none
      | some (d, st, as) => some (d, st, a :: as)
end

/-- Decoding from a slice, for examples. -/
def decFrom (be : Bool) (sig : String) (data : List UInt8) (l : List Ask) : Option (List Ans) :=
  match Sig.new (sb sig) with
  | .ok s =>
    match Dec.with_ s be with
    | none => none
    | some d => (Ask.runs (sliceRead data) l d ()).map (·.2.2)
  | _ => none

/-- Answers as numbers, those of sub-decoders are left out, for examples. -/
def Ans.show : Ans → Option DErr ⊕ List Nat
  | .u16 v => .inr [v.toNat]
  | .str s => .inr (s.map (·.toNat))
  | .ok => .inr []
  | .brk e => .inl e
  | .more b => .inr [b.toNat]
  | .sub _ => .inr []

#guard (decFrom false "as" [16, 0, 0, 0, 3, 0, 0, 0, 102, 111, 111, 0, 3, 0, 0, 0, 98, 97, 114, 0]
  [.commit, .array, .string, .string, .string, .close, .commit]).map (·.map Ans.show)
  = some [.inl (some .pending), .inr [], .inr [102, 111, 111], .inr [98, 97, 114], .inl (some (.io .exceeded)), .inr [], .inr []]

end Verif.Dbus
