import Verif.Dbus.ModelSig
import Verif.Io.ModelMap
/-! # Model of the D-Bus encoder, `lib/tmp/src/fmt/dbus/dvar.rs` 28-450

The encoder works on any implementation of `io::map::Write`. The reference to the writer is a value passed in and
out. A panic is `none`. The references a sub-encoder has to its parent are the fields `link` and `handed`: what the
sub-encoder writes through them when it commits is applied to the parent when the sub-encoder is gone, since the
parent is borrowed until then. -/
namespace Verif.Dbus
open Verif.Io

/-- The errors of `dbus::Error` which this module uses, dbus/mod.rs 14-24. -/
inductive DErr
  | mismatch
  | pending
  | dataOverflow
  | dataNonUtf8
  | io (e : IoErr)
deriving DecidableEq, Repr

/-- Outcome of a call: `Flow::Continue` or `Ok`; `Flow::Break` or `Err`. -/
inductive DRes
  | ok
  | brk (e : Option DErr)
deriving DecidableEq, Repr

/-- `u8::to_le_bytes` and the like: `w` bytes of a number, the least significant one first. -/
def leBytes : Nat → Nat → List UInt8
  | 0, _ => []
  | w + 1, v => UInt8.ofNat v :: leBytes w (v / 256)

/-- `Format::en_u8`, `en_u16`, `en_u32`, `en_u64`, dvar.rs 79-93. -/
def enNum (be : Bool) (w v : Nat) : List UInt8 := if be then (leBytes w v).reverse else leBytes w v

/-- `Level`, dvar.rs 36-41. -/
structure Level where
  idx : Nat
  from_ : Nat
  meta_ : Nat
deriving DecidableEq, Repr

/-- `Enc`, dvar.rs 46-54. `be` is the format. The last element of the stack is the head of the list. `link` is
`Some` of the parent's next index, if there is a parent that has not been updated. -/
structure Enc where
  done : Bool
  be : Bool
  cursor : Cursor
  level : Level
  stack : List (Element × Level × Option Cursor)
  link : Option (Option Nat)
  handed : Option Nat
deriving DecidableEq, Repr

/-- What a call leaves behind. -/
abbrev Step (σ : Type) := Option (Enc × Writer σ × DRes)

namespace Enc

/-- `Enc::with`, dvar.rs 109-127. -/
def with_ (s : Sig) (be : Bool) : Option Enc := do
  let c ← Cursor.new s
  some ⟨false, be, c, ⟨0, 0, 0⟩, [], none, none⟩

/-- `Enc::write`, `write_iter`, `zero`, `align` followed by `?`, dvar.rs 195-225: go on behind the data, or leave the
encoder as it is. -/
def io {σ : Type} (e : Enc) (r : WriteOut σ) (k : Writer σ → Nat → Step σ) : Step σ :=
  match r.flow with
  | .cont _ => k r.w r.idx
  | .brk x => some (e, r.w, .brk (x.map .io))
  | .fault => none

/-- The element check of all calls, for example dvar.rs 232-234. -/
def expect {σ : Type} (e : Enc) (w : Writer σ) (el : Element) (k : Step σ) : Step σ :=
  match e.cursor.element with
  | none => none
  | some x => if x ≠ some el then some (e, w, .brk (some .mismatch)) else k

/-- The last lines of `fixed`, `str8` and `str32`, for example dvar.rs 239-242. -/
def advance {σ : Type} (e : Enc) (w : Writer σ) (idx : Nat) : Step σ :=
  match e.cursor.move_step with
  | none => none
  | some c => some ({ e with level := { e.level with idx := idx }, cursor := c }, w, .ok)

/-- `Enc::fixed`, dvar.rs 227-243. -/
def fixed {σ : Type} (I : WriteImpl σ) (e : Enc) (w : Writer σ) (el : Element) (data : List UInt8) : Step σ :=
  e.expect w el <|
  e.io (alignExp2 I w e.level.idx el.dvarExp) fun w idx =>
  e.io (write I w idx data) fun w idx =>
  e.advance w idx

/-- `Enc::str8`, dvar.rs 245-266. A string is the list of its bytes. -/
def str8 {σ : Type} (I : WriteImpl σ) (e : Enc) (w : Writer σ) (el : Element) (data : List UInt8) : Step σ :=
  e.expect w el <|
  if data.length ≤ 255 then
    e.io (alignExp2 I w e.level.idx Element.u8.dvarExp) fun w idx =>
    e.io (write I w idx (enNum e.be 1 data.length)) fun w idx =>
    e.io (write I w idx data) fun w idx =>
    e.io (zero I w idx 1) fun w idx =>
    e.advance w idx
  else some (e, w, .brk (some .dataOverflow))

/-- `Enc::str32`, dvar.rs 268-289. -/
def str32 {σ : Type} (I : WriteImpl σ) (e : Enc) (w : Writer σ) (el : Element) (data : List UInt8) : Step σ :=
  e.expect w el <|
  if data.length ≤ 2 ^ 32 - 1 then
    e.io (alignExp2 I w e.level.idx Element.u32.dvarExp) fun w idx =>
    e.io (write I w idx (enNum e.be 4 data.length)) fun w idx =>
    e.io (write I w idx data) fun w idx =>
    e.io (zero I w idx 1) fun w idx =>
    e.advance w idx
  else some (e, w, .brk (some .dataOverflow))

end Enc

/-- `sig.into_iter().map(|v| v.code())`, dvar.rs 329. -/
def codeIter : Iter Cursor where
  next c := c.next.map fun (v, c) => (v.map Element.code, c)
  hint c := c.size_hint

namespace Enc

/-- `Enc::variant_with`, dvar.rs 315-340, and `variant`, 342-344. -/
def variant {σ : Type} (I : WriteImpl σ) (e : Enc) (w : Writer σ) (s : Sig) : Step σ :=
  e.expect w .variant <|
  match s.len with
  | none => none
  | some n =>
    if n ≤ 255 then
      e.io (alignExp2 I w e.level.idx Element.u8.dvarExp) fun w idx =>
      e.io (write I w idx (enNum e.be 1 n)) fun w idx =>
      match Cursor.new s with
      | none => none
      | some c =>
        e.io (writeIter I codeIter w idx c) fun w idx =>
        e.io (zero I w idx 1) fun w idx =>
        some ({ e with
          cursor := c
          level := ⟨idx, idx, idx⟩
          stack := (.variant, e.level, some e.cursor) :: e.stack }, w, .ok)
    else some (e, w, .brk (some .dataOverflow))

/-- `Enc::array`, dvar.rs 346-364. -/
def array {σ : Type} (I : WriteImpl σ) (e : Enc) (w : Writer σ) : Step σ :=
  e.expect w .array <|
  match e.cursor.down with
  | none => none
  | some none => none
  | some (some el) =>
    e.io (alignExp2 I w e.level.idx Element.u32.dvarExp) fun w start =>
    e.io (write I w start (enNum e.be 4 0)) fun w idx =>
    e.io (alignExp2 I w idx el.dvarExp) fun w idx =>
    match e.cursor.move_down with
    | none => none
    | some c => some ({ e with
        cursor := c
        level := ⟨idx, idx, start⟩
        stack := (.array, e.level, none) :: e.stack }, w, .ok)

/-- `Enc::structure`, dvar.rs 368-384, and `Enc::dict`, 386-402, which differ in the element. -/
def bracket {σ : Type} (I : WriteImpl σ) (e : Enc) (w : Writer σ) (el : Element) : Step σ :=
  e.expect w el <|
  match e.cursor.dvarExp with
  | none => none
  | some none => none
  | some (some exp) =>
    e.io (alignExp2 I w e.level.idx exp) fun w idx =>
    match e.cursor.move_down with
    | none => none
    | some c => some ({ e with
        cursor := c
        level := ⟨idx, idx, idx⟩
        stack := (el, e.level, none) :: e.stack }, w, .ok)

/-- The end of `Enc::close`, dvar.rs 436-449. -/
def pop {σ : Type} (e : Enc) (w : Writer σ) (upLevel : Level) (upCursor : Option Cursor)
    (stack : List (Element × Level × Option Cursor)) : Step σ :=
  match (match upCursor with | some c => some c | none => e.cursor.move_up) with
  | none => none
  | some c =>
    match c.move_step with
    | none => none
    | some c => some ({ e with level := { upLevel with idx := e.level.idx }, cursor := c, stack := stack }, w, .ok)

/-- `Enc::close`, dvar.rs 404-450. -/
def close {σ : Type} (I : WriteImpl σ) (e : Enc) (w : Writer σ) : Step σ :=
  match e.cursor.idx_step with
  | none => none
  | some (some _) => some (e, w, .brk (some .mismatch))
  | some none =>
    match e.stack with
    | [] => some (e, w, .brk (some .mismatch))
    | (el, upLevel, upCursor) :: stack =>
      match el with
      | .variant => e.pop w upLevel upCursor stack
      | .array =>
        match strictSub e.level.idx e.level.from_ with
        | none => none
        | some n =>
          if n > 0 then
            if n ≤ 2 ^ 32 - 1 then
              e.io (write I w e.level.meta_ (enNum e.be 4 n)) fun w _ => e.pop w upLevel upCursor stack
            else some (e, w, .brk (some .dataOverflow))
          else e.pop w upLevel upCursor stack
      | .structOpen => e.pop w upLevel upCursor stack
      | .dictOpen => e.pop w upLevel upCursor stack
      | _ => none

/-- `Enc::commit`, dvar.rs 176-193. -/
def commit {σ : Type} (I : WriteImpl σ) (e : Enc) (w : Writer σ) : Step σ :=
  match e.cursor.idx_step with
  | none => none
  | some step =>
    if step.isSome || !e.stack.isEmpty then some (e, w, .brk (some .pending))
    else if e.link.isSome then some ({ e with link := none, handed := some e.level.idx, done := true }, w, .ok)
    else if !e.done then some ({ e with done := true }, ⟨I.commit w.st e.level.idx, w.mem⟩, .ok)
    else some (e, w, .ok)

/-- `Enc::enc`, dvar.rs 143-164: a sub-encoder, or a mismatch. -/
def sub (e : Enc) : Option (Option Enc) := do
  let step ← e.cursor.idx_step
  match ← e.cursor.sigAt with
  | none => some none
  | some v => do
    let c ← Cursor.new v
    some (some ⟨false, e.be, c, ⟨e.level.idx, e.level.idx, e.level.idx⟩, [], some step, none⟩)

/-- `Enc::enc_with`, dvar.rs 166-174. -/
def subWith (e : Enc) (s : Sig) : Option (Option Enc) := do
  match ← e.cursor.sigAt with
  | none => some none
  | some v => do
    if ← s.eq v then e.sub else some none

/-- What remains of a sub-encoder, dvar.rs 181-186: the parent goes on behind the data if it was committed. -/
def merge (e : Enc) (x : Enc) (step : Option Nat) : Enc :=
  match x.handed with
  | none => e
  | some idx => { e with level := { e.level with idx := idx }, cursor := e.cursor.maybe_move step }

end Enc

/-- The calls of the encoder. `sub` is a sub-encoder with or without explicit signature, the calls made on it, and
its end. -/
inductive Op
  | u16 (v : BitVec 16)
  | u32 (v : BitVec 32)
  | u64 (v : BitVec 64)
  | string (s : List UInt8)
  | object (s : List UInt8)
  | signature (s : List UInt8)
  | variant (s : Sig)
  | array
  | structure
  | dict
  | close
  | commit
  | sub (s : Option Sig) (ops : List Op)

/-- The results of a call: that of the call itself, and those of the calls of a sub-encoder if there is one. -/
inductive Out
  | res (r : DRes)
  | sub (outs : List Out)

mutual
/-- A call: dvar.rs 291-313 for the basic types. -/
def Op.run {σ : Type} (I : WriteImpl σ) : Op → Enc → Writer σ → Option (Enc × Writer σ × Out)
  | .u16 v, e, w => (e.fixed I w .u16 (enNum e.be 2 v.toNat)).map fun (e, w, r) => (e, w, .res r)
  | .u32 v, e, w => (e.fixed I w .u32 (enNum e.be 4 v.toNat)).map fun (e, w, r) => (e, w, .res r)
  | .u64 v, e, w => (e.fixed I w .u64 (enNum e.be 8 v.toNat)).map fun (e, w, r) => (e, w, .res r)
  | .string s, e, w => (e.str32 I w .string s).map fun (e, w, r) => (e, w, .res r)
  | .object s, e, w => (e.str32 I w .object s).map fun (e, w, r) => (e, w, .res r)
  | .signature s, e, w => (e.str8 I w .signature s).map fun (e, w, r) => (e, w, .res r)
  | .variant s, e, w => (e.variant I w s).map fun (e, w, r) => (e, w, .res r)
  | .array, e, w => (e.array I w).map fun (e, w, r) => (e, w, .res r)
  | .structure, e, w => (e.bracket I w .structOpen).map fun (e, w, r) => (e, w, .res r)
  | .dict, e, w => (e.bracket I w .dictOpen).map fun (e, w, r) => (e, w, .res r)
  | .close, e, w => (e.close I w).map fun (e, w, r) => (e, w, .res r)
  | .commit, e, w => (e.commit I w).map fun (e, w, r) => (e, w, .res r)
  | .sub s ops, e, w =>
    match (match s with | none => e.sub | some s => e.subWith s) with
    | none => none
    | some none => some (e, w, .res (.brk (some .mismatch)))
    | some (some x) =>
      match Op.runs I ops x w with
      | none => none
      | some (x', w, outs) => some (e.merge x' (x.link.bind id), w, .sub outs)
/-- Several calls, one after the other. -/
def Op.runs {σ : Type} (I : WriteImpl σ) : List Op → Enc → Writer σ → Option (Enc × Writer σ × List Out)
  | [], e, w => some (e, w, [])
  | op :: ops, e, w =>
    match Op.run I op e w with
    | none => none
    | some (e, w, o) =>
      match Op.runs I ops e w with
      | none => none
      | some (e, w, os) => some (e, w, o :: os)
end

/-- Encoding into an empty vector, for examples. -/
def encTo (be : Bool) (sig : String) (ops : List Op) : Option (List UInt8) :=
  match Sig.new (sb sig) with
  | .ok s =>
    match Enc.with_ s be with
    | none => none
    | some e =>
      match Op.runs vecWrite ops e (vecOf []) with
      | none => none
      | some (_, w, _) => vecBytes w
  | _ => none

/-- The signature of a string, for examples. -/
def sg (s : String) : Sig :=
  match Sig.new (sb s) with
  | .ok s => s
  | _ => ⟨.node8, []⟩

-- The cases of the tests, dvar.rs 748-819.
#guard encTo false "as" [.array, .string (sb "foo"), .string (sb "bar"), .close, .commit]
  = some (sb "\x10\x00\x00\x00\x03\x00\x00\x00foo\x00\x03\x00\x00\x00bar\x00")
#guard encTo false "a{sv}" [.array, .dict, .string (sb "foo"), .variant (sg "s"), .string (sb "bar"), .close, .close, .close, .commit]
  = some (sb "\x14\x00\x00\x00\x00\x00\x00\x00\x03\x00\x00\x00foo\x00\x01s\x00\x00\x03\x00\x00\x00bar\x00")
#guard encTo false "as" [.sub (some (sg "as")) [.array, .sub none [.string (sb "000"), .commit],
    .sub none [.string (sb "001"), .commit], .string (sb "002"), .string (sb "003"), .close, .commit], .commit]
  = some (sb "\x20\x00\x00\x00\x03\x00\x00\x00000\x00\x03\x00\x00\x00001\x00\x03\x00\x00\x00002\x00\x03\x00\x00\x00003\x00")
#guard encTo true "(qu)" [.structure, .u16 7, .u32 9, .close, .commit] = some [0, 7, 0, 0, 0, 0, 0, 9]

end Verif.Dbus
