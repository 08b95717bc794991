import Verif.Dbus.ModelDec
/-! # Model of the D-Bus encoder and decoder with panics that are caught, `lib/tmp/src/fmt/dbus/dvar.rs`

The same functions as in `ModelDvar.lean` and `ModelDec.lean`, with what is left of the encoder, the decoder and the writer if a call panics, be it since the
writer or the reader does (`Flow.fault`), or by itself. Effects are in the order of the code. -/
namespace Verif.Dbus
open Verif.Io

/-- A writer whose `commit` may panic as well: `dies` tells when. It has done what `commit` says then. -/
structure WriteImplU (σ : Type) extends WriteImpl σ where
  dies : σ → Nat → Bool

/-- Outcome of a call. -/
inductive DResU
  | ok
  | brk (e : Option DErr)
  | panic
deriving DecidableEq, Repr

/-- What a call leaves behind. -/
abbrev StepU (σ : Type) := Enc × Writer σ × DResU

namespace Enc

/-- `Enc::write`, `write_iter`, `zero`, `align` followed by `?`, dvar.rs 195-225. -/
def ioU {σ : Type} (e : Enc) (r : WriteOut σ) (k : Writer σ → Nat → StepU σ) : StepU σ :=
  match r.flow with
  | .cont _ => k r.w r.idx
  | .brk x => (e, r.w, .brk (x.map .io))
  | .fault => (e, r.w, .panic)

/-- The element check of all calls, for example dvar.rs 232-234. -/
def expectU {σ : Type} (e : Enc) (w : Writer σ) (el : Element) (k : StepU σ) : StepU σ :=
  match e.cursor.element with
  | none => (e, w, .panic)
  | some x => if x ≠ some el then (e, w, .brk (some .mismatch)) else k

/-- The last lines of `fixed`, `str8` and `str32`, for example dvar.rs 239-242: first the level, then the cursor. -/
def advanceU {σ : Type} (e : Enc) (w : Writer σ) (idx : Nat) : StepU σ :=
  let e := { e with level := { e.level with idx := idx } }
  match e.cursor.move_step with
  | none => (e, w, .panic)
  | some c => ({ e with cursor := c }, w, .ok)

/-- `Enc::fixed`, dvar.rs 227-243. -/
def fixedU {σ : Type} (I : WriteImpl σ) (e : Enc) (w : Writer σ) (el : Element) (data : List UInt8) : StepU σ :=
  e.expectU w el <|
  e.ioU (alignExp2 I w e.level.idx el.dvarExp) fun w idx =>
  e.ioU (write I w idx data) fun w idx =>
  e.advanceU w idx

/-- `Enc::str8`, dvar.rs 245-266. -/
def str8U {σ : Type} (I : WriteImpl σ) (e : Enc) (w : Writer σ) (el : Element) (data : List UInt8) : StepU σ :=
  e.expectU w el <|
  if data.length ≤ 255 then
    e.ioU (alignExp2 I w e.level.idx Element.u8.dvarExp) fun w idx =>
    e.ioU (write I w idx (enNum e.be 1 data.length)) fun w idx =>
    e.ioU (write I w idx data) fun w idx =>
    e.ioU (zero I w idx 1) fun w idx =>
    e.advanceU w idx
  else (e, w, .brk (some .dataOverflow))

/-- `Enc::str32`, dvar.rs 268-289. -/
def str32U {σ : Type} (I : WriteImpl σ) (e : Enc) (w : Writer σ) (el : Element) (data : List UInt8) : StepU σ :=
  e.expectU w el <|
  if data.length ≤ 2 ^ 32 - 1 then
    e.ioU (alignExp2 I w e.level.idx Element.u32.dvarExp) fun w idx =>
    e.ioU (write I w idx (enNum e.be 4 data.length)) fun w idx =>
    e.ioU (write I w idx data) fun w idx =>
    e.ioU (zero I w idx 1) fun w idx =>
    e.advanceU w idx
  else (e, w, .brk (some .dataOverflow))

/-- `Enc::variant_with`, dvar.rs 315-340, and `variant`, 342-344. -/
def variantU {σ : Type} (I : WriteImpl σ) (e : Enc) (w : Writer σ) (s : Sig) : StepU σ :=
  e.expectU w .variant <|
  match s.len with
  | none => (e, w, .panic)
  | some n =>
    if n ≤ 255 then
      e.ioU (alignExp2 I w e.level.idx Element.u8.dvarExp) fun w idx =>
      e.ioU (write I w idx (enNum e.be 1 n)) fun w idx =>
      match Cursor.new s with
      | none => (e, w, .panic)
      | some c =>
        e.ioU (writeIter I codeIter w idx c) fun w idx =>
        e.ioU (zero I w idx 1) fun w idx =>
        ({ e with
          cursor := c
          level := ⟨idx, idx, idx⟩
          stack := (.variant, e.level, some e.cursor) :: e.stack }, w, .ok)
    else (e, w, .brk (some .dataOverflow))

/-- The end of `array`, `structure` and `dict`, for example dvar.rs 359-363: level and stack, then the cursor. -/
def enterU {σ : Type} (e : Enc) (w : Writer σ) (el : Element) (L : Level) : StepU σ :=
  let e := { e with level := L, stack := (el, e.level, none) :: e.stack }
  match e.cursor.move_down with
  | none => (e, w, .panic)
  | some c => ({ e with cursor := c }, w, .ok)

/-- `Enc::array`, dvar.rs 346-364. -/
def arrayU {σ : Type} (I : WriteImpl σ) (e : Enc) (w : Writer σ) : StepU σ :=
  e.expectU w .array <|
  match e.cursor.down with
  | none => (e, w, .panic)
  | some none => (e, w, .panic)
  | some (some el) =>
    e.ioU (alignExp2 I w e.level.idx Element.u32.dvarExp) fun w start =>
    e.ioU (write I w start (enNum e.be 4 0)) fun w idx =>
    e.ioU (alignExp2 I w idx el.dvarExp) fun w idx =>
    e.enterU w .array ⟨idx, idx, start⟩

/-- `Enc::structure`, dvar.rs 368-384, and `Enc::dict`, 386-402, which differ in the element. -/
def bracketU {σ : Type} (I : WriteImpl σ) (e : Enc) (w : Writer σ) (el : Element) : StepU σ :=
  e.expectU w el <|
  match e.cursor.dvarExp with
  | none => (e, w, .panic)
  | some none => (e, w, .panic)
  | some (some exp) =>
    e.ioU (alignExp2 I w e.level.idx exp) fun w idx =>
    e.enterU w el ⟨idx, idx, idx⟩

/-- The end of `Enc::close`, dvar.rs 436-449: levels are swapped, cursors are swapped or moved up, the cursor is moved on, and only then the stack is popped. -/
def popU {σ : Type} (e : Enc) (w : Writer σ) (el : Element) (upLevel : Level) (upCursor : Option Cursor)
    (stack : List (Element × Level × Option Cursor)) : StepU σ :=
  let e' := { e with level := { upLevel with idx := e.level.idx } }
  match upCursor with
  | some c =>
    match c.move_step with
    | none => ({ e' with cursor := c, stack := (el, e.level, some e.cursor) :: stack }, w, .panic)
    | some c => ({ e' with cursor := c, stack := stack }, w, .ok)
  | none =>
    match e.cursor.move_up with
    | none => ({ e' with stack := (el, e.level, none) :: stack }, w, .panic)
    | some c =>
      match c.move_step with
      | none => ({ e' with cursor := c, stack := (el, e.level, none) :: stack }, w, .panic)
      | some c => ({ e' with cursor := c, stack := stack }, w, .ok)

/-- `Enc::close`, dvar.rs 404-450. -/
def closeU {σ : Type} (I : WriteImpl σ) (e : Enc) (w : Writer σ) : StepU σ :=
  match e.cursor.idx_step with
  | none => (e, w, .panic)
  | some (some _) => (e, w, .brk (some .mismatch))
  | some none =>
    match e.stack with
    | [] => (e, w, .brk (some .mismatch))
    | (el, upLevel, upCursor) :: stack =>
      match el with
      | .variant => e.popU w el upLevel upCursor stack
      | .array =>
        match strictSub e.level.idx e.level.from_ with
        | none => (e, w, .panic)
        | some n =>
          if n > 0 then
            if n ≤ 2 ^ 32 - 1 then
              e.ioU (write I w e.level.meta_ (enNum e.be 4 n)) fun w _ => e.popU w el upLevel upCursor stack
            else (e, w, .brk (some .dataOverflow))
          else e.popU w el upLevel upCursor stack
      | .structOpen => e.popU w el upLevel upCursor stack
      | .dictOpen => e.popU w el upLevel upCursor stack
      | _ => (e, w, .panic)

/-- `Enc::commit`, dvar.rs 176-193: `done` is set when the writer has committed. -/
def commitU {σ : Type} (I : WriteImplU σ) (e : Enc) (w : Writer σ) : StepU σ :=
  match e.cursor.idx_step with
  | none => (e, w, .panic)
  | some step =>
    if step.isSome || !e.stack.isEmpty then (e, w, .brk (some .pending))
    else if e.link.isSome then ({ e with link := none, handed := some e.level.idx, done := true }, w, .ok)
    else if !e.done then
      if I.dies w.st e.level.idx then (e, ⟨I.commit w.st e.level.idx, w.mem⟩, .panic)
      else ({ e with done := true }, ⟨I.commit w.st e.level.idx, w.mem⟩, .ok)
    else (e, w, .ok)

end Enc

/-- The results of a call: that of the call itself, and those of the calls of a sub-encoder if there is one. -/
inductive OutU
  | res (r : DResU)
  | sub (outs : List OutU)

mutual
/-- A call: dvar.rs 291-313 for the basic types. A sub-encoder has no destructor, so that the same is left of it however it goes. -/
def Op.runU {σ : Type} (I : WriteImplU σ) : Op → Enc → Writer σ → Enc × Writer σ × OutU
  | .u16 v, e, w => let r := e.fixedU I.toWriteImpl w .u16 (enNum e.be 2 v.toNat); (r.1, r.2.1, .res r.2.2)
  | .u32 v, e, w => let r := e.fixedU I.toWriteImpl w .u32 (enNum e.be 4 v.toNat); (r.1, r.2.1, .res r.2.2)
  | .u64 v, e, w => let r := e.fixedU I.toWriteImpl w .u64 (enNum e.be 8 v.toNat); (r.1, r.2.1, .res r.2.2)
  | .string s, e, w => let r := e.str32U I.toWriteImpl w .string s; (r.1, r.2.1, .res r.2.2)
  | .object s, e, w => let r := e.str32U I.toWriteImpl w .object s; (r.1, r.2.1, .res r.2.2)
  | .signature s, e, w => let r := e.str8U I.toWriteImpl w .signature s; (r.1, r.2.1, .res r.2.2)
  | .variant s, e, w => let r := e.variantU I.toWriteImpl w s; (r.1, r.2.1, .res r.2.2)
  | .array, e, w => let r := e.arrayU I.toWriteImpl w; (r.1, r.2.1, .res r.2.2)
  | .structure, e, w => let r := e.bracketU I.toWriteImpl w .structOpen; (r.1, r.2.1, .res r.2.2)
  | .dict, e, w => let r := e.bracketU I.toWriteImpl w .dictOpen; (r.1, r.2.1, .res r.2.2)
  | .close, e, w => let r := e.closeU I.toWriteImpl w; (r.1, r.2.1, .res r.2.2)
  | .commit, e, w => let r := e.commitU I w; (r.1, r.2.1, .res r.2.2)
  | .sub s ops, e, w =>
    match (match s with | none => e.sub | some s => e.subWith s) with
    | none => (e, w, .res .panic)
    | some none => (e, w, .res (.brk (some .mismatch)))
    | some (some x) =>
      let r := Op.runsU I ops x w
      (e.merge r.1 (x.link.bind id), r.2.1, .sub r.2.2)
/-- Several calls, one after the other, whether they panic or not. -/
def Op.runsU {σ : Type} (I : WriteImplU σ) : List Op → Enc → Writer σ → Enc × Writer σ × List OutU
  | [], e, w => (e, w, [])
  | op :: ops, e, w =>
    let r := Op.runU I op e w
    let q := Op.runsU I ops r.1 r.2.1
    (q.1, q.2.1, r.2.2 :: q.2.2)
end

/-! ## The decoder -/

/-- Answers of the decoder, or a panic. -/
inductive AnsU
  | u16 (v : BitVec 16)
  | str (s : List UInt8)
  | ok
  | brk (e : Option DErr)
  | more (b : Bool)
  | sub (l : List AnsU)
  | panic

/-- What a call leaves behind. -/
abbrev DStepU (σ : Type) := Dec × σ × AnsU

namespace Dec

/-- `Dec::read` and `read_uninit` followed by `?`, dvar.rs 538-552. -/
def ioU {σ : Type} (d : Dec) (r : ReadOut σ) (k : σ → Nat → List UInt8 → DStepU σ) : DStepU σ :=
  match r.flow with
  | .cont _ => k r.st r.idx r.out
  | .brk x => (d, r.st, .brk (x.map .io))
  | .fault => (d, r.st, .panic)

/-- `Dec::align` followed by `?`, dvar.rs 554-566. -/
def alignU {σ : Type} (d : Dec) (st : σ) (idx exp : Nat) (k : Nat → DStepU σ) : DStepU σ :=
  match shl1 exp with
  | none => (d, st, .panic)
  | some m =>
    match checkedNextMultipleOf idx m with
    | none => (d, st, .brk (some (.io .overflow)))
    | some v => k v

/-- The element check of all calls, for example dvar.rs 573-575. -/
def expectU {σ : Type} (d : Dec) (st : σ) (el : Element) (k : DStepU σ) : DStepU σ :=
  match d.cursor.element with
  | none => (d, st, .panic)
  | some x => if x ≠ some el then (d, st, .brk (some .mismatch)) else k

/-- The last lines of `fixed`, `str8` and `str32`, for example dvar.rs 580-583. -/
def advanceU {σ : Type} (d : Dec) (st : σ) (idx : Nat) (a : AnsU) : DStepU σ :=
  let d := { d with level := { d.level with idx := idx } }
  match d.cursor.move_step with
  | none => (d, st, .panic)
  | some c => ({ d with cursor := c }, st, a)

/-- `Dec::u16`, dvar.rs 664-669, with `fixed`, 568-584. -/
def u16U {σ : Type} (I : ReadImpl σ) (d : Dec) (st : σ) : DStepU σ :=
  d.expectU st .u16 <|
  d.alignU st d.level.idx Element.u16.dvarExp fun idx =>
  d.ioU (read I st idx 2) fun st idx out =>
  d.advanceU st idx (.u16 (BitVec.ofNat 16 (deNum d.be out)))

/-- The second half of `str8` and `str32`, dvar.rs 603-622 and 642-661. -/
def textU {σ : Type} (I : ReadImpl σ) (d : Dec) (st : σ) (idx len : Nat) : DStepU σ :=
  d.ioU (read I st idx len) fun st idx out =>
  if Args.isUtf8 out then
    if idx + 1 ≤ usizeMax then d.advanceU st (idx + 1) (.str out) else (d, st, .panic)
  else (d, st, .brk (some .dataNonUtf8))

/-- `Dec::str8`, dvar.rs 586-623. -/
def str8U {σ : Type} (I : ReadImpl σ) (d : Dec) (st : σ) (el : Element) : DStepU σ :=
  d.expectU st el <|
  d.alignU st d.level.idx Element.u8.dvarExp fun idx =>
  d.ioU (read I st idx 1) fun st idx out =>
  d.textU I st idx (deNum d.be out)

/-- `Dec::str32`, dvar.rs 625-662. -/
def str32U {σ : Type} (I : ReadImpl σ) (d : Dec) (st : σ) (el : Element) : DStepU σ :=
  d.expectU st el <|
  d.alignU st d.level.idx Element.u32.dvarExp fun idx =>
  d.ioU (read I st idx 4) fun st idx out =>
  d.textU I st idx (deNum d.be out)

/-- `Dec::array`, dvar.rs 679-698. -/
def arrayU {σ : Type} (I : ReadImpl σ) (d : Dec) (st : σ) : DStepU σ :=
  d.expectU st .array <|
  match d.cursor.down with
  | none => (d, st, .panic)
  | some none => (d, st, .panic)
  | some (some el) =>
    d.alignU st d.level.idx Element.u32.dvarExp fun idx =>
    d.ioU (read I st idx 4) fun st idx out =>
    d.alignU st idx el.dvarExp fun idx =>
    let d := { d with level := ⟨idx, d.level.from_, deNum d.be out⟩, stack := (.array, d.level, none) :: d.stack }
    match d.cursor.move_down with
    | none => (d, st, .panic)
    | some c => ({ d with cursor := c }, st, .ok)

/-- The end of `Dec::close`, dvar.rs 726-738. -/
def popU {σ : Type} (d : Dec) (st : σ) (el : Element) (upLevel : Level) (upCursor : Option Cursor)
    (stack : List (Element × Level × Option Cursor)) : DStepU σ :=
  let d' := { d with level := { upLevel with idx := d.level.idx } }
  match upCursor with
  | some c =>
    match c.move_step with
    | none => ({ d' with cursor := c, stack := (el, d.level, some d.cursor) :: stack }, st, .panic)
    | some c => ({ d' with cursor := c, stack := stack }, st, .ok)
  | none =>
    match d.cursor.move_up with
    | none => ({ d' with stack := (el, d.level, none) :: stack }, st, .panic)
    | some c =>
      match c.move_step with
      | none => ({ d' with cursor := c, stack := (el, d.level, none) :: stack }, st, .panic)
      | some c => ({ d' with cursor := c, stack := stack }, st, .ok)

/-- `Dec::close`, dvar.rs 700-739. -/
def closeU {σ : Type} (d : Dec) (st : σ) : DStepU σ :=
  match d.cursor.idx_step with
  | none => (d, st, .panic)
  | some (some _) => (d, st, .brk (some .mismatch))
  | some none =>
    match d.stack with
    | [] => (d, st, .brk (some .mismatch))
    | (el, upLevel, upCursor) :: stack =>
      match el with
      | .variant => d.popU st el upLevel upCursor stack
      | .array => d.popU st el upLevel upCursor stack
      | .structOpen => d.popU st el upLevel upCursor stack
      | .dictOpen => d.popU st el upLevel upCursor stack
      | _ => (d, st, .panic)

/-- `Dec::commit`, dvar.rs 523-536. -/
def commitU {σ : Type} (d : Dec) (st : σ) : DStepU σ :=
  match d.cursor.idx_step with
  | none => (d, st, .panic)
  | some step =>
    if step.isSome || !d.stack.isEmpty then (d, st, .brk (some .pending))
    else if d.link.isSome then ({ d with link := none, handed := some d.level.idx }, st, .ok)
    else (d, st, .ok)

end Dec

mutual
/-- A call. `string` and `signature`: dvar.rs 671-677. -/
def Ask.runU {σ : Type} (I : ReadImpl σ) : Ask → Dec → σ → DStepU σ
  | .u16, d, st => d.u16U I st
  | .string, d, st => d.str32U I st .string
  | .signature, d, st => d.str8U I st .signature
  | .array, d, st => d.arrayU I st
  | .close, d, st => d.closeU st
  | .commit, d, st => d.commitU st
  | .more, d, st => (d, st, .more d.more)
  | .sub s l, d, st =>
    match (match s with | none => d.sub | some s => d.subWith s) with
    | none => (d, st, .panic)
    | some none => (d, st, .brk (some .mismatch))
    | some (some x) =>
      let r := Ask.runsU I l x st
      (d.merge r.1 (x.link.bind id), r.2.1, .sub r.2.2)
/-- Several calls, one after the other, whether they panic or not. -/
def Ask.runsU {σ : Type} (I : ReadImpl σ) : List Ask → Dec → σ → Dec × σ × List AnsU
  | [], d, st => (d, st, [])
  | x :: l, d, st =>
    let r := Ask.runU I x d st
    let q := Ask.runsU I l r.1 r.2.1
    (q.1, q.2.1, r.2.2 :: q.2.2)
end

end Verif.Dbus
