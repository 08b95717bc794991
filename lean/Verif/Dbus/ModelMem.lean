import Verif.Dbus.ModelDec
/-! # Model of the memory a D-Bus decoder asks for, `lib/tmp/src/fmt/dbus/dvar.rs` 586-662

`ModelDec` leaves allocations out. This is the same decoder on a machine: `Vec::with_capacity` (lines 604 and 643) is a
step of its own. It panics for more than `isize::MAX` bytes (documentation of `Vec::with_capacity`), and does not return
if the allocator has not got the memory (`handle_alloc_error`). The only other allocations of the decoder are those of
its stack, whose length is that of `Dec.stack`; they are small and taken to be granted. Sizes of `usize` matter
for `with_capacity` only: positions stay within one byte of the data, and lengths have 32 bits. -/
namespace Verif.Dbus
open Verif.Io

/-- A machine: the largest size of an object, and the largest request its allocator grants. -/
structure Machine where
  isizeMax : Nat
  free : Nat

/-- How a call ends. -/
inductive Fate (α : Type)
  | done (a : α)
  | panic
  | noMemory
deriving DecidableEq, Repr

/-- The requests made to `Vec::with_capacity`, and how the call ends. -/
abbrev MStep (α : Type) := List Nat × Fate α

/-- A step that makes no request. -/
def MStep.ofStep {α : Type} : Option α → MStep α
  | some a => ([], .done a)
  | none => ([], .panic)

/-- `Vec::with_capacity`, and what follows. -/
def withCapacity {α : Type} (m : Machine) (n : Nat) (k : MStep α) : MStep α :=
  if m.isizeMax < n then ([n], .panic)
  else if m.free < n then ([n], .noMemory)
  else (n :: k.1, k.2)

namespace Dec

/-- `Dec::str8` and `Dec::str32`, dvar.rs 586-623 and 625-662. They differ in the width of the length, `w` bytes of
alignment `lenEl`. -/
def strM {σ : Type} (m : Machine) (I : ReadImpl σ) (d : Dec) (st : σ) (el lenEl : Element) (w : Nat) : MStep (Dec × σ × Ans) :=
  match d.cursor.element with
  | none => ([], .panic)
  | some x =>
    if x ≠ some el then ([], .done (d, st, .brk (some .mismatch)))
    else
      match shl1 lenEl.dvarExp with
      | none => ([], .panic)
      | some a =>
        match checkedNextMultipleOf d.level.idx a with
        | none => ([], .done (d, st, .brk (some (.io .overflow))))
        | some idx =>
          let r := read I st idx w
          match r.flow with
          | .fault => ([], .panic)
          | .brk e => ([], .done (d, r.st, .brk (e.map .io)))
          | .cont _ => withCapacity m (deNum d.be r.out) (MStep.ofStep (d.text I r.st r.idx (deNum d.be r.out)))

/-- `Dec::dec` or `Dec::dec_with`. -/
def subOf (d : Dec) : Option Sig → Option (Option Dec)
  | none => d.sub
  | some s => d.subWith s

end Dec

mutual
/-- A call. -/
def Ask.runM {σ : Type} (m : Machine) (I : ReadImpl σ) : Ask → Dec → σ → MStep (Dec × σ × Ans)
  | .u16, d, st => .ofStep (d.u16 I st)
  | .string, d, st => d.strM m I st .string .u32 4
  | .signature, d, st => d.strM m I st .signature .u8 1
  | .array, d, st => .ofStep (d.array I st)
  | .close, d, st => .ofStep (d.close st)
  | .commit, d, st => .ofStep (d.commit st)
  | .more, d, st => ([], .done (d, st, .more d.more))
  | .sub s l, d, st =>
    match d.subOf s with
    | none => ([], .panic)
    | some none => ([], .done (d, st, .brk (some .mismatch)))
    | some (some x) =>
      match Ask.runsM m I l x st with
      | (q, .panic) => (q, .panic)
      | (q, .noMemory) => (q, .noMemory)
      | (q, .done (x', st, as)) => (q, .done (d.merge x' (x.link.bind id), st, .sub as))
/-- Several calls, one after the other. -/
def Ask.runsM {σ : Type} (m : Machine) (I : ReadImpl σ) : List Ask → Dec → σ → MStep (Dec × σ × List Ans)
  | [], d, st => ([], .done (d, st, []))
  | x :: l, d, st =>
    match Ask.runM m I x d st with
    | (q, .panic) => (q, .panic)
    | (q, .noMemory) => (q, .noMemory)
    | (q, .done (d, st, a)) =>
      match Ask.runsM m I l d st with
      | (q', .panic) => (q ++ q', .panic)
      | (q', .noMemory) => (q ++ q', .noMemory)
      | (q', .done (d, st, as)) => (q ++ q', .done (d, st, a :: as))
end

/-- Decoding from a slice on a machine, for examples. -/
def decFromM (m : Machine) (be : Bool) (sig : String) (data : List UInt8) (l : List Ask) : Option (MStep (List Ans)) :=
  match Sig.new (sb sig) with
  | .ok s =>
    match Dec.with_ s be with
    | none => none
    | some d =>
      match Ask.runsM m (sliceRead data) l d () with
      | (q, .done (_, _, as)) => some (q, .done as)
      | (q, .panic) => some (q, .panic)
      | (q, .noMemory) => some (q, .noMemory)
  | _ => none

end Verif.Dbus
