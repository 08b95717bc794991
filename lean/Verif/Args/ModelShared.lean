import Verif.Args.ModelReport
/-! # Model: shared report targets, with calls back into the caller and panics

`Shared` (`lib/osi/src/args/report.rs` 101-106) hands reports on to a target in a cell that the caller has access to as well. While
the target handles a report, it can call the caller through its context (report.rs 121-151): its parser report and its command
report. These may access the cell, call other shared reports of the same cell, and panic. The caller's code is a program over the
operations of the cell, whose results it sees; `ε` is the rest of the caller's state, and `R` what reports stop with. Panics unwind,
and drop the guards of the frames they pass; a target does not catch them and does nothing else while they pass. `RefCell` and
`Cell` are those of the standard library; that the number of guards can overflow (`isize::MAX` guards) is left out. -/
namespace Verif.Args.Sharing

/-- What a target can ask its context for, report.rs 121-151: `report_error` of the parser report and `report_parameter` of the
command report. -/
inductive Query
  | error (x : Error)
  | parameter (value : Option Bytes)
deriving DecidableEq, Repr

/-- How code of the caller, or a report, ends: it returns, or it panics. `none` is `ControlFlow::Continue`. -/
inductive Ended (ε R : Type)
  | ret (e : ε) (r : Option R)
  | panic (e : ε)
deriving DecidableEq, Repr

/-- A target's handling of a report, `FlagReport` for `Inner` (report.rs 31-68), as any program: it returns, panics, or calls its
context. `t` is what the target is at that moment. -/
inductive Inner (T ε R : Type)
  | ret (t : T) (e : ε) (r : Option R)
  | panic (t : T) (e : ε)
  | call (t : T) (e : ε) (q : Query) (k : T → ε → Option R → Inner T ε R)

/-! ## `RefCell` -/

/-- Guards that the caller keeps: `Ref`s or a `RefMut`, in its state or forgotten. -/
inductive Guards
  | none
  | refs (n : Nat)
  | refMut
deriving DecidableEq, Repr

/-- `core::cell::RefCell`: 0 is not borrowed, positive numbers count `Ref`s, and -1 is a `RefMut`. With the guards that the caller
keeps: `refs n` are `n + 1` of them. -/
structure RefCell (T : Type) where
  value : T
  flag : Int
  held : Guards
deriving DecidableEq, Repr

/-- Code of the caller with access to a `RefCell`. Panicking variants (`borrow`) are those that panic if they get `none`. Without a
guard, `via` and `release` do nothing: there is nothing they could be called on. -/
inductive RefCode (T ε R : Type)
  | ret (e : ε) (r : Option R)
  | panic (e : ε)
  /-- `try_borrow`, look, drop the guard -/
  | read (k : Option T → RefCode T ε R)
  /-- `try_borrow_mut`, change, drop the guard -/
  | write (f : T → T) (k : Option T → RefCode T ε R)
  /-- `try_borrow`, keep the guard -/
  | hold (k : Option T → RefCode T ε R)
  /-- `try_borrow_mut`, keep the guard -/
  | holdMut (k : Option T → RefCode T ε R)
  /-- change through a `RefMut` that was kept -/
  | via (f : T → T) (k : Option T → RefCode T ε R)
  /-- drop a guard that was kept -/
  | release (k : RefCode T ε R)

section
variable {T ε R : Type}

/-- One more `Ref`. -/
def Guards.more : Guards → Guards
  | .none => .refs 0
  | .refs n => .refs (n + 1)
  | .refMut => .refMut

/-- One guard less. -/
def Guards.less : Guards → Guards
  | .refs (n + 1) => .refs n
  | _ => .none

/-- What dropping one of the caller's guards does to the flag of the cell: `BorrowRef::drop` and `BorrowRefMut::drop` of the
standard library. -/
def RefCell.dropped (c : RefCell T) : RefCell T :=
  match c.held with
  | .none => c
  | .refs _ => { c with flag := c.flag - 1, held := c.held.less }
  | .refMut => { c with flag := c.flag + 1, held := .none }

/-- The caller's code on a `RefCell`. -/
def RefCode.run : RefCode T ε R → RefCell T → RefCell T × Ended ε R
  | .ret e r, c => (c, .ret e r)
  | .panic e, c => (c, .panic e)
  | .read k, c => if 0 ≤ c.flag then (k (some c.value)).run c else (k none).run c
  | .write f k, c =>
    if c.flag = 0 then (k (some (f c.value))).run { c with value := f c.value } else (k none).run c
  | .hold k, c =>
    if 0 ≤ c.flag then (k (some c.value)).run { c with flag := c.flag + 1, held := c.held.more } else (k none).run c
  | .holdMut k, c =>
    if c.flag = 0 then (k (some c.value)).run { c with flag := c.flag - 1, held := .refMut } else (k none).run c
  | .via f k, c =>
    match c.held with
    | .refMut => (k (some (f c.value))).run { c with value := f c.value }
    | _ => (k none).run c
  | .release k, c => k.run c.dropped

/-- A target in a borrowed cell: it is changed in place, and the context's reports are called meanwhile. -/
def Inner.onRef (H : ε → Query → RefCode T ε R) : Inner T ε R → RefCell T → RefCell T × Ended ε R
  | .ret t e r, c => ({ c with value := t }, .ret e r)
  | .panic t e, c => ({ c with value := t }, .panic e)
  | .call t e q k, c =>
    match (H e q).run { c with value := t } with
    | (c', .ret e' r) => (k c'.value e' r).onRef H c'
    | (c', .panic e') => (c', .panic e')

/-- `FlagReport for Shared<RefCell<Inner>>`, report.rs 689-718: `self.inner.borrow_mut().report_*(…)`. `borrow_mut` panics if the
cell is borrowed; the guard is dropped at the end of the statement, or when a panic passes. -/
def refReport (H : ε → Query → RefCode T ε R) (inner : T → ε → Inner T ε R) (c : RefCell T) (e : ε) :
    RefCell T × Ended ε R :=
  if c.flag = 0 then
    let x := (inner c.value e).onRef H { c with flag := c.flag - 1 }
    ({ x.1 with flag := x.1.flag + 1 }, x.2)
  else (c, .panic e)

/-! ## `Cell` -/

/-- Code of the caller with access to a `Cell`. -/
inductive CellCode (T ε R : Type)
  | ret (e : ε) (r : Option R)
  | panic (e : ε)
  | get (k : T → CellCode T ε R)
  | set (t : T) (k : CellCode T ε R)

/-- The caller's code on a `Cell`. -/
def CellCode.run : CellCode T ε R → T → T × Ended ε R
  | .ret e r, c => (c, .ret e r)
  | .panic e, c => (c, .panic e)
  | .get k, c => (k c).run c
  | .set t k, _ => k.run t

/-- A target that is a copy (`v`) of what is in the cell (`c`). The results are the cell, the copy and the end. -/
def Inner.onCopy (H : ε → Query → CellCode T ε R) : Inner T ε R → (c : T) → T × T × Ended ε R
  | .ret v e r, c => (c, v, .ret e r)
  | .panic v e, c => (c, v, .panic e)
  | .call v e q k, c =>
    match (H e q).run c with
    | (c', .ret e' r) => (k v e' r).onCopy H c'
    | (c', .panic e') => (c', v, .panic e')

/-- `FlagReport for Shared<Cell<Inner>>`, report.rs 649-687: `let mut v = self.inner.get(); v.report_*(…)?; self.inner.set(v);`. -/
def cellReport (H : ε → Query → CellCode T ε R) (inner : T → ε → Inner T ε R) (c : T) (e : ε) : T × Ended ε R :=
  match (inner c e).onCopy H c with
  | (_, v, .ret e none) => (v, .ret e none)
  | (c', _, .ret e (some r)) => (c', .ret e (some r))
  | (c', _, .panic e) => (c', .panic e)

/-- Targets that either change or report an error, which is what those of `ModelReport.lean` do. -/
def plain (upd : T → Report → T) (bad : Report → Option Error) (r : Report) (t : T) (e : ε) : Inner T ε R :=
  match bad r with
  | none => .ret (upd t r) e none
  | some x => .call t e (.error x) fun t e r => .ret t e r

/-- What happens to a cell in its life: reports through a `Shared`, and code of the caller outside of reports. Panics are caught
by the caller. -/
inductive RefStep (T ε R : Type)
  | report (inner : T → ε → Inner T ε R)
  | own (code : ε → RefCode T ε R)

end
end Verif.Args.Sharing
