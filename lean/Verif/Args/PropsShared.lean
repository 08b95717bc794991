import Verif.Args.LemmasShared
import Verif.Args.PropsReport
/-! # Property theorems: shared report targets (C117) -/
namespace Verif.Args.Sharing
variable {T ε R : Type}

/-! ## `RefCell` -/

/-- C117. A report to a shared `RefCell`. If nobody keeps a guard, the target handles the report as if it belonged to it alone: all
that the caller's code tries to do to the cell meanwhile is refused, and afterwards the cell is not borrowed, whether the report
returned, asked to stop or panicked. If somebody keeps a guard, the report panics, before the target or any of the caller's code is
called, and leaves everything as it was. -/
theorem refcell_report (H : ε → Query → RefCode T ε R) (inner : T → ε → Inner T ε R) (t : T) (g : Guards) (e : ε) :
    refReport H inner ⟨t, g.flag, g⟩ e
      = if g = .none then
          (⟨((inner t e).alone fun e q => (H e q).blind).1, 0, .none⟩, ((inner t e).alone fun e q => (H e q).blind).2)
        else (⟨t, g.flag, g⟩, .panic e) := by
  rw [refReport]
  by_cases h : g = .none
  · rw [if_pos h, if_pos (flag_zero.mpr h)]
    subst h
    show (let x := (inner t e).onRef H ⟨t, -1, .none⟩; ({ x.1 with flag := x.1.flag + 1 }, x.2)) = _
    rw [onRef_alone]
    rfl
  · rw [if_neg h, if_neg (fun hf => h (flag_zero.mp hf))]

/-- C117. Every life of a shared `RefCell`, with any number of reports, any targets, any code of the caller's within and outside of
reports, guards that are kept or forgotten, stops and panics, is that of a target which each report has alone. -/
theorem refcell_life (H : ε → Query → RefCode T ε R) (steps : List (RefStep T ε R)) (t : T) (g : Guards) (e : ε) :
    refLife H steps ⟨t, g.flag, g⟩ e
      = (⟨(aloneLife H steps t g e).1, (aloneLife H steps t g e).2.1.flag, (aloneLife H steps t g e).2.1⟩,
          (aloneLife H steps t g e).2.2) := by
  induction steps generalizing t g e with
  | nil => rfl
  | cons s l ih =>
    cases s with
    | report inner =>
      rw [refLife, aloneLife, refcell_report]
      by_cases h : g = .none
      · simp only [if_pos h]
        subst h
        have := ih ((inner t e).alone fun e q => (H e q).blind).1 .none ((inner t e).alone fun e q => (H e q).blind).2.state
        rw [show Guards.none.flag = 0 from rfl] at this
        rw [this]
      · simp only [if_neg h]
        rw [show (Ended.panic e : Ended ε R).state = e from rfl, ih t g e]
    | own code =>
      rw [refLife, aloneLife, run_outside]
      simp only []
      rw [ih]

/-- C117. The targets of this package in a `RefCell` do what they do without one, whatever the parser report answers. -/
theorem refcell_same (err : Err ε R) (fr : FlagReport ε R T) {upd : T → Report → T} {bad : Report → Option Error}
    (hp : Plain (fr.apply err) err upd bad) (H : ε → Query → RefCode T ε R)
    (hH : ∀ e x, (H e (.error x)).blind = .ret (err e x).1 (err e x).2) (r : Report) (t : T) (e : ε) :
    refReport H (plain upd bad r) ⟨t, 0, .none⟩ e
      = (⟨(fr.apply err r t e).1.1, 0, .none⟩, .ret (fr.apply err r t e).1.2 (fr.apply err r t e).2) := by
  have h := refcell_report H (plain upd bad r) t .none e
  rw [show Guards.none.flag = 0 from rfl, if_pos rfl] at h
  rw [h, (hp r t e).1]
  unfold plain
  cases hb : bad r with
  | none => rfl
  | some x => simp only [Inner.alone, hH]

/-! ## `Cell` -/

/-- C117. A report to a shared `Cell`. The target works on a copy of what was in the cell at the beginning: it does not see what the
caller's code writes to the cell meanwhile, nor does that code see what the target does. If the report continues, the cell becomes
the copy, and all that the caller's code wrote is lost. If it asks to stop or panics, the copy is lost, and the cell is what the
caller's code made of it. -/
theorem cell_report (H : ε → Query → CellCode T ε R) (inner : T → ε → Inner T ε R) (c : T) (e : ε) :
    ∃ calls copy written ended, Plays (inner c e) calls copy ended ∧ Answers H calls c written
      ∧ (cellReport H inner c e).2 = ended
      ∧ ((∃ e', ended = .ret e' none) → (cellReport H inner c e).1 = copy)
      ∧ ((¬ ∃ e', ended = .ret e' none) → (cellReport H inner c e).1 = written) := by
  obtain ⟨l, h1, h2⟩ := onCopy_split H (inner c e) c
  rcases hx : (inner c e).onCopy H c with ⟨c', v, x⟩
  rw [hx] at h1 h2
  refine ⟨l, v, c', x, h1, h2, ?_⟩
  rw [cellReport, hx]
  cases x with
  | ret e' r =>
    cases r with
    | none => exact ⟨rfl, fun _ => rfl, fun h => absurd ⟨e', rfl⟩ h⟩
    | some r => exact ⟨rfl, fun ⟨_, h⟩ => (by cases h), fun _ => rfl⟩
  | panic e' => exact ⟨rfl, fun ⟨_, h⟩ => (by cases h), fun _ => rfl⟩

/-- C117. If the caller's code only reads, the cell is what a target that belongs to the report alone becomes, or unchanged if the
report stops or panics. The code reads what was in the cell before the report. -/
theorem cell_reads (H : ε → Query → CellCode T ε R) (hH : ∀ e q, (H e q).Reads) (inner : T → ε → Inner T ε R) (c : T) (e : ε) :
    cellReport H inner c e
      = match (inner c e).alone fun e q => ((H e q).run c).2 with
        | (t, .ret e none) => (t, .ret e none)
        | (_, x) => (c, x) := by
  rw [cellReport, onCopy_reads H hH]
  generalize (inner c e).alone (fun e q => ((H e q).run c).2) = y
  obtain ⟨t, x⟩ := y
  cases x with
  | ret e' r => cases r <;> rfl
  | panic e' => rfl

/-- C117. The targets of this package in a `Cell`: without an error the cell is updated and no code of the caller's is called; with
one that continues, the cell is as before, whatever the parser report wrote to it; otherwise it is what that wrote. -/
theorem cell_plain (H : ε → Query → CellCode T ε R) (upd : T → Report → T) (bad : Report → Option Error) (r : Report) (c : T)
    (e : ε) :
    cellReport H (plain upd bad r) c e
      = match bad r with
        | none => (upd c r, .ret e none)
        | some x =>
          match (H e (.error x)).run c with
          | (_, .ret e' none) => (c, .ret e' none)
          | (c', ended) => (c', ended) := by
  unfold cellReport plain
  cases bad r with
  | none => rfl
  | some x =>
    simp only [Inner.onCopy]
    rcases (H e (.error x)).run c with ⟨c', x'⟩
    cases x' with
    | ret e' o => cases o <;> rfl
    | panic e' => rfl

/-- C117. The targets of this package in a `Cell` do what they do without one, if the parser report does not write to the cell. -/
theorem cell_same (err : Err ε R) (fr : FlagReport ε R T) {upd : T → Report → T} {bad : Report → Option Error}
    (hp : Plain (fr.apply err) err upd bad) (H : ε → Query → CellCode T ε R)
    (hH : ∀ e x t, (H e (.error x)).run t = (t, .ret (err e x).1 (err e x).2)) (r : Report) (t : T) (e : ε) :
    cellReport H (plain upd bad r) t e
      = ((fr.apply err r t e).1.1, .ret (fr.apply err r t e).1.2 (fr.apply err r t e).2) := by
  rw [cell_plain, (hp r t e).1]
  cases hb : bad r with
  | none => rfl
  | some x =>
    simp only [hH]
    cases (err e x).2 <;> rfl

/-! ## Examples -/

/-- The target of a `bool`: values are errors. -/
def boolUpd (t : Bool) : Report → Bool
  | .set _ => true
  | .toggle _ b => b
  | .parse _ _ => t

def boolBad : Report → Option Error
  | .parse arg v => some (.flagUnexpectedValue arg v)
  | _ => none

/-- `refcell_same` and `cell_same` apply to a `bool`. -/
example : Plain ((bool : FlagReport (List Error) Unit Bool).apply vecError) vecError boolUpd boolBad := by
  intro a t e; cases a <;> exact ⟨rfl, by simp [boolBad, boolUpd]⟩

/-- A parser report that tries to set the flag in a `RefCell`, and panics if that is refused (`borrow_mut`). -/
def setsRef : Nat → Query → RefCode Bool Nat Unit
  | n, _ => .write (fun _ => true) fun
    | some _ => .ret (n + 1) none
    | none => .panic n

/-- `refcell_life`: a report that works, one whose error makes the parser report access the cell, which panics, one after that,
which works again, a guard that is kept, and a report that panics because of it. -/
example : refLife setsRef
    [.report (plain boolUpd boolBad (.set [0x61])), .report (plain boolUpd boolBad (.parse [0x61] [0x31])),
      .report (plain boolUpd boolBad (.toggle [0x61] false)), .own fun n => .hold fun _ => .ret (n + 10) none,
      .report (plain boolUpd boolBad (.set [0x61])), .own fun n => .release (.write not fun _ => .ret n none)]
    ⟨false, 0, .none⟩ 0
    = (⟨true, 0, .none⟩, [.ret 0 none, .panic 0, .ret 0 none, .ret 10 none, .panic 10, .ret 10 none]) := by decide +kernel

/-- The same parser report with a `Cell`. -/
def setsCell (stop : Option Unit) : Nat → Query → CellCode Bool Nat Unit
  | n, _ => .get fun b => .set true (.ret (if b then n + 100 else n + 1) stop)

/-- `cell_report` and `cell_plain`: what the parser report writes is lost if it continues, and kept if it stops. -/
example : cellReport (setsCell none) (plain boolUpd boolBad (.parse [0x61] [0x31])) false 0 = (false, .ret 1 none)
    ∧ cellReport (setsCell (some ())) (plain boolUpd boolBad (.parse [0x61] [0x31])) false 0 = (true, .ret 1 (some ()))
    ∧ cellReport (setsCell none) (plain boolUpd boolBad (.set [0x61])) false 0 = (true, .ret 0 none) := by decide +kernel

/-- A target of a user's: it counts the reports, and asks the context in between. -/
def counter : Nat → Nat → Inner Nat Nat Unit := fun t e =>
  .call (t + 1) e (.parameter none) fun t e r => .ret (t + 10) e r

/-- `cell_report`: the code of the caller sees the old value, and does not change what comes out. -/
example : cellReport (fun n _ => .get fun c => .set 77 (.ret (n + c) none)) counter 5 0 = (16, .ret 5 none) := by decide +kernel

/-- `refcell_report`: the target becomes the same, the code is refused. -/
example : refReport (fun n _ => .read fun c => .write (fun _ => 77) fun d => .ret (n + c.getD 1000 + d.getD 2000) none) counter
    ⟨5, 0, .none⟩ 0 = (⟨16, 0, .none⟩, .ret 3000 none) := by decide +kernel

/-- `cell_reads` applies to code that only reads. -/
example : ∀ (e : Nat) (_ : Query), (CellCode.get (fun c => CellCode.ret (e + c) none) : CellCode Nat Nat Unit).Reads :=
  fun e _ => .get _ fun c => .ret (e + c) none

end Verif.Args.Sharing
