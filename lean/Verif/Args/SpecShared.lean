import Verif.Args.ModelShared
/-! # Specification: shared report targets

A target in a `RefCell` is meant to be as good as one that nobody else can reach while it handles a report. -/
namespace Verif.Args.Sharing
variable {T ε R : Type}

/-- The state after an end. -/
def Ended.state : Ended ε R → ε
  | .ret e _ => e
  | .panic e => e

/-- The caller's code without access to the cell: whatever it tries is refused. -/
def RefCode.blind : RefCode T ε R → Ended ε R
  | .ret e r => .ret e r
  | .panic e => .panic e
  | .read k | .write _ k | .hold k | .holdMut k | .via _ k => (k none).blind
  | .release k => k.blind

/-- A target that belongs to the report alone. -/
def Inner.alone (H : ε → Query → Ended ε R) : Inner T ε R → T × Ended ε R
  | .ret t e r => (t, .ret e r)
  | .panic t e => (t, .panic e)
  | .call t e q k =>
    match H e q with
    | .ret e' r => (k t e' r).alone H
    | .panic e' => (t, .panic e')

/-- The caller's code outside of reports: what it may do depends on the guards that it keeps itself. -/
def RefCode.outside : RefCode T ε R → T → Guards → T × Guards × Ended ε R
  | .ret e r, t, g => (t, g, .ret e r)
  | .panic e, t, g => (t, g, .panic e)
  | .read k, t, g => if g = .refMut then (k none).outside t g else (k (some t)).outside t g
  | .write f k, t, g => if g = .none then (k (some (f t))).outside (f t) g else (k none).outside t g
  | .hold k, t, g => if g = .refMut then (k none).outside t g else (k (some t)).outside t g.more
  | .holdMut k, t, g => if g = .none then (k (some t)).outside t .refMut else (k none).outside t g
  | .via f k, t, g => if g = .refMut then (k (some (f t))).outside (f t) g else (k none).outside t g
  | .release k, t, g => k.outside t g.less

/-- A life of a cell, on the model. -/
def refLife (H : ε → Query → RefCode T ε R) : List (RefStep T ε R) → RefCell T → ε → RefCell T × List (Ended ε R)
  | [], c, _ => (c, [])
  | .report inner :: l, c, e =>
    let x := refReport H inner c e
    let y := refLife H l x.1 x.2.state
    (y.1, x.2 :: y.2)
  | .own code :: l, c, e =>
    let x := (code e).run c
    let y := refLife H l x.1 x.2.state
    (y.1, x.2 :: y.2)

/-- A life of a target with the guards of the caller: reports have it alone, or panic if there is any guard. -/
def aloneLife (H : ε → Query → RefCode T ε R) : List (RefStep T ε R) → T → Guards → ε → T × Guards × List (Ended ε R)
  | [], t, g, _ => (t, g, [])
  | .report inner :: l, t, g, e =>
    if g = .none then
      let x := (inner t e).alone fun e q => (H e q).blind
      let y := aloneLife H l x.1 g x.2.state
      (y.1, y.2.1, x.2 :: y.2.2)
    else
      let y := aloneLife H l t g e
      (y.1, y.2.1, .panic e :: y.2.2)
  | .own code :: l, t, g, e =>
    let x := (code e).outside t g
    let y := aloneLife H l x.1 x.2.1 x.2.2.state
    (y.1, y.2.1, x.2.2 :: y.2.2)

/-- The flag of a `RefCell` for guards of the caller and no others. -/
def Guards.flag : Guards → Int
  | .none => 0
  | .refs n => n + 1
  | .refMut => -1

/-- One call of the context: what was asked in which state, and how it ended. -/
abbrev Call (ε R : Type) := (ε × Query) × Ended ε R

/-- The target, seen by itself: it makes these calls, becomes `t`, and ends like this. No cell takes part. -/
inductive Plays : Inner T ε R → List (Call ε R) → T → Ended ε R → Prop
  | ret t e r : Plays (.ret t e r) [] t (.ret e r)
  | panic t e : Plays (.panic t e) [] t (.panic e)
  | call t e q k e' r l t' x : Plays (k t e' r) l t' x → Plays (.call t e q k) (((e, q), .ret e' r) :: l) t' x
  | unwind t e q k e' : Plays (.call t e q k) [((e, q), .panic e')] t (.panic e')

/-- The caller's code, seen by itself: with these calls, it takes the cell from one value to the other. No target takes part. -/
inductive Answers (H : ε → Query → CellCode T ε R) : List (Call ε R) → T → T → Prop
  | nil c : Answers H [] c c
  | cons e q x l c c' c'' : (H e q).run c = (c', x) → Answers H l c' c'' → Answers H (((e, q), x) :: l) c c''

/-- The caller's code does not write to the cell. -/
inductive CellCode.Reads : CellCode T ε R → Prop
  | ret e r : Reads (.ret e r)
  | panic e : Reads (.panic e)
  | get k : (∀ t, Reads (k t)) → Reads (.get k)

end Verif.Args.Sharing
