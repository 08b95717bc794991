import Verif.Args.Model
/-! # Model of the steps it takes to link commands, `lib/osi/src/args/layout.rs` 411-441

The model of `CommandSet::compile` yields the links. This is the same loop, it yields the commands it visits. -/
namespace Verif.Args

/-- The commands visited by the `while let` of layout.rs 433-439, in order: one per iteration. `fuel` bounds the iterations,
as in `walkUp`. -/
def walkVisits (paths : List Path) (ups : List (Option Nat)) (path : Path) : Nat → Option Nat → List Nat
  | 0, _ => []
  | _, none => []
  | f + 1, some up =>
    match paths[up]? with
    | none => []
    | some p => up :: if p.isPrefixOf path then [] else walkVisits paths ups path f (ups[up]?.getD none)

/-- The command to begin with, layout.rs 428-431. -/
def prev : Nat → Option Nat
  | 0 => none
  | i + 1 => some i

/-- The `for` of layout.rs 425-440, for the remaining paths `rest` starting at index `ups.length`: for each command, what its
loop visits, and the link it ends with. -/
def compileVisits (paths : List Path) : (rest : List Path) → (ups : List (Option Nat)) → List (List Nat × Option Nat)
  | [], _ => []
  | p :: rest, ups =>
    (walkVisits paths ups p (ups.length + 1) (prev ups.length), walkUp paths ups p (ups.length + 1) (prev ups.length))
      :: compileVisits paths rest (ups ++ [walkUp paths ups p (ups.length + 1) (prev ups.length)])

#guard compileVisits [[], [[97]], [[97], [98]], [[98]]] [[], [[97]], [[97], [98]], [[98]]] []
  = [([], none), ([0], some 0), ([1], some 1), ([2, 1, 0], some 0)]

/-- Specification: the commands a loop has visited without terminating. If it found a link then the last visit was the one
that terminated it. -/
def passed (x : List Nat × Option Nat) : List Nat := if x.2.isSome then x.1.dropLast else x.1

end Verif.Args
