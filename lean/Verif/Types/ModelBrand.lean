/-! # Model of brands, `lib/osi/src/brand.rs`

A brand is the number of the call of `unique()` that made it. Brands do not exist at run time: here the values of a program
carry them, as their types do. The program may have closures running in several threads. -/
namespace Verif.Types

/-- Values of the types `Unique<'brand>` and `Id<'brand>`, brand.rs 24-39. Their fields are private. -/
inductive Brand
  | unique (b : Nat)
  | id (b : Nat)
deriving DecidableEq, Repr

/-- The brand in the type of a value. -/
def Brand.of : Brand → Nat
  | .unique b | .id b => b

/-- A program: how often `unique()` was called, the brands of the closures that run, and the values it holds. -/
structure Program where
  calls : Nat
  running : List Nat
  values : List Brand
deriving DecidableEq, Repr

/-- What a program can do with brands in safe code. -/
inductive BrandOp
  /-- `unique(op)` invokes `op`, brand.rs 46-52. -/
  | call
  /-- The closure that was invoked with brand `b` returns, or panics. -/
  | ret (b : Nat)
  /-- `Id::from` for value number `i`, brand.rs 61-65. -/
  | into (i : Nat)
  /-- A copy or clone of value number `i`, brand.rs 22. -/
  | copy (i : Nat)
  /-- Value number `i` is dropped. -/
  | drop (i : Nat)
deriving DecidableEq, Repr

/-- One step; `none` if it does not compile. -/
def Program.step (p : Program) : BrandOp → Option Program
  | .call => some ⟨p.calls + 1, p.calls :: p.running, p.values ++ [.unique p.calls]⟩
  -- The result of the closure has a type that was fixed without the brand, so that no value of the brand is left.
  | .ret b => if b ∈ p.running then some { p with running := p.running.erase b, values := p.values.filter fun v => v.of ≠ b }
    else none
  -- `Unique` is moved: it has neither `Clone` nor `Copy` (brand.rs 36).
  | .into i => match p.values[i]? with
    | some (.unique b) => some { p with values := p.values.set i (.id b) }
    | _ => none
  | .copy i => match p.values[i]? with
    | some (.id b) => some { p with values := p.values ++ [.id b] }
    | _ => none
  | .drop i => if i < p.values.length then some { p with values := p.values.eraseIdx i } else none

/-- A program that did not use brands yet. -/
def Program.start : Program := ⟨0, [], []⟩

/-- A history of steps. -/
def Program.run (p : Program) : List BrandOp → Option Program
  | [] => some p
  | o :: os => match p.step o with
    | some p => p.run os
    | none => none

end Verif.Types
