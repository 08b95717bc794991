import Verif.Build.Model
/-! # What Cargo does with lints

Cargo passes the lints of both groups to the compiler, those of `clippy` with a prefix and those of `rust` under their own name. -/
namespace Verif.Build

/-- The names of a table whose level is `allow`. -/
def allows (t : List (Text × Lint)) : List Text :=
  (t.filter fun kv => kv.2 = .text (chars! "allow") || kv.2 = .table (some (chars! "allow"))).map (·.1)

/-- The lints that are allowed when building with Cargo. -/
def cargoAllows (clippy rust : List (Text × Lint)) : List Text := (allows clippy).map ((chars! "clippy::") ++ ·) ++ allows rust

/-- A name that Meson can be told: it has no comma and does not end a line. -/
def Plain (k : Text) : Prop := ∀ c ∈ k, c ≠ ',' ∧ isBreak c = false

/-- Tables that can be written by hand: every lint has a level, names are plain. -/
def Tidy (t : List (Text × Lint)) : Prop := ∀ kv ∈ t, Plain kv.1 ∧ kv.2 ≠ .table none

/-- The arguments that allow lints. -/
def allowArgs (l : List Text) : List Text := l.flatMap fun v => [chars! "-A", v]

/-- The arguments for lints when building with Meson, from the tables in `Cargo.toml` and the versions of the packages. -/
def mesonArgs (osi sys tmp : Text) (ws : Lints) : Option (List Text) := do
  let out ← query osi sys tmp ws
  let q ← queried out
  some (lintArgs q.lints)

end Verif.Build
