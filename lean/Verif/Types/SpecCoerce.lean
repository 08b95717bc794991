/-! # Specification: coercions of the language

The rules are those of the chapter on type coercions of the language reference, without trait objects, closures and
structures: subtyping, from mutable to shared, from references to raw pointers, dereferencing, unsizing, from functions to pointers
to functions, and from the never type. Lifetimes are not part of the types here: they have no effect at run time. A value is
the words it is made of. -/
namespace Verif.Types

/-- Types. -/
inductive CTy
  /-- Any type of one word without coercions. -/
  | int
  /-- `!`, see never.rs 16-23. -/
  | never
  /-- The type of a function; it has no size. -/
  | fnItem
  | fnPtr
  /-- `&mut t` and `&t`. -/
  | ref (mut_ : Bool) (t : CTy)
  /-- `*mut t` and `*const t`. -/
  | raw (mut_ : Bool) (t : CTy)
  /-- A type that implements `Deref` and `DerefMut` with target `t`. -/
  | smart (k : Nat) (t : CTy)
  | array (t : CTy) (n : Nat)
  | slice (t : CTy)
deriving DecidableEq, Repr

/-- What coercions depend on: memory, the size of every type with `Deref`, what its `deref` returns for an object at an address, and
the addresses of functions. -/
structure World where
  mem : Nat → Nat
  words : Nat → Nat
  deref : Nat → Nat → List Nat
  code : Nat

/-- Number of words of a reference or raw pointer to a type. -/
def CTy.pointer : CTy → Nat
  | .slice _ => 2
  | _ => 1

/-- Size of a type in words, `none` for types without a size. -/
def CTy.size (W : World) : CTy → Option Nat
  | .int => some 1
  | .never => some 0
  | .fnItem => some 0
  | .fnPtr => some 1
  | .ref _ t => some t.pointer
  | .raw _ t => some t.pointer
  | .smart k _ => some (W.words k)
  | .array t n => (t.size W).map (n * ·)
  | .slice _ => none

/-- What a coercion does at run time. -/
inductive Effect
  | same
  /-- Calls `deref`. -/
  | deref (k : Nat)
  /-- Loads a reference of so many words. -/
  | load (n : Nat)
  /-- Attaches the length of an array. -/
  | attach (n : Nat)
  | reify
  | absurd
deriving DecidableEq, Repr

/-- A single coercion. -/
inductive Step : CTy → CTy → Effect → Prop
  | sub t : Step t t .same
  | freeze t : Step (.ref true t) (.ref false t) .same
  | freezeRaw t : Step (.raw true t) (.raw false t) .same
  | toRaw m t : Step (.ref m t) (.raw m t) .same
  | deref m m' k t : (m' = true → m = true) → Step (.ref m (.smart k t)) (.ref m' t) (.deref k)
  | load m n m' t : (m' = true → m = true ∧ n = true) → Step (.ref m (.ref n t)) (.ref m' t) (.load t.pointer)
  | unsize m t n : Step (.ref m (.array t n)) (.ref m (.slice t)) (.attach n)
  | unsizeRaw m t n : Step (.raw m (.array t n)) (.raw m (.slice t)) (.attach n)
  | reify : Step .fnItem .fnPtr .reify
  | absurd t : Step .never t .absurd

/-- Coercions one after the other. -/
inductive Coerces : CTy → CTy → List Effect → Prop
  | nil t : Coerces t t []
  | cons {a b c e es} : Step a b e → Coerces b c es → Coerces a c (e :: es)

/-- What a coercion makes of a value. There are no values of the never type. -/
def Effect.run (W : World) : Effect → List Nat → Option (List Nat)
  | .same, v => some v
  | .deref k, v => v.head?.map (W.deref k)
  | .load n, v => v.head?.map fun a => (List.range n).map fun i => W.mem (a + i)
  | .attach n, v => some (v ++ [n])
  | .reify, _ => some [W.code]
  | .absurd, _ => none

/-- What several coercions make of a value. -/
def Effect.runs (W : World) : List Effect → List Nat → Option (List Nat)
  | [], v => some v
  | e :: es, v => (e.run W v).bind (Effect.runs W es)

/-- Coercions that do not look through a pointer. -/
def Effect.flat : Effect → Bool
  | .deref _ | .load _ => false
  | _ => true

end Verif.Types
