/-! # Rules of the language: subtyping, thread safety and layout of types

The rules of the Rust reference for the forms of types that are used here. Lifetimes are taken from a set `L`; how they are
related is a parameter (`Scope`). Trait objects, generic associated types and inference are not modelled. -/
namespace Verif.Types

/-- Names of the structures and enumerations of the library. -/
inductive Name
  | phantomInvariant | phantomInvariantLifetime | id | unique | nonNull4 | ptr | onceRef | pointer | mown
  | covariantType | contravariantType | invariantType
  | other (n : Nat)
deriving DecidableEq, Repr

/-- Types. `L` are the lifetimes in scope. -/
inductive Ty (L : Type)
  /-- A type without lifetimes: whether it is `Send` and `Sync`, its size and its alignment. -/
  | plain (name : Nat) (send sync : Bool) (size align : Nat)
  /-- `&'a T` -/
  | ref (a : L) (t : Ty L)
  /-- `&'a mut T` -/
  | refMut (a : L) (t : Ty L)
  /-- `*const T` -/
  | ptrConst (t : Ty L)
  /-- `*mut T` -/
  | ptrMut (t : Ty L)
  /-- `NonNull<T>` -/
  | nonNull (t : Ty L)
  /-- `PhantomData<T>` -/
  | phantom (t : Ty L)
  /-- `[T; N]` -/
  | array (n : Nat) (t : Ty L)
  /-- `Cell<T>` -/
  | cell (t : Ty L)
  /-- `fn(T) -> U` -/
  | fnPtr (arg ret : Ty L)
  /-- `for<'a> T`, where `T` is a function pointer. -/
  | hr (f : L → Ty L)
  /-- No fields. -/
  | nil
  /-- A field and further fields. The fields of all variants of an enumeration are one list. -/
  | field (t rest : Ty L)
  /-- A structure or enumeration with its fields. -/
  | adt (name : Name) (packed : Bool) (fields : Ty L)
  /-- A type with explicit implementations of `Send` and `Sync`, depending on those of a type parameter. -/
  | impl (param : Ty L) (sendIf syncIf : Bool → Bool → Bool) (t : Ty L)

variable {L : Type}

/-- How the lifetimes in scope are related: `outlives a b` is `'a: 'b`. -/
structure Scope (L : Type) where
  outlives : L → L → Prop
  refl : ∀ a, outlives a a
  trans : ∀ a b c, outlives a b → outlives b c → outlives a c
  static : L
  longest : ∀ a, outlives static a

/-- Both lifetimes are the same. -/
def Scope.same (s : Scope L) (a b : L) : Prop := s.outlives a b ∧ s.outlives b a

/-- `Sub s t u`: a value of type `t` can be used where one of type `u` is expected (Rust reference, "Subtyping and
Variance"). A structure is compared by its fields, of which the compiler computes the variance of its parameters. -/
inductive Sub (s : Scope L) : Ty L → Ty L → Prop
  | plain (n : Nat) (x y : Bool) (z a : Nat) : Sub s (.plain n x y z a) (.plain n x y z a)
  | ref {a b : L} {t u : Ty L} : s.outlives a b → Sub s t u → Sub s (.ref a t) (.ref b u)
  | refMut {a b : L} {t u : Ty L} : s.outlives a b → Sub s t u → Sub s u t → Sub s (.refMut a t) (.refMut b u)
  | ptrConst {t u : Ty L} : Sub s t u → Sub s (.ptrConst t) (.ptrConst u)
  | ptrMut {t u : Ty L} : Sub s t u → Sub s u t → Sub s (.ptrMut t) (.ptrMut u)
  | nonNull {t u : Ty L} : Sub s t u → Sub s (.nonNull t) (.nonNull u)
  | phantom {t u : Ty L} : Sub s t u → Sub s (.phantom t) (.phantom u)
  | array {n : Nat} {t u : Ty L} : Sub s t u → Sub s (.array n t) (.array n u)
  | cell {t u : Ty L} : Sub s t u → Sub s u t → Sub s (.cell t) (.cell u)
  | fnPtr {t u x y : Ty L} : Sub s u t → Sub s x y → Sub s (.fnPtr t x) (.fnPtr u y)
  | inst {f : L → Ty L} {u : Ty L} (a : L) : Sub s (f a) u → Sub s (.hr f) u
  | gen {f : L → Ty L} {t : Ty L} : (∀ a, Sub s t (f a)) → Sub s t (.hr f)
  | nil : Sub s .nil .nil
  | field {t u x y : Ty L} : Sub s t u → Sub s x y → Sub s (.field t x) (.field u y)
  | adt {n : Name} {p : Bool} {t u : Ty L} : Sub s t u → Sub s (.adt n p t) (.adt n p u)
  | impl {p q : Ty L} {f g : Bool → Bool → Bool} {t u : Ty L} : Sub s t u → Sub s (.impl p f g t) (.impl q f g u)

/-- The traits `Send` (first) and `Sync` (second), as the standard library documents them for its types; for structures without
explicit implementations: those of all fields. -/
def Ty.traits : Ty L → Bool × Bool
  | .plain _ x y _ _ => (x, y)
  | .ref _ t => (t.traits.2, t.traits.2)
  | .refMut _ t => t.traits
  | .ptrConst _ | .ptrMut _ | .nonNull _ => (false, false)
  | .phantom t | .array _ t => t.traits
  | .cell t => (t.traits.1, false)
  | .fnPtr _ _ | .hr _ => (true, true)
  | .nil => (true, true)
  | .field t r => (t.traits.1 && r.traits.1, t.traits.2 && r.traits.2)
  | .adt _ _ t => t.traits
  | .impl p f g _ => (f p.traits.1 p.traits.2, g p.traits.1 p.traits.2)

/-- `T: Send`. -/
def Ty.send (t : Ty L) : Bool := t.traits.1

/-- `T: Sync`. -/
def Ty.sync (t : Ty L) : Bool := t.traits.2

/-- A platform: alignment of pointers, and their size by the type that they point to (more for unsized types). -/
structure Pointers (L : Type) where
  align : Nat
  size : Ty L → Nat

/-- Size and alignment as far as they are needed here: of types without fields of their own and of structures of which all
fields are empty. `none` where nothing is said. -/
def Ty.layout (w : Pointers L) : Ty L → Option (Nat × Nat)
  | .plain _ _ _ z a => some (z, a)
  | .ref _ t | .refMut _ t | .ptrConst t | .ptrMut t | .nonNull t => some (w.size t, w.align)
  | .phantom _ => some (0, 1)
  | .array n t => t.layout w |>.map fun (z, a) => (n * z, a)
  | .cell t => t.layout w
  | .fnPtr t _ => some (w.size t, w.align)
  | .hr _ => none
  | .nil => some (0, 1)
  | .field t r => do
    let (z, a) ← t.layout w
    let (z', a') ← r.layout w
    if z = 0 ∨ z' = 0 then some (z + z', max a a') else none
  | .adt _ packed t => t.layout w |>.map fun (z, a) => (z, if packed then 1 else a)
  | .impl _ _ _ t => t.layout w

/-- A 1-ZST: of size 0 and alignment 1. -/
def Ty.IsOneZst (w : Pointers L) (t : Ty L) : Prop := t.layout w = some (0, 1)

/-- The lifetime `x` does not occur in the type. In a type that is quantified over a lifetime it does not occur if it does not
for other values of that lifetime. -/
def Ty.Without (x : L) : Ty L → Prop
  | .plain _ _ _ _ _ | .nil => True
  | .ref a t | .refMut a t => a ≠ x ∧ t.Without x
  | .ptrConst t | .ptrMut t | .nonNull t | .phantom t | .array _ t | .cell t | .adt _ _ t => t.Without x
  | .fnPtr t u | .field t u => t.Without x ∧ u.Without x
  | .hr f => ∀ a, a ≠ x → (f a).Without x
  | .impl p _ _ t => p.Without x ∧ t.Without x

/-- A lifetime of which nothing is known: no other lifetime in scope is the same, and `'static` is another one. Such are the
lifetimes over which a closure is quantified, in its body. -/
def Scope.Fresh (s : Scope L) (x : L) : Prop := s.static ≠ x ∧ ∀ b, s.same x b → b = x

end Verif.Types
