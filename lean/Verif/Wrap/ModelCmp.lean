/-! # Model of the comparison wrappers: `lib/osi/src/{mown,cmp,ptr,marker,align}.rs`

The operators of a type are a record of functions. A hasher is any state `σ`; hashing a value changes
it. A reference or smart pointer is known by what it dereferences to: a value, or (for identity) a raw
pointer. Lifetimes, formatting and thread-safety markers are not modelled. -/
namespace Verif.Wrap

/-- Implementations of `PartialEq`, `PartialOrd`, `Ord` and `Hash` for a type. -/
structure Impl (α σ : Type) where
  eq : α → α → Bool
  partial_cmp : α → α → Option Ordering
  cmp : α → α → Ordering
  hash : α → σ → σ

/-! ## Mown -/

/-- `Mown`, mown.rs 19-22. -/
inductive Mown (B O : Type)
  | borrowed (v : B)
  | owned (v : O)
deriving DecidableEq, Repr

variable {B O σ T : Type}

/-- `Mown::new_borrowed`, `Mown::new_owned`, mown.rs 29-36, and `From<&B>`, 132-139. -/
def Mown.new_borrowed (v : B) : Mown B O := .borrowed v
def Mown.new_owned (v : O) : Mown B O := .owned v
def Mown.from_ref (v : B) : Mown B O := .new_borrowed v

/-- `Mown::is_borrowed`, mown.rs 39-44. -/
def Mown.is_borrowed : Mown B O → Bool
  | .borrowed _ => true
  | .owned _ => false

/-- `Mown::is_owned`, mown.rs 47-49. -/
def Mown.is_owned (m : Mown B O) : Bool := !m.is_borrowed

/-- `Mown::deref`, mown.rs 58-63, also as `Deref`, 113-123. `borrow` is `<O as Borrow<B>>::borrow`. -/
def Mown.deref (borrow : O → B) : Mown B O → B
  | .borrowed v => v
  | .owned v => borrow v

/-- `AsRef`, mown.rs 66-75. -/
def Mown.as_ref (borrow : O → B) (as_ref : B → T) (m : Mown B O) : T := as_ref (m.deref borrow)

/-- `Clone`, mown.rs 77-88. `clone` is that of the owned type. -/
def Mown.clone (clone : O → O) : Mown B O → Mown B O
  | .borrowed v => .borrowed v
  | .owned v => .owned (clone v)

/-- `Default`, mown.rs 103-111. -/
def Mown.default (default : O) : Mown B O := .new_owned default

/-- `Eq`, `Hash`, `Ord`, `PartialEq`, `PartialOrd`, mown.rs 125-130 and 141-182. -/
def Mown.impl (borrow : O → B) (i : Impl B σ) : Impl (Mown B O) σ where
  eq a b := i.eq (a.deref borrow) (b.deref borrow)
  partial_cmp a b := i.partial_cmp (a.deref borrow) (b.deref borrow)
  cmp a b := i.cmp (a.deref borrow) (b.deref borrow)
  hash a := i.hash (a.deref borrow)

/-! ## Pointers -/

/-- A raw pointer: an address and, for pointers to values of dynamic size, metadata. -/
structure RawPtr (M : Type) where
  addr : Nat
  info : M
deriving DecidableEq, Repr

variable {M : Type}

/-- The operators of raw pointers in the standard library: the address comes first; an address is hashed
as a number. -/
def RawPtr.impl (hashNat : Nat → σ → σ) (i : Impl M σ) : Impl (RawPtr M) σ where
  eq a b := a.addr == b.addr && i.eq a.info b.info
  partial_cmp a b := if a.addr = b.addr then i.partial_cmp a.info b.info else some (compare a.addr b.addr)
  cmp a b := if a.addr = b.addr then i.cmp a.info b.info else compare a.addr b.addr
  hash a s := i.hash a.info (hashNat a.addr s)

/-- Metadata of pointers to values of static size. -/
def unitImpl : Impl Unit σ where
  eq _ _ := true
  partial_cmp _ _ := some .eq
  cmp _ _ := .eq
  hash _ s := s

/-! ## Identity -/

/-- `Identity`, cmp.rs 15. -/
structure Identity (T : Type) where
  inner : T

/-- The operators of `Identity`, cmp.rs 17-45. `raw` is `&raw const *v`. `core::ptr::eq` is the equality of
raw pointers. -/
def Identity.impl (raw : T → RawPtr M) (p : Impl (RawPtr M) σ) : Impl (Identity T) σ where
  eq a b := p.eq (raw a.inner) (raw b.inner)
  partial_cmp a b := some (p.cmp (raw a.inner) (raw b.inner))
  cmp a b := p.cmp (raw a.inner) (raw b.inner)
  hash a := p.hash (raw a.inner)

/-! ## Ptr, OnceRef, NonNull4 -/

/-- `Ptr`, ptr.rs 44-48. A `NonNull` is the raw pointer it wraps. -/
structure Ptr (M : Type) where
  inner : RawPtr M

/-- The operators of `Ptr`, ptr.rs 353-384. -/
def Ptr.impl (p : Impl (RawPtr M) σ) : Impl (Ptr M) σ where
  eq a b := p.eq a.inner b.inner
  partial_cmp a b := some (p.cmp a.inner b.inner)
  cmp a b := p.cmp a.inner b.inner
  hash a := p.hash a.inner

/-- `OnceRef`, ptr.rs 73-77, and `NonNull4`, ptr.rs 32-34; the operators are derived from the pointer (and from
the phantom markers, which are all equal and hash nothing). -/
structure Wrapped (M : Type) where
  ptr : RawPtr M

/-- `#[derive(Eq, Hash, Ord, PartialEq, PartialOrd)]`. -/
def Wrapped.impl (p : Impl (RawPtr M) σ) : Impl (Wrapped M) σ where
  eq a b := p.eq a.ptr b.ptr
  partial_cmp a b := p.partial_cmp a.ptr b.ptr
  cmp a b := p.cmp a.ptr b.ptr
  hash a := p.hash a.ptr

/-! ## Markers -/

/-- The operators of `PhantomInvariant`, marker.rs 90-114; the derived ones of `PhantomInvariantLifetime` (51-55),
`brand::Id` (brand.rs 22-26) and `brand::Unique` (36-39, no `Hash`) are the same. -/
def marker : Impl T σ where
  eq _ _ := true
  partial_cmp _ _ := some .eq
  cmp _ _ := .eq
  hash _ s := s

/-- `AlignAs` and `AlignOf`, align.rs 194-370: a wrapper of another marker whose operators are used. -/
structure AlignAs (A : Type) where
  inner : A

/-- The operators of `AlignAs` and `AlignOf`, align.rs 233-281 and 322-370. -/
def AlignAs.impl {A : Type} (i : Impl A σ) : Impl (AlignAs A) σ where
  eq a b := i.eq a.inner b.inner
  partial_cmp a b := i.partial_cmp a.inner b.inner
  cmp a b := i.cmp a.inner b.inner
  hash a := i.hash a.inner

end Verif.Wrap
