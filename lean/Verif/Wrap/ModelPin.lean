import Verif.Wrap.ModelOwn
/-! # Model of `lib/osi/src/pin.rs` and of the functions on pins in `ptr.rs` and `convert.rs`

Pinned smart pointers with the objects they point to, as in `ModelOwn.lean`. A function that takes a smart pointer by
value and does not pass it on drops it when it returns. Whether a pinned object is ever moved is not modelled: objects
keep their place here. -/
namespace Verif.Wrap

/-- `core::pin::Pin`, which is transparent. -/
structure Pin (T : Type) where
  pointer : T
deriving DecidableEq, Repr

/-- `Pin::new_unchecked` of the standard library. -/
def Pin.new_unchecked {T : Type} (v : T) : Pin T := ⟨v⟩

/-- `Pin::into_inner_unchecked` of the standard library. -/
def Pin.into_inner_unchecked {T : Type} (v : Pin T) : T := v.pointer

/-- `as_inner`, pin.rs 17-21. -/
def as_inner {T : Type} (v : Pin T) : T := v.pointer

/-- `map_unchecked`, pin.rs 51-59. The function may be undefined. -/
def map_unchecked {T U : Type} (v : Pin T) (f : T → Option U) : Option (Pin U) :=
  match f v.into_inner_unchecked with
  | none => none
  | some u => some (Pin.new_unchecked u)

variable {V : Type}

/-- What comes of a function that yields a raw pointer: the objects afterwards and the address. -/
inductive PtrRes (V : Type)
  | ok (objs : List (Obj V)) (ptr : Nat)
  /-- undefined behaviour -/
  | ub
  /-- The type checker rejects the call. -/
  | rejected
deriving DecidableEq, Repr

/-- `Deref::deref` of the smart pointers: the address of the target; `none` is undefined behaviour. -/
def deref (objs : List (Obj V)) (h : Handle) : Option Nat :=
  match use objs h with
  | none => none
  | some _ => some h.ptr

/-- `DerefMut` is implemented by `&mut T` and `Box`. -/
def derefsMut : Kind → Bool
  | .excl | .box => true
  | .ref | .rc | .arc => false

/-- `as_ptr`, pin.rs 24-30. The smart pointer taken out of the pin is dropped when the function returns. -/
def as_ptr (objs : List (Obj V)) (v : Pin Handle) : PtrRes V :=
  let inner := v.into_inner_unchecked
  match deref objs inner with
  | none => .ub
  | some p =>
    match dropObj objs inner with
    | none => .ub
    | some objs => .ok objs p

/-- `as_mut_ptr`, pin.rs 33-39. As `as_ptr`, but through `DerefMut`. -/
def as_mut_ptr (objs : List (Obj V)) (v : Pin Handle) : PtrRes V :=
  let inner := v.into_inner_unchecked
  if derefsMut inner.kind then
    match deref objs inner with
    | none => .ub
    | some p =>
      match dropObj objs inner with
      | none => .ub
      | some objs => .ok objs p
  else .rejected

/-- `nonnull_from_pin_ref`, ptr.rs 102-108. No address of an object is null. -/
def nonnull_from_pin_ref (objs : List (Obj V)) (v : Pin Handle) : PtrRes V := as_ptr objs v

/-- `nonnull_from_pin_mut`, ptr.rs 115-121. -/
def nonnull_from_pin_mut (objs : List (Obj V)) (v : Pin Handle) : PtrRes V := as_mut_ptr objs v

/-- `IntoDeref::pin_into_deref`, convert.rs 61-70. -/
def pin_into_deref (v : Pin Handle) : Option (Pin OnceRef) := map_unchecked v fun h => some (into_deref h)

/-- `FromDeref::pin_from_deref`, convert.rs 124-129. -/
def pin_from_deref (objs : List (Obj V)) (k : Kind) (v : Pin OnceRef) : Option (Pin Handle) :=
  map_unchecked v fun o => from_deref objs k o

/-- `OnceRef::from_ref` and `OnceRef::from_mut`, ptr.rs 436-443. -/
def once_from_ref (h : Handle) : OnceRef := ⟨h.ptr⟩

/-- `OnceRef::pin_from_ref` and `OnceRef::pin_from_mut`, ptr.rs 446-457; for `&T` and `&mut T`. -/
def pin_from_ref (v : Pin Handle) : Option (Pin OnceRef) := map_unchecked v fun h => some (once_from_ref h)

end Verif.Wrap
