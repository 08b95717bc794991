import Verif.Borrow.SpecMachine
import Verif.Ffi.ModelPtr
/-! # Model of the pointer utilities under a borrow model

`lib/osi/src/ptr.rs`, `lib/osi/src/meta.rs`, `lib/osi/src/pin.rs`, `lib/osi/src/convert.rs` and `lib/osi/src/ffi/pointer.rs`, seen as
what they do to the tags of pointers. A pointer is an address and a tag. Every function gets the borrow model `M` and the state of
memory and returns the new one; `none` is undefined behaviour. `size` is that of the target type.

A reference passed to a function is borrowed anew on entry. Those returned are not once more, as that is what the next use of them
does. The target has no interior mutability. -/
namespace Verif.Borrow

variable {w : Nat} {S T : Type}

/-- A raw pointer, `NonNull` or reference. -/
structure Pointer (w : Nat) (T : Type) where
  addr : BitVec w
  tag : T
deriving DecidableEq

/-- `&*p`, `&mut *p`, `&raw mut *p`, `p as *const T` and such. -/
def borrow (M : Machine S T) (k : Kind) (size : Nat) (s : S) (p : Pointer w T) : Option (S × Pointer w T) :=
  (M.reborrow k s p.tag p.addr.toNat size).map fun (s, t) => (s, { p with tag := t })

/-- `nonnull_from_ref`, ptr.rs 85-88: `v as *const T as *mut T`. -/
def nonnull_from_ref (M : Machine S T) (size : Nat) (s : S) (v : Pointer w T) : Option (S × Pointer w T) := do
  let (s, v) ← borrow M .shared size s v
  borrow M .rawConst size s v

/-- `nonnull_from_mut`, ptr.rs 96-99: `v as *mut T`. -/
def nonnull_from_mut (M : Machine S T) (size : Nat) (s : S) (v : Pointer w T) : Option (S × Pointer w T) := do
  let (s, v) ← borrow M .unique size s v
  borrow M .rawMut size s v

/-- `pin::as_ptr`, pin.rs 24-30: `&raw const *v`, where `*v` is `Deref::deref(&v)`. -/
def pin_as_ptr (M : Machine S T) (size : Nat) (s : S) (v : Pointer w T) : Option (S × Pointer w T) := do
  let (s, v) ← borrow M .shared size s v
  borrow M .rawConst size s v

/-- `pin::as_mut_ptr`, pin.rs 33-39: `&raw mut *v`, where `*v` is `DerefMut::deref_mut(&mut v)`. -/
def pin_as_mut_ptr (M : Machine S T) (size : Nat) (s : S) (v : Pointer w T) : Option (S × Pointer w T) := do
  let (s, v) ← borrow M .unique size s v
  borrow M .rawMut size s v

/-- `nonnull_from_pin_ref`, ptr.rs 102-108. -/
def nonnull_from_pin_ref (M : Machine S T) (size : Nat) (s : S) (v : Pointer w T) : Option (S × Pointer w T) :=
  pin_as_ptr M size s v

/-- `nonnull_from_pin_mut`, ptr.rs 115-121. -/
def nonnull_from_pin_mut (M : Machine S T) (size : Nat) (s : S) (v : Pointer w T) : Option (S × Pointer w T) :=
  pin_as_mut_ptr M size s v

/-- `OnceRef`, ptr.rs 74-78. -/
structure OnceRef (w : Nat) (T : Type) where
  ptr : Pointer w T

/-- `from_nonnull`, ptr.rs 412-418. -/
def OnceRef.from_nonnull (v : Pointer w T) : OnceRef w T := ⟨v⟩
/-- `from_ptr`, ptr.rs 426-428. -/
def OnceRef.from_ptr (v : Pointer w T) : OnceRef w T := .from_nonnull v
/-- `from_ref`, ptr.rs 431-433. -/
def OnceRef.from_ref (M : Machine S T) (size : Nat) (s : S) (v : Pointer w T) : Option (S × OnceRef w T) := do
  let (s, v) ← borrow M .shared size s v
  let (s, p) ← nonnull_from_ref M size s v
  pure (s, .from_nonnull p)
/-- `from_mut`, ptr.rs 436-438. -/
def OnceRef.from_mut (M : Machine S T) (size : Nat) (s : S) (v : Pointer w T) : Option (S × OnceRef w T) := do
  let (s, v) ← borrow M .unique size s v
  let (s, p) ← nonnull_from_mut M size s v
  pure (s, .from_nonnull p)
/-- `into_nonnull`, `into_ptr`, `as_nonnull`, `as_ptr`, ptr.rs 455-462, 491-498. -/
def OnceRef.into_ptr (o : OnceRef w T) : Pointer w T := o.ptr
/-- `into_ref`, ptr.rs 465-469. -/
def OnceRef.into_ref (M : Machine S T) (size : Nat) (s : S) (o : OnceRef w T) : Option (S × Pointer w T) :=
  borrow M .shared size s o.ptr
/-- `into_mut`, ptr.rs 482-487. -/
def OnceRef.into_mut (M : Machine S T) (size : Nat) (s : S) (o : OnceRef w T) : Option (S × Pointer w T) :=
  borrow M .unique size s o.ptr
/-- `as_ref`, ptr.rs 501-503. -/
def OnceRef.as_ref (M : Machine S T) (size : Nat) (s : S) (o : OnceRef w T) : Option (S × Pointer w T) :=
  borrow M .shared size s o.ptr
/-- `as_mut`, ptr.rs 516-518. -/
def OnceRef.as_mut (M : Machine S T) (size : Nat) (s : S) (o : OnceRef w T) : Option (S × Pointer w T) :=
  borrow M .unique size s o.ptr

/-- `Ptr`, ptr.rs 43-47, is such a pointer as well: `new`, `from_ptr`, `into_nonnull`, `into_ptr`, `as_nonnull` and `as_ptr`, ptr.rs
244-262, 272-279, 301-308, hand it through. `from_ref`, ptr.rs 265-269. -/
def ptr_from_ref (M : Machine S T) (size : Nat) (s : S) (v : Pointer w T) : Option (S × Pointer w T) := do
  let (s, v) ← borrow M .shared size s v
  nonnull_from_ref M size s v
/-- `Ptr::into_ref` and `Ptr::as_ref`, ptr.rs 286-289, 315-317. -/
def ptr_as_ref (M : Machine S T) (size : Nat) (s : S) (p : Pointer w T) : Option (S × Pointer w T) := borrow M .shared size s p
/-- `Ptr::into_mut` and `Ptr::as_mut`, ptr.rs 296-299, 324-326. -/
def ptr_as_mut (M : Machine S T) (size : Nat) (s : S) (p : Pointer w T) : Option (S × Pointer w T) := borrow M .unique size s p

/-! ## Fields -/

/-- `field_of_ptr`, meta.rs 82-87: offsets and casts keep the tag. -/
def field_of_ptr (offset : BitVec w) (v : Pointer w T) : Pointer w T := { v with addr := Ffi.field_of_ptr offset v.addr }

/-- `container_of_ptr`, meta.rs 144-150. Here `none` is a panic. -/
def container_of_ptr (offset : BitVec w) (v : Pointer w T) : Option (Pointer w T) :=
  (Ffi.container_of_ptr offset v.addr).map fun addr => { v with addr }

/-- `field_of`, meta.rs 97-107: `&*field_of_ptr(v as *const C as *mut C)`. -/
def field_of (M : Machine S T) (container field : Nat) (offset : BitVec w) (s : S) (v : Pointer w T) : Option (S × Pointer w T) := do
  let (s, v) ← borrow M .shared container s v
  let (s, p) ← borrow M .rawConst container s v
  borrow M .shared field s (field_of_ptr offset p)

/-- `field_of_mut`, meta.rs 117-127: `&mut *field_of_ptr(v)`. -/
def field_of_mut (M : Machine S T) (container field : Nat) (offset : BitVec w) (s : S) (v : Pointer w T) :
    Option (S × Pointer w T) := do
  let (s, v) ← borrow M .unique container s v
  let (s, p) ← borrow M .rawMut container s v
  borrow M .unique field s (field_of_ptr offset p)

/-! ## Conversions of smart pointers -/

/-- The types that convert to a `OnceRef`, convert.rs 135-199. `Arc` is as `Rc`. -/
inductive Smart
  | ref
  | mut_
  | box
  | rc
deriving DecidableEq

/-- `into_deref`, convert.rs 135-139, 147-151, 159-165, 173-179, 187-191. `Box::into_raw()` is `&raw mut **b`; `Rc::into_raw()`
offsets the pointer to the allocation and thus keeps its tag. -/
def into_deref (M : Machine S T) (size : Nat) (s : S) (v : Pointer w T) : Smart → Option (S × OnceRef w T)
  | .ref => OnceRef.from_ref M size s v
  | .mut_ => OnceRef.from_mut M size s v
  | .box => do
    let (s, p) ← borrow M .rawMut size s v
    pure (s, .from_ptr p)
  | .rc => some (s, .from_ptr v)

/-- `from_deref`, convert.rs 141-145, 153-157, 167-171, 181-185, 193-197. A `Box` is unique like a mutable reference. -/
def from_deref (M : Machine S T) (size : Nat) (s : S) (o : OnceRef w T) : Smart → Option (S × Pointer w T)
  | .ref => borrow M .shared size s o.into_ptr
  | .mut_ => borrow M .unique size s o.into_ptr
  | .box => borrow M .unique size s o.into_ptr
  | .rc => some (s, o.into_ptr)

/-! ## Addresses

Casting a pointer to an integer exposes its tag. A pointer cast from an integer may be used as any exposed tag permits. -/

/-- `From<&Target>`, ffi/pointer.rs 600-611: `v as *const Target as usize`. -/
def address_of_ref (M : Machine S T) (size : Nat) (s : S) (exposed : List T) (v : Pointer w T) :
    Option (S × List T × BitVec w) := do
  let (s, v) ← borrow M .shared size s v
  let (s, p) ← borrow M .rawConst size s v
  pure (s, p.tag :: exposed, p.addr)

/-- `From<&mut Target>`, ffi/pointer.rs 613-624: `v as *mut Target as usize`. -/
def address_of_mut (M : Machine S T) (size : Nat) (s : S) (exposed : List T) (v : Pointer w T) :
    Option (S × List T × BitVec w) := do
  let (s, v) ← borrow M .unique size s v
  let (s, p) ← borrow M .rawMut size s v
  pure (s, p.tag :: exposed, p.addr)

/-- `TryFrom<*const Target>` and `TryFrom<*mut Target>`, ffi/pointer.rs 626-650: `v as usize`; the null pointer is refused. -/
def address_of_ptr (exposed : List T) (v : Pointer w T) : Option (List T × BitVec w) :=
  if v.addr = 0 then none else some (v.tag :: exposed, v.addr)

/-- `as_ref`, ffi/pointer.rs 99-106: `&*(addr as *const Target)`. -/
def ref_of_address (M : Machine S T) (size : Nat) (s : S) (exposed : List T) (addr : BitVec w) (s' : S) (r : Pointer w T) : Prop :=
  ∃ t ∈ exposed, borrow M .shared size s ⟨addr, t⟩ = some (s', r)

/-- `as_mut`, ffi/pointer.rs 118-125: `&mut *(addr as *mut Target)`. -/
def mut_of_address (M : Machine S T) (size : Nat) (s : S) (exposed : List T) (addr : BitVec w) (s' : S) (r : Pointer w T) : Prop :=
  ∃ t ∈ exposed, borrow M .unique size s ⟨addr, t⟩ = some (s', r)

/-! ## Tagged pointers -/

/-- `NonNull4`, ptr.rs 31-33, with the tag of the pointer in it. -/
structure Tagged4 (w : Nat) (T : Type) where
  raw : Ffi.NonNull4 w
  tag : T

/-- The calls of a history: `set_ptr_unchecked`, or one that only changes the metadata. -/
inductive Call4 (w : Nat) (T : Type)
  | setPtr (v : Pointer w T)
  | setMeta (m : BitVec w)
  | setMetaBit (bit : Nat) (f : Bool)

/-- `new`, ptr.rs 145-153. -/
def Tagged4.new (v : Pointer w T) : Option (Tagged4 w T) := (Ffi.NonNull4.new v.addr).map (⟨·, v.tag⟩)

/-- `ptr`, ptr.rs 159-165: `map_addr` keeps the tag. -/
def Tagged4.ptr (p : Tagged4 w T) : Pointer w T := ⟨p.raw.getPtr, p.tag⟩

/-- `set_ptr_unchecked`, `set_meta` and `set_meta_bit`, ptr.rs 198-226: `map_addr` of the new pointer or of the one in place. -/
def Tagged4.call (p : Tagged4 w T) : Call4 w T → Option (Tagged4 w T)
  | .setPtr v => some ⟨p.raw.setPtr v.addr, v.tag⟩
  | .setMeta m => some ⟨p.raw.setMeta m, p.tag⟩
  | .setMetaBit b f => (p.raw.setMetaBit b f).map (⟨·, p.tag⟩)

def Tagged4.calls (p : Tagged4 w T) : List (Call4 w T) → Option (Tagged4 w T)
  | [] => some p
  | c :: cs => (p.call c).bind (·.calls cs)

end Verif.Borrow
