import Verif.Types.SpecTypes
/-! # The types of `lib/osi` whose subtyping and thread safety is documented -/
namespace Verif.Types

variable {L : Type}

/-- `()`. -/
def tyUnit : Ty L := .plain 0 true true 0 1

/-- `i32`. -/
def tyI32 : Ty L := .plain 1 true true 4 4

/-- `PhantomInvariant<T>`, marker.rs 34-36. -/
def PhantomInvariant (t : Ty L) : Ty L := .adt .phantomInvariant false (.field (.phantom (.fnPtr t t)) .nil)

/-- `PhantomInvariantLifetime<'a>`, marker.rs 53-55. -/
def PhantomInvariantLifetime (a : L) : Ty L :=
  .adt .phantomInvariantLifetime false (.field (PhantomInvariant (.ref a tyUnit)) .nil)

/-- `Id<'brand>`, brand.rs 24-26. -/
def Id (brand : L) : Ty L := .adt .id false (.field (PhantomInvariantLifetime brand) .nil)

/-- `Unique<'brand>`, brand.rs 37-39. -/
def Unique (brand : L) : Ty L := .adt .unique false (.field (Id brand) .nil)

/-- `NonNull4<T>`, ptr.rs 32-34. -/
def NonNull4 (t : Ty L) : Ty L := .adt .nonNull4 false (.field (.nonNull t) .nil)

/-- `Ptr<'a, T>`, ptr.rs 44-48, and its implementations of `Send` and `Sync`, ptr.rs 330-336. -/
def Ptr (a : L) (t : Ty L) : Ty L :=
  .impl t (fun send sync => send && sync) (fun _ sync => sync)
    (.adt .ptr false (.field (.nonNull t) (.field (.phantom (.ref a t)) (.field (.phantom (.refMut a t)) .nil))))

/-- `OnceRef<'a, T>`, ptr.rs 73-77, and its implementations of `Send` and `Sync`, ptr.rs 523-531. -/
def OnceRef (a : L) (t : Ty L) : Ty L :=
  .impl t (fun send sync => send && sync) (fun _ sync => sync)
    (.adt .onceRef false (.field (.nonNull t) (.field (.phantom (.ref a t)) (.field (.phantom (.refMut a t)) .nil))))

/-- `ffi::Pointer<Address, Target>`, ffi/pointer.rs 137-141. -/
def Pointer (address target : Ty L) : Ty L :=
  .adt .pointer false (.field address (.field (.phantom (.ptrConst target)) .nil))

/-- `Mown<'a, B, O>`, mown.rs 19-22. -/
def Mown (a : L) (borrowed owned : Ty L) : Ty L := .adt .mown false (.field (.ref a borrowed) (.field owned .nil))

/-- `SuperType`, test.rs 9. -/
def SuperType (s : Scope L) : Ty L := .fnPtr (.ref s.static tyI32) (.ref s.static tyI32)

/-- `SubType`, test.rs 20. -/
def SubType : Ty L := .hr fun a => .fnPtr (.ref a tyI32) (.ref a tyI32)

/-- `CovariantType<T>`, test.rs 37-40. -/
def CovariantType (t : Ty L) : Ty L := .adt .covariantType true (.field (.array 0 (.ptrConst t)) .nil)

/-- `ContravariantType<T>`, test.rs 58-61. -/
def ContravariantType (t : Ty L) : Ty L := .adt .contravariantType true (.field (.array 0 (.fnPtr t tyUnit)) .nil)

/-- `InvariantType<T>`, test.rs 79-82. -/
def InvariantType (t : Ty L) : Ty L := .adt .invariantType true (.field (.array 0 (.ptrMut t)) .nil)

end Verif.Types
