import Verif.Wrap.SpecOwn
import Verif.Wrap.ModelPin
/-! # Specification for pointers obtained from pins (C79) -/
namespace Verif.Wrap
variable {V : Type}

/-- The functions that take a pinned smart pointer and yield a raw pointer, as documented ("yield a raw pointer to the
target", "convert a pinned reference to a `NonNull` pointer"). -/
inductive PinFn
  | asPtr | asMutPtr | nonnullRef | nonnullMut
deriving DecidableEq, Repr

def PinFn.call : PinFn → List (Obj V) → Pin Handle → PtrRes V
  | .asPtr => as_ptr
  | .asMutPtr => as_mut_ptr
  | .nonnullRef => nonnull_from_pin_ref
  | .nonnullMut => nonnull_from_pin_mut

/-- The smart pointers for which they can be called. -/
def PinFn.takes : PinFn → Kind → Prop
  | .asPtr, _ | .nonnullRef, _ => True
  | .asMutPtr, k | .nonnullMut, k => k = .excl ∨ k = .box

/-- The program has another pointer to the target of `h` that keeps it alive, or gave one up without destroying it. -/
def Shared (s : Prog V) (h : Handle) : Prop :=
  (∃ g ∈ s.handles.erase h, g.ptr = h.ptr) ∨ (∃ o ∈ s.onces, o.ptr = h.ptr) ∨ ∃ o ∈ s.lost, o.ptr = h.ptr

/-- A reference, not an owning pointer. -/
def Borrowed (h : Handle) : Prop := h.kind = .ref ∨ h.kind = .excl

/-- What is asked for: the pointer obtained from the pin points to the target, which is still there and unchanged. -/
def PinSound (V : Type) : Prop :=
  ∀ (s : Prog V), Reach s → ∀ h ∈ s.handles, ∀ f : PinFn, f.takes h.kind →
    ∃ objs', f.call s.objs ⟨h⟩ = .ok objs' h.ptr ∧ read objs' h.ptr = read s.objs h.ptr

end Verif.Wrap
