import Verif.Types.LemmasTypes
/-! # Properties of the documented variance, thread safety and layout of types (C83) -/
namespace Verif.Types

variable {L : Type} (s : Scope L)

/-- C83. The rules make subtyping a preorder, for all types: a value can be used as its own type, and conversions compose. -/
theorem subtyping_preorder : (∀ t : Ty L, Sub s t t) ∧ ∀ t m u : Ty L, Sub s t m → Sub s m u → Sub s t u :=
  ⟨Sub.refl s, fun _ _ _ h1 h2 => Sub.trans h1 h2⟩

/-- C83. The covariant type converts exactly as its parameter does, the contravariant type exactly in the other direction, the
invariant one exactly if the parameters convert in both. -/
theorem variance_of_test_types (t u : Ty L) :
    (Sub s (CovariantType t) (CovariantType u) ↔ Sub s t u)
    ∧ (Sub s (ContravariantType t) (ContravariantType u) ↔ Sub s u t)
    ∧ (Sub s (InvariantType t) (InvariantType u) ↔ Sub s t u ∧ Sub s u t) := by
  simp only [CovariantType, ContravariantType, InvariantType, sub_adt, sub_field, sub_array, sub_ptrConst, sub_ptrMut, sub_fnPtr,
    sub_nil, sub_same, and_true, true_and]

/-- C83. `SubType` is a subtype of `SuperType`, and not the other way round, unless all lifetimes are `'static`. -/
theorem sub_and_super : Sub s SubType (SuperType s)
    ∧ (Sub s (SuperType s) SubType ↔ ∀ a, s.outlives a s.static) := by
  refine ⟨.inst s.static (Sub.refl s _), fun h a => ?_, fun h => .gen fun a => ?_⟩
  · cases h with
    | gen h =>
      have := h a
      simp only [SuperType, sub_fnPtr, sub_ref] at this
      exact this.1.1
  · simp only [SuperType, sub_fnPtr, sub_ref, sub_same, and_true]
    exact ⟨h a, s.longest a⟩

/-- C83. The markers of invariance: types with them convert only if the parameters convert in both directions, lifetimes only
if they are the same. -/
theorem markers_invariant (t u : Ty L) (a b : L) :
    (Sub s (PhantomInvariant t) (PhantomInvariant u) ↔ Sub s t u ∧ Sub s u t)
    ∧ (Sub s (PhantomInvariantLifetime a) (PhantomInvariantLifetime b) ↔ s.same a b) := by
  simp only [PhantomInvariant, PhantomInvariantLifetime, sub_adt, sub_field, sub_phantom, sub_fnPtr, sub_ref, sub_nil, sub_same,
    and_true, true_and, Scope.same]
  exact ⟨and_comm, and_comm⟩

/-- C83. `OnceRef` and `Ptr` convert exactly as mutable references do: lifetimes can be shortened, the target is invariant. -/
theorem pointers_like_mut (a b : L) (t u : Ty L) :
    (Sub s (OnceRef a t) (OnceRef b u) ↔ Sub s (.refMut a t) (.refMut b u))
    ∧ (Sub s (Ptr a t) (Ptr b u) ↔ Sub s (.refMut a t) (.refMut b u)) := by
  simp only [OnceRef, Ptr, sub_impl, sub_adt, sub_field, sub_nonNull, sub_phantom, sub_ref, sub_refMut, sub_nil, and_true, true_and]
  exact ⟨⟨fun h => h.2.2, fun h => ⟨h.2.1, ⟨h.1, h.2.1⟩, h⟩⟩, ⟨fun h => h.2.2, fun h => ⟨h.2.1, ⟨h.1, h.2.1⟩, h⟩⟩⟩

/-- C83. `NonNull4` converts as `NonNull`, `Pointer` as its address and a `*const` of its target, `Mown` as the reference and
the owned type it stands for. -/
theorem wrappers_like_inner (a b : L) (t u x y : Ty L) :
    (Sub s (NonNull4 t) (NonNull4 u) ↔ Sub s (.nonNull t) (.nonNull u))
    ∧ (Sub s (Pointer x t) (Pointer y u) ↔ Sub s x y ∧ Sub s (.ptrConst t) (.ptrConst u))
    ∧ (Sub s (Mown a t x) (Mown b u y) ↔ Sub s (.ref a t) (.ref b u) ∧ Sub s x y) := by
  simp only [NonNull4, Pointer, Mown, sub_adt, sub_field, sub_nonNull, sub_phantom, sub_ref, sub_nil, and_true, true_and, and_self]

/-- C83. `OnceRef` and `Ptr` can be sent to, or shared with, another thread exactly if this is possible with both kinds of
references. -/
theorem pointers_threads (a : L) (t : Ty L) :
    (OnceRef a t).send = ((Ty.ref a t).send && (Ty.refMut a t).send)
    ∧ (OnceRef a t).sync = ((Ty.ref a t).sync && (Ty.refMut a t).sync)
    ∧ (Ptr a t).send = ((Ty.ref a t).send && (Ty.refMut a t).send)
    ∧ (Ptr a t).sync = ((Ty.ref a t).sync && (Ty.refMut a t).sync) := by
  simp only [OnceRef, Ptr, Ty.send, Ty.sync, Ty.traits, Bool.and_self, and_true]
  cases t.traits.1 <;> cases t.traits.2 <;> decide

/-- C83. Other pointers stay on their thread, as raw pointers do; markers of invariance do not depend on their parameter. -/
theorem others_threads (a : L) (t x : Ty L) :
    ((NonNull4 t).send = false ∧ (NonNull4 t).sync = false) ∧ ((Pointer x t).send = false ∧ (Pointer x t).sync = false)
    ∧ ((PhantomInvariant t).send = true ∧ (PhantomInvariant t).sync = true)
    ∧ ((Id a).send = true ∧ (Id a).sync = true) ∧ ((Unique a).send = true ∧ (Unique a).sync = true)
    ∧ (Mown a t x).send = (t.sync && x.send) ∧ (Mown a t x).sync = (t.sync && x.sync) := by
  simp [NonNull4, Pointer, PhantomInvariant, PhantomInvariantLifetime, Id, Unique, Mown, Ty.send, Ty.sync, Ty.traits]

/-- C83. Brands, markers and the types for tests of variance are of size 0 and alignment 1, for every parameter, also where
pointers to it are wide. -/
theorem markers_are_empty (w : Pointers L) (a : L) (t : Ty L) :
    (PhantomInvariant t).IsOneZst w ∧ (PhantomInvariantLifetime a).IsOneZst w ∧ (Id a).IsOneZst w ∧ (Unique a).IsOneZst w
    ∧ (CovariantType t).IsOneZst w ∧ (ContravariantType t).IsOneZst w ∧ (InvariantType t).IsOneZst w := by
  simp [Ty.IsOneZst, PhantomInvariant, PhantomInvariantLifetime, Id, Unique, CovariantType, ContravariantType, InvariantType,
    Ty.layout]

/-- C83. Pointer types are not larger than the pointer they hold. -/
theorem pointers_transparent (w : Pointers L) (a : L) (t : Ty L) (hw : 1 ≤ w.align) :
    (OnceRef a t).layout w = some (w.size t, w.align) ∧ (Ptr a t).layout w = some (w.size t, w.align)
    ∧ (NonNull4 t).layout w = some (w.size t, w.align) := by
  simp [OnceRef, Ptr, NonNull4, Ty.layout, Nat.max_eq_left hw]

/-! ## Examples -/

/-- Two lifetimes, of which `true` is `'static`. -/
def twoLifetimes : Scope Bool where
  outlives a b := a = true ∨ b = false
  refl a := by cases a <;> simp
  trans a b c := by cases a <;> cases b <;> cases c <;> simp
  static := true
  longest _ := .inl rfl

-- A reference can be used where a shorter one is expected; a `OnceRef` of references cannot.
example : Sub twoLifetimes (.ref false (.ref true tyI32)) (.ref false (.ref false tyI32))
    ∧ ¬ Sub twoLifetimes (OnceRef false (.ref true tyI32)) (OnceRef false (.ref false tyI32))
    ∧ Sub twoLifetimes (OnceRef true tyI32) (OnceRef false tyI32) := by
  rw [(pointers_like_mut ..).1, (pointers_like_mut ..).1]
  simp only [sub_ref, sub_refMut, sub_same, twoLifetimes]
  decide

example : ¬ Sub twoLifetimes (SuperType twoLifetimes) SubType := by
  rw [(sub_and_super _).2]
  intro h
  have := h false
  simp [twoLifetimes] at this

-- A type that can be sent but not shared, as `Cell<i32>`: references to it cannot be sent, so neither can a `OnceRef`.
example : (OnceRef () (.cell tyI32)).send = false ∧ (Ty.refMut () (.cell tyI32)).send = true := by decide

end Verif.Types
