import Verif.Types.LemmasCoerce
/-! # Properties of `coerce_unsafe!`

C90: code that compiles with Polonius does the same without it. -/
namespace Verif.Types

variable {W : World} {a b : CTy} {es : List Effect}

/-- C90. (`_partial`: see `deref_differs` and `load_differs`.) Coercions that do not look through a pointer, however many: if the code
compiles without Polonius, then it does the same as with it. -/
theorem coerce_same_partial (h : Coerces a b es) (hf : es.all Effect.flat = true) (hn : a ≠ .never) (v : List Nat)
    (hc : coerceUnsafe false W a b es v ≠ .error) : coerceUnsafe false W a b es v = coerceUnsafe true W a b es v := by
  have e : coerceUnsafe false W a b es v = if a.size W = b.size W ∧ a.size W ≠ none then .value v else .error := rfl
  rw [e] at hc ⊢
  rcases flat_cases (W := W) h hf hn with ⟨h1, h2⟩ | ⟨_, h2⟩
  · by_cases h3 : a.size W = b.size W ∧ a.size W ≠ none
    · rw [if_pos h3]
      simp [coerceUnsafe, runs_same v es h1]
    · rw [if_neg h3] at hc
      exact absurd rfl hc
  · rw [if_neg fun h3 => h2 h3.1] at hc
    exact absurd rfl hc

/-- C90. It compiles without Polonius exactly if the type has a size and the coercions change nothing but lifetimes and mutability. -/
theorem coerce_compiles (h : Coerces a b es) (hf : es.all Effect.flat = true) (hn : a ≠ .never) (v : List Nat) :
    coerceUnsafe false W a b es v ≠ .error ↔ a.size W ≠ none ∧ ∀ e ∈ es, e = .same := by
  have e : coerceUnsafe false W a b es v = if a.size W = b.size W ∧ a.size W ≠ none then .value v else .error := rfl
  rw [e]
  rcases flat_cases (W := W) h hf hn with ⟨h1, h2⟩ | ⟨⟨x, h1, h3⟩, h2⟩
  · by_cases h3 : a.size W = none
    · rw [if_neg fun h => h.2 h3]
      exact ⟨fun h => absurd rfl h, fun h => absurd h3 h.1⟩
    · rw [if_pos ⟨h2, h3⟩]
      exact ⟨fun _ => ⟨h3, h1⟩, fun _ h => by cases h⟩
  · rw [if_neg fun h => h2 h.1]
    exact ⟨fun h => absurd rfl h, fun h => absurd (h.2 x h1) h3⟩

/-- As in the tests, polonius.rs 60-66: from `&mut u16` to `&u16`. -/
example : Coerces (.ref true .int) (.ref false .int) [.same] ∧ coerceUnsafe false ⟨fun _ => 0, fun _ => 1, fun _ _ => [], 0⟩ (.ref true .int) (.ref false .int) [.same] [64] = .value [64] :=
  ⟨.cons (.freeze _) (.nil _), by decide⟩

/-- C90, disagreement. A reference to an object with `Deref` and a thin target is coerced to one to the target. This
compiles without Polonius, too, but yields the address of the object itself: the same exactly if `deref` returns it. -/
theorem deref_differs (W : World) (m m' : Bool) (k : Nat) (t : CTy) (hm : m' = true → m = true) (ht : t.pointer = 1) (addr : Nat) :
    Coerces (.ref m (.smart k t)) (.ref m' t) [.deref k]
      ∧ coerceUnsafe true W (.ref m (.smart k t)) (.ref m' t) [.deref k] [addr] = .value (W.deref k addr)
      ∧ coerceUnsafe false W (.ref m (.smart k t)) (.ref m' t) [.deref k] [addr] = .value [addr] := by
  refine ⟨.cons (.deref m m' k t hm) (.nil _), rfl, ?_⟩
  have e : (CTy.smart k t).pointer = 1 := rfl
  simp [coerceUnsafe, transmute, CTy.size, e, ht]

/-- C90, disagreement. A reference to a reference is coerced to the inner one. Without Polonius it stays the outer one. -/
theorem load_differs (W : World) (m n m' : Bool) (t : CTy) (hm : m' = true → m = true ∧ n = true) (ht : t.pointer = 1) (addr : Nat) :
    Coerces (.ref m (.ref n t)) (.ref m' t) [.load 1]
      ∧ coerceUnsafe true W (.ref m (.ref n t)) (.ref m' t) [.load 1] [addr] = .value [W.mem addr]
      ∧ coerceUnsafe false W (.ref m (.ref n t)) (.ref m' t) [.load 1] [addr] = .value [addr] := by
  refine ⟨?_, rfl, ?_⟩
  · have := Step.load m n m' t hm
    rw [ht] at this
    exact .cons this (.nil _)
  · have e : (CTy.ref n t).pointer = 1 := rfl
    simp [coerceUnsafe, transmute, CTy.size, e, ht]

/-- C90, disagreement. A box at 8 whose content is at 64: what is read through the result is the content with Polonius, and the address of
the content without. -/
theorem box_garbage : ∃ W : World, (∀ addr, W.deref 0 addr = [W.mem addr])
    ∧ ∃ p q, coerceUnsafe true W (.ref false (.smart 0 .int)) (.ref false .int) [.deref 0] [8] = .value [p] ∧ W.mem p = 7
      ∧ coerceUnsafe false W (.ref false (.smart 0 .int)) (.ref false .int) [.deref 0] [8] = .value [q] ∧ W.mem q = 64 :=
  ⟨⟨fun a => if a = 8 then 64 else 7, fun _ => 1, fun _ a => [if a = 8 then 64 else 7], 0⟩, fun _ => rfl, 64, 8, by decide, by decide,
    by decide, by decide⟩

/-! ## Checked offsets -/

/-- C91. (`_partial`: see `offset_slice`.) A checked offset is given out for the type of the field, and for no other type with
a size. -/
theorem offset_checked_partial (W : World) (f ty : CTy) (hs : ty.size W ≠ none) : TypedOffset f ty ↔ ty = f := by
  rw [offset_cases]
  constructor
  · rintro (h | ⟨u, n, _, rfl⟩)
    · exact h
    · exact absurd rfl hs
  · exact .inl

/-- C91, disagreement. A field that is an array is accepted as a slice, too; all other types are refused. -/
theorem offset_slice (f ty : CTy) (hne : ty ≠ f) : TypedOffset f ty ↔ ∃ u n, f = .array u n ∧ ty = .slice u := by
  rw [offset_cases]
  constructor
  · rintro (h | h)
    · exact absurd h hne
    · exact h
  · exact .inr

example : TypedOffset .int .int ∧ ¬ TypedOffset .int .fnPtr ∧ ¬ TypedOffset (.ref true .int) (.ref false .int)
    ∧ TypedOffset (.array .int 4) (.slice .int) := by
  refine ⟨(offset_cases _ _).mpr (.inl rfl), fun h => ?_, fun h => ?_, (offset_cases _ _).mpr (.inr ⟨_, _, rfl, rfl⟩)⟩ <;>
  · rcases (offset_cases _ _).mp h with h | ⟨_, _, h, _⟩ <;> cases h

end Verif.Types
