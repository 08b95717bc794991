import Verif.Wrap.SpecOnce
import Verif.Wrap.PropsCmp
/-! # Property theorems: `OnceRef` used as a reference (C85) -/
namespace Verif.Wrap

variable {V σ : Type}

theorem once_eq (hashNat : Nat → σ → σ) (a b : RawPtr Unit) : (onceImpl hashNat).eq ⟨a⟩ ⟨b⟩ = true ↔ a.addr = b.addr := by
  simp [onceImpl, Wrapped.impl, RawPtr.impl, unitImpl]

theorem once_cmp (hashNat : Nat → σ → σ) (a b : RawPtr Unit) : (onceImpl hashNat).cmp ⟨a⟩ ⟨b⟩ = compare a.addr b.addr := by
  show (if a.addr = b.addr then Ordering.eq else compare a.addr b.addr) = _
  by_cases h : a.addr = b.addr
  · rw [if_pos h, h, Nat.compare_eq_eq.mpr rfl]
  · rw [if_neg h]

/-- C85 (the part that holds). `OnceRef`s that are equal are equal as references, compare as equal and have the same hash as references. Not so the other way round, see
`once_as_reference`. -/
theorem once_reference_partial (hashNat : Nat → σ → σ) (mem : Nat → V) (i : Impl V σ) (h : Lawful i) (a b : RawPtr Unit)
    (he : (onceImpl hashNat).eq ⟨a⟩ ⟨b⟩ = true) :
    (refImpl mem i).eq a b = true ∧ (refImpl mem i).cmp a b = .eq ∧ (refImpl mem i).partial_cmp a b = some .eq
    ∧ ∀ s, (refImpl mem i).hash a s = (refImpl mem i).hash b s := by
  have e := (once_eq hashNat a b).mp he
  simp only [refImpl, e]
  refine ⟨h.refl _, (h.cmp_eq _ _).mpr (h.refl _), ?_, fun _ => trivial⟩
  rw [h.partial_cmp, (h.cmp_eq _ _).mpr (h.refl _)]

/-- C85. `OnceRef`s are equal exactly when the references are only if no two places hold equal values, and ordered as the
references are only if all of memory is sorted. -/
theorem once_as_reference (hashNat : Nat → σ → σ) (mem : Nat → V) (i : Impl V σ) (h : Lawful i) :
    ((∀ a b, (onceImpl hashNat).eq ⟨a⟩ ⟨b⟩ = (refImpl mem i).eq a b) ↔ ∀ p q, i.eq (mem p) (mem q) = true → p = q)
    ∧ ((∀ a b, (onceImpl hashNat).cmp ⟨a⟩ ⟨b⟩ = (refImpl mem i).cmp a b) ↔ ∀ p q, p < q → i.cmp (mem p) (mem q) = .lt) := by
  refine ⟨⟨fun H p q he => ?_, fun H a b => ?_⟩, fun H p q hl => ?_, fun H a b => ?_⟩
  · exact (once_eq hashNat ⟨p, ()⟩ ⟨q, ()⟩).mp ((H ⟨p, ()⟩ ⟨q, ()⟩).trans he)
  · rw [Bool.eq_iff_iff, once_eq]
    exact ⟨fun e => by simp only [refImpl, e]; exact h.refl _, H _ _⟩
  · have := H ⟨p, ()⟩ ⟨q, ()⟩
    rw [once_cmp] at this
    rw [show i.cmp (mem p) (mem q) = compare p q from this.symm]
    exact Nat.compare_eq_lt.mpr hl
  · rw [once_cmp]
    show _ = i.cmp (mem a.addr) (mem b.addr)
    rcases Nat.lt_trichotomy a.addr b.addr with hl | he | hg
    · rw [H _ _ hl, Nat.compare_eq_lt.mpr hl]
    · rw [he, (h.cmp_eq _ _).mpr (h.refl _), Nat.compare_eq_eq.mpr rfl]
    · rw [h.cmp_swap, H _ _ hg, Nat.compare_eq_gt.mpr hg]; rfl

/-- C85 is violated: as soon as two places hold equal values, there are references that are equal, and the `OnceRef`s made from
them are not; they are even strictly ordered. -/
theorem once_not_reference (hashNat : Nat → σ → σ) (mem : Nat → V) (i : Impl V σ) (h : Lawful i) (p q : Nat) (hl : p < q)
    (he : i.eq (mem p) (mem q) = true) :
    (refImpl mem i).eq ⟨p, ()⟩ ⟨q, ()⟩ = true ∧ (onceImpl hashNat).eq ⟨⟨p, ()⟩⟩ ⟨⟨q, ()⟩⟩ = false
    ∧ (refImpl mem i).cmp ⟨p, ()⟩ ⟨q, ()⟩ = .eq ∧ (onceImpl hashNat).cmp ⟨⟨p, ()⟩⟩ ⟨⟨q, ()⟩⟩ = .lt := by
  refine ⟨he, ?_, (h.cmp_eq _ _).mpr he, ?_⟩
  · rw [Bool.eq_false_iff, ne_eq, once_eq]; exact Nat.ne_of_lt hl
  · rw [once_cmp]; exact Nat.compare_eq_lt.mpr hl

/-! ## Examples -/

-- Two variables at 16 and 24 hold the value 7, one at 32 holds 3.
example : let mem := fun p => if p < 32 then 7 else 3
    (refImpl mem natImpl).eq ⟨16, ()⟩ ⟨24, ()⟩ = true ∧ (onceImpl List.cons).eq ⟨⟨16, ()⟩⟩ ⟨⟨24, ()⟩⟩ = false
    ∧ (refImpl mem natImpl).cmp ⟨16, ()⟩ ⟨32, ()⟩ = .gt ∧ (onceImpl List.cons).cmp ⟨⟨16, ()⟩⟩ ⟨⟨32, ()⟩⟩ = .lt := by decide

example := once_not_reference List.cons (fun p => if p < 32 then 7 else 3) natImpl nat_lawful 16 24 (by decide) rfl

end Verif.Wrap
