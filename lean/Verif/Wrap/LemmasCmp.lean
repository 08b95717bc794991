import Verif.Wrap.SpecCmp
/-! # Helper lemmas for the comparison wrappers -/
namespace Verif.Wrap
variable {σ M : Type}

theorem lawful_map {α β : Type} (i : Impl β σ) (h : Lawful i) (f : α → β) :
    Lawful ({ eq := fun a b => i.eq (f a) (f b), partial_cmp := fun a b => i.partial_cmp (f a) (f b),
              cmp := fun a b => i.cmp (f a) (f b), hash := fun a => i.hash (f a) } : Impl α σ) where
  refl a := h.refl _
  symm a b := h.symm _ _
  trans a b c := h.trans _ _ _
  cmp_eq a b := h.cmp_eq _ _
  cmp_swap a b := h.cmp_swap _ _
  cmp_trans a b c := h.cmp_trans _ _ _
  partial_cmp a b := h.partial_cmp _ _
  hash a b := h.hash _ _

theorem unit_lawful : Lawful (unitImpl : Impl Unit σ) where
  refl _ := rfl
  symm _ _ _ := rfl
  trans _ _ _ _ _ := rfl
  cmp_eq _ _ := ⟨fun _ => rfl, fun _ => rfl⟩
  cmp_swap _ _ := rfl
  cmp_trans _ _ _ _ _ := by simp [unitImpl]
  partial_cmp _ _ := rfl
  hash _ _ _ _ := rfl

theorem compare_cases (a b : Nat) :
    (a < b ∧ compare a b = .lt) ∨ (a = b ∧ compare a b = .eq) ∨ (b < a ∧ compare a b = .gt) := by
  rcases Nat.lt_trichotomy a b with h | h | h
  · exact .inl ⟨h, Nat.compare_eq_lt.mpr h⟩
  · exact .inr (.inl ⟨h, Nat.compare_eq_eq.mpr h⟩)
  · exact .inr (.inr ⟨h, Nat.compare_eq_gt.mpr h⟩)

theorem raw_lawful (hashNat : Nat → σ → σ) (i : Impl M σ) (h : Lawful i) : Lawful (RawPtr.impl hashNat i) where
  refl a := by simp [RawPtr.impl, h.refl]
  symm a b hab := by
    simp only [RawPtr.impl, Bool.and_eq_true, beq_iff_eq] at hab ⊢
    exact ⟨hab.1.symm, h.symm _ _ hab.2⟩
  trans a b c hab hbc := by
    simp only [RawPtr.impl, Bool.and_eq_true, beq_iff_eq] at hab hbc ⊢
    exact ⟨hab.1.trans hbc.1, h.trans _ _ _ hab.2 hbc.2⟩
  cmp_eq a b := by
    simp only [RawPtr.impl, Bool.and_eq_true, beq_iff_eq]
    by_cases e : a.addr = b.addr
    · rw [if_pos e, h.cmp_eq]; exact ⟨fun x => ⟨e, x⟩, fun x => x.2⟩
    · rw [if_neg e, Nat.compare_eq_eq]; exact ⟨fun x => absurd x e, fun x => absurd x.1 e⟩
  cmp_swap a b := by
    simp only [RawPtr.impl]
    by_cases e : a.addr = b.addr
    · rw [if_pos e, if_pos e.symm, h.cmp_swap]
    · rw [if_neg e, if_neg (Ne.symm e), Nat.compare_swap]
  cmp_trans a b c hab hbc := by
    simp only [RawPtr.impl] at hab hbc ⊢
    by_cases e : a.addr = b.addr
    · rw [if_pos e] at hab
      by_cases f : b.addr = c.addr
      · rw [if_pos f] at hbc
        rw [if_pos (e.trans f)]
        exact h.cmp_trans _ _ _ hab hbc
      · rw [if_neg f] at hbc
        rwa [if_neg (e ▸ f), e]
    · rw [if_neg e] at hab
      by_cases f : b.addr = c.addr
      · rwa [if_neg (f ▸ e), ← f]
      · rw [if_neg f] at hbc
        rw [ne_eq, Nat.compare_eq_gt] at hab hbc
        have : a.addr ≠ c.addr := by omega
        rw [if_neg this, ne_eq, Nat.compare_eq_gt]
        omega
  partial_cmp a b := by
    simp only [RawPtr.impl]
    by_cases e : a.addr = b.addr
    · rw [if_pos e, if_pos e, h.partial_cmp]
    · rw [if_neg e, if_neg e]
  hash a b hab s := by
    simp only [RawPtr.impl, Bool.and_eq_true, beq_iff_eq] at hab ⊢
    rw [hab.1]
    exact h.hash _ _ hab.2 _

end Verif.Wrap
