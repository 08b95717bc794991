import Verif.Wrap.ModelCmp
/-! # Specification for the comparison wrappers (C68): what sorted and hashed collections rely on -/
namespace Verif.Wrap

/-- Equality is an equivalence, the order is a total one that is consistent with equality, the two ways to
compare agree, and equal values hash alike. -/
structure Lawful {α σ : Type} (i : Impl α σ) : Prop where
  refl : ∀ a, i.eq a a = true
  symm : ∀ a b, i.eq a b = true → i.eq b a = true
  trans : ∀ a b c, i.eq a b = true → i.eq b c = true → i.eq a c = true
  cmp_eq : ∀ a b, i.cmp a b = .eq ↔ i.eq a b = true
  cmp_swap : ∀ a b, i.cmp b a = (i.cmp a b).swap
  cmp_trans : ∀ a b c, i.cmp a b ≠ .gt → i.cmp b c ≠ .gt → i.cmp a c ≠ .gt
  partial_cmp : ∀ a b, i.partial_cmp a b = some (i.cmp a b)
  hash : ∀ a b, i.eq a b = true → ∀ s, i.hash a s = i.hash b s

end Verif.Wrap
