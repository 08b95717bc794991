import Verif.Args.Model
/-! # `slice::binary_search_by` of the standard library

The parser is verified for every search that does what the documentation of the standard library says
(`Searcher`). This is the actual one, for examples of what happens if its precondition does not hold. -/
namespace Verif.Args

variable {α : Type}

/-- The `while` of `binary_search_by`: `size` elements from `base` are left. `none` is an access out of bounds. -/
def bisect (f : α → Ordering) (l : List α) (base size : Nat) : Option Nat :=
  if size ≤ 1 then some base
  else
    match l[base + size / 2]? with
    | none => none
    | some a => bisect f l (if f a = .gt then base else base + size / 2) (size - size / 2)
termination_by size

/-- `binary_search_by(..).ok()`. -/
def binarySearch (f : α → Ordering) (l : List α) : Option Nat :=
  if l.length = 0 then none
  else
    match bisect f l 0 l.length with
    | none => none
    | some base =>
      match l[base]? with
      | none => none
      | some a => if f a = .eq then some base else none

/-- What the loop leaves: the last element that is not `Greater`, or the first one if all are. -/
theorem bisect_spec (f : α → Ordering) (l : List α) (hp : Partitioned f l) (base size : Nat) (hs : 0 < size)
    (hl : base + size ≤ l.length)
    (h1 : base = 0 ∨ ∃ a, l[base]? = some a ∧ f a ≠ .gt)
    (h2 : ∀ j a, base + size ≤ j → l[j]? = some a → f a = .gt) :
    ∃ i, bisect f l base size = some i ∧ i < l.length ∧ (i = 0 ∨ ∃ a, l[i]? = some a ∧ f a ≠ .gt)
      ∧ ∀ j a, i < j → l[j]? = some a → f a = .gt := by
  induction size using Nat.strongRecOn generalizing base with
  | ind size ih =>
    rw [bisect]
    by_cases h : size ≤ 1
    · rw [if_pos h]
      exact ⟨base, rfl, by omega, h1, fun j a hj ha => h2 j a (by omega) ha⟩
    · rw [if_neg h]
      have hm : base + size / 2 < l.length := by omega
      rw [List.getElem?_eq_getElem hm]
      simp only []
      by_cases hg : f l[base + size / 2] = .gt
      · rw [if_pos hg]
        refine ih _ (by omega) base (by omega) (by omega) h1 fun j a hj ha => ?_
        rcases Nat.lt_or_ge (base + size / 2) j with hlt | hge
        · obtain ⟨hjl, rfl⟩ := List.getElem?_eq_some_iff.mp ha
          exact (List.pairwise_iff_getElem.mp hp _ _ hm hjl hlt).2 hg
        · rcases Nat.lt_or_ge j (base + size / 2) with hlt | hge'
          · -- `size - size / 2 ≥ size / 2`, so this is the middle or behind it
            omega
          · have : j = base + size / 2 := by omega
            subst this
            rw [List.getElem?_eq_getElem hm] at ha
            cases ha; exact hg
      · rw [if_neg hg]
        exact ih _ (by omega) _ (by omega) (by omega) (.inr ⟨_, List.getElem?_eq_getElem hm, hg⟩)
          fun j a hj ha => h2 j a (by omega) ha

/-- The search of the standard library is an allowed one. -/
def stdSearcher : Searcher where
  run := binarySearch
  found f l i _ h := by
    unfold binarySearch at h
    split at h
    · cases h
    · split at h
      · cases h
      · split at h
        · cases h
        · split at h
          · cases h; exact ⟨_, ‹_›, ‹_›⟩
          · cases h
  missing f l hp h a ha := by
    unfold binarySearch at h
    have hl : 0 < l.length := List.length_pos_of_mem ha
    obtain ⟨i, hi, hil, h1, h2⟩ := bisect_spec f l hp 0 l.length hl (by omega) (.inl rfl)
      fun j a hj ha => by rw [List.getElem?_eq_none (by omega)] at ha; cases ha
    rw [if_neg (by omega), hi] at h
    simp only [List.getElem?_eq_getElem hil] at h
    intro he
    obtain ⟨k, hk, rfl⟩ := List.getElem_of_mem ha
    by_cases hf : f l[i] = .eq
    · rw [if_pos hf] at h; cases h
    rcases Nat.lt_trichotomy k i with hlt | rfl | hgt
    · rcases h1 with rfl | ⟨a, ha', hg⟩
      · omega
      rw [List.getElem?_eq_getElem hil] at ha'
      cases ha'
      have hlt' : f l[i] = .lt := by
        cases hc : f l[i] with
        | lt => rfl
        | eq => exact absurd hc hf
        | gt => exact absurd hc hg
      rw [(List.pairwise_iff_getElem.mp hp _ _ hk hil hlt).1 hlt'] at he
      cases he
    · exact hf he
    · rw [h2 k _ hgt (List.getElem?_eq_getElem hk)] at he; cases he

end Verif.Args
