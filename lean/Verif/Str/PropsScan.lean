import Verif.Str.LemmasScan
/-! # Property theorems: the first difference decides natural order (C124) -/
namespace Verif.Str

/-- **C124** (a). Natural comparison is one scan of both strings that the first difference ends (`scan` in
SpecScan.lean), for all strings. -/
theorem natural_scan (cc : CharClass) (l r : List Char) : cmp_natural cc l r = scan cc [] l r := by
  have q := cmp_scan cc l r [] (by simp)
  exact q

-- the four ways in which strings part, and the end
example : cmp_natural ascii ['a', 'b', '1'] ['a', 'c'] = .lt := by rw [natural_scan]; decide +kernel
example : cmp_natural ascii ['a', '9'] ['a', '!'] = .lt := by rw [natural_scan]; decide +kernel
example : cmp_natural ascii ['a', '9', '!'] ['a', '9', '0'] = .lt := by rw [natural_scan]; decide +kernel
example : cmp_natural ascii ['a', '9', 'x'] ['a', '1', '0'] = .lt := by rw [natural_scan]; decide +kernel
example : cmp_natural ascii ['0', '7', 'z'] ['7', 'a'] = .lt := by rw [natural_scan]; decide +kernel
example : cmp_natural ascii ['a', '9'] ['a', '9', '!'] = .lt := by rw [natural_scan]; decide +kernel

/-- **C124** (b). Strings without numeric characters are in plain order. -/
theorem natural_plain (cc : CharClass) (l r : List Char) (hl : ∀ c ∈ l, cc.num c = false) (hr : ∀ c ∈ r, cc.num c = false) :
    cmp_natural cc l r = cmpStr l r := by
  have e : ∀ s : List Char, (∀ c ∈ s, cc.num c = false) → advance cc s = (s, [], []) := by
    intro s hs
    have := advance_text cc s [] hs
    simp only [List.append_nil] at this
    rw [this]
    show (s ++ [], _) = _
    rw [List.append_nil]; rfl
  by_cases h : l = [] ∧ r = []
  · obtain ⟨rfl, rfl⟩ := h
    rw [cmp_nil]; rfl
  · rw [cmp_step cc l r h, e l hl, e r hr, cmp_nil]
    cases cmpStr l r <;> rfl

example : cmp_natural ascii ['x', '-', 'b'] ['x', '.'] = .lt := by
  rw [natural_plain ascii _ _ (by decide) (by decide)]; decide +kernel

/-- **C124** (c). Strings with numbers at the same places, each with as many digits, are in plain order: where numbers
are padded to the same length, natural order and plain order are the same. -/
theorem natural_padded (cc : CharClass) (l r : List Char) (h : l.map cc.num = r.map cc.num) : cmp_natural cc l r = cmpStr l r := by
  rw [natural_scan]
  generalize ([] : List Char) = n
  induction l generalizing n r with
  | nil =>
    cases r with
    | nil => rfl
    | cons => simp at h
  | cons c l ih =>
    cases r with
    | nil => simp at h
    | cons d r =>
      simp only [List.map_cons, List.cons.injEq] at h
      obtain ⟨h1, h2⟩ := h
      rw [scan, cmpStr_cons]
      by_cases hcd : c = d
      · subst hcd
        rw [if_pos rfl, ih r h2, self_cmp]; rfl
      · rw [if_neg hcd, ← h1]
        have hne : (compare c d).then (cmpStr l r) = compare c d := by
          rw [← cmpStr_cons, cmpStr_ne hcd]
        rw [hne]
        cases hc : cc.num c
        · rfl
        · show runsScan _ _ c d = _
          unfold runsScan
          split
          · rename_i hN
            have hlen : ∀ (l r : List Char), l.map cc.num = r.map cc.num → (l.takeWhile cc.num).length = (r.takeWhile cc.num).length := by
              intro l
              induction l with
              | nil => intro r h; cases r with
                | nil => rfl
                | cons => simp at h
              | cons a l ih => intro r h; cases r with
                | nil => simp at h
                | cons b r =>
                  simp only [List.map_cons, List.cons.injEq] at h
                  rw [List.takeWhile_cons, List.takeWhile_cons, ← h.1]
                  cases cc.num a
                  · rfl
                  · simpa using ih r h.2
            exact same_length (hlen l r h2) hN.1.2.1 hN.2.2.1 hcd
          · rfl

example : cmp_natural ascii ['v', '0', '9', 'z'] ['v', '1', '0', 'a'] = .lt := by
  rw [natural_padded ascii _ _ (by decide)]; decide +kernel
-- without the padding it is not
example : cmp_natural ascii ['v', '9'] ['v', '1', '0'] = .lt ∧ cmpStr ['v', '9'] ['v', '1', '0'] = .gt := by
  rw [natural_scan]; decide +kernel

/-- **C124** (d). Whatever a string is continued with, it comes first. -/
theorem natural_prefix (cc : CharClass) (p y : List Char) (hy : y ≠ []) : cmp_natural cc p (p ++ y) = .lt := by
  rw [natural_scan]
  generalize ([] : List Char) = n
  induction p generalizing n with
  | nil =>
    cases y with
    | nil => exact absurd rfl hy
    | cons => rfl
  | cons c p ih => rw [List.cons_append, scan, if_pos rfl]; exact ih _

example : cmp_natural ascii ['a', '0'] (['a', '0'] ++ ['0']) = .lt := natural_prefix _ _ _ (by decide)

/-- **C124** (e). A common beginning that does not end within a number does not matter. -/
theorem natural_common (cc : CharClass) (p x y : List Char) (hp : ∀ c, p.getLast? = Option.some c → cc.num c = false) :
    cmp_natural cc (p ++ x) (p ++ y) = cmp_natural cc x y := cmp_common cc _ p x y (Nat.le_refl _) hp

example : cmp_natural ascii (['a', '1', '-'] ++ ['9']) (['a', '1', '-'] ++ ['1', '0']) = cmp_natural ascii ['9'] ['1', '0'] :=
  natural_common _ _ _ _ (by decide)
-- one that does, does
example : cmp_natural ascii (['1'] ++ ['x']) (['1'] ++ ['2']) = .lt ∧ cmp_natural ascii ['x'] ['2'] = .gt := by
  rw [natural_scan, natural_scan]; decide +kernel

/-- **C124** (f). Where no number is before, numbers come before all other characters, also those with smaller code
points. -/
theorem natural_numbers_first (cc : CharClass) (p x y : List Char) (c d : Char)
    (hp : ∀ c, p.getLast? = Option.some c → cc.num c = false) (hc : cc.num c = true) (hd : cc.num d = false) :
    cmp_natural cc (p ++ c :: x) (p ++ d :: y) = .lt := by
  rw [natural_common cc p _ _ hp]
  exact cmp_number_first cc c d x y hc hd

example : cmp_natural ascii (['a'] ++ ['9']) (['a'] ++ ['-', '1']) = .lt :=
  natural_numbers_first ascii ['a'] [] ['1'] '9' '-' (by decide) (by decide) (by decide)

end Verif.Str
