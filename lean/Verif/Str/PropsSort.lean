import Verif.Str.LemmasSort
/-! # Property theorems: sorting in natural order (C135) and symbols of different strings (C136) -/
namespace Verif.Str

/-- **C135** (a). Sortable strings have one arrangement in natural order. -/
theorem sort_unique_partial (cc : CharClass) (l : List (List Char)) (hl : ∀ s ∈ l, Sortable cc s) :
    ∃ l', Sorted cc l l' ∧ ∀ l'', Sorted cc l l'' → l'' = l' := by
  have ex : ∃ l', Sorted cc l l' := by
    induction l with
    | nil => exact ⟨[], List.Perm.refl _, List.Pairwise.nil⟩
    | cons s l ih =>
      obtain ⟨l', hp, hi⟩ := ih (fun x h => hl x (List.mem_cons_of_mem _ h))
      obtain ⟨l'', hp', hi'⟩ := insert_sorted cc s (hl s (List.mem_cons_self ..)) l'
        (fun x h => hl x (List.mem_cons_of_mem _ (hp.mem_iff.mp h))) hi
      exact ⟨l'', hp'.trans (hp.cons s), hi'⟩
  obtain ⟨l', hp, hi⟩ := ex
  refine ⟨l', ⟨hp, hi⟩, fun l'' ⟨hp', hi'⟩ => ?_⟩
  refine List.Perm.eq_of_pairwise (le := fun a b => cmp_natural cc a b ≠ .gt) ?_ hi' hi (hp'.trans hp.symm)
  intro a b _ _ h1 h2
  rw [← cmp_natural_eq_iff cc a b]
  rw [cmp_natural_antisymm cc a b] at h2
  cases h : cmp_natural cc a b with
  | eq => rfl
  | lt => rw [h] at h2; exact (h2 rfl).elim
  | gt => exact (h1 h).elim

/-- **C135** (b). Two lists with the same strings, in whatever order, are the same after sorting. -/
theorem sort_same (cc : CharClass) (l m l' m' : List (List Char)) (hl : ∀ s ∈ l, Sortable cc s) (hp : l.Perm m) (h1 : Sorted cc l l') (h2 : Sorted cc m m') :
    l' = m' := by
  obtain ⟨x, -, hx⟩ := sort_unique_partial cc l hl
  rw [hx l' h1, hx m' ⟨h2.1.trans hp.symm, h2.2⟩]

/-- **C135** (c), disagreement. Every string that is not sortable is in a list of three strings that has no arrangement in order
at all. -/
theorem sort_impossible (cc : CharClass) (hcc : NoEarlyNumerals cc) (s : List Char) (hs : ¬ Sortable cc s) :
    ∃ a b, Sortable cc a ∧ Sortable cc b ∧ ∀ l', ¬ Sorted cc [a, b, s] l' := by
  obtain ⟨a, b, ha, hb, h1, h2, h3⟩ : ∃ a b, Sortable cc a ∧ Sortable cc b ∧ cmp_natural cc a b = .lt ∧ cmp_natural cc b s = .lt ∧ cmp_natural cc s a = .lt := by
    exact Classical.byContradiction fun hc => hs ((cmp_natural_sortable_iff cc hcc s).mpr hc)
  refine ⟨a, b, ha, hb, fun l' ⟨hp, hi⟩ => ?_⟩
  have small : ∀ x ∈ [a, b, s], ∃ y ∈ [a, b, s], cmp_natural cc y x = .lt := by
    intro x hx
    simp only [List.mem_cons, List.not_mem_nil, or_false] at hx
    rcases hx with rfl | rfl | rfl
    · exact ⟨s, by simp, h3⟩
    · exact ⟨a, by simp, h1⟩
    · exact ⟨b, by simp, h2⟩
  cases l' with
  | nil => exact absurd hp.length_eq (by simp)
  | cons x l' =>
    obtain ⟨y, hy, hlt⟩ := small x (hp.mem_iff.mp (List.mem_cons_self ..))
    unfold InOrder at hi
    rw [List.pairwise_cons] at hi
    rcases List.mem_cons.mp (hp.mem_iff.mpr hy) with rfl | hy
    · rw [(cmp_natural_eq_iff cc y y).mpr rfl] at hlt
      cases hlt
    · refine hi.1 y hy ?_
      rw [cmp_natural_antisymm cc y x, hlt]
      rfl

/-- **C136** (a). Two strings become the same symbol if and only if they are the same but for characters that become underscores, or one of
them gets an underscore in front and the other one begins with such a character. -/
theorem symbols_same_iff (cc : CharClass) (a b : List Char) :
    symbolize cc a = symbolize cc b ↔ Alike cc a b ∨ Shifted cc a b ∨ Shifted cc b a := by
  have no : ∀ {a b}, Alike cc a b → prefixed cc a = prefixed cc b := by
    intro a b h
    cases h with
    | nil => rfl
    | same c h => rfl
    | blank hc hd h => simp [prefixed, blank_not_num cc _ hc, blank_not_num cc _ hd]
  have sh : ∀ {a b}, Shifted cc a b → prefixed cc a = true ∧ prefixed cc b = false := by
    rintro a b ⟨h1, c, b', rfl, hc, -⟩
    exact ⟨(prefixed_iff cc a).mpr h1, by simp [prefixed, blank_not_num cc c hc]⟩
  cases ha : prefixed cc a <;> cases hb : prefixed cc b
  · have : symbolize cc a = symbolize cc b ↔ Alike cc a b := by
      rw [alike_map, symbolize_prefixed, symbolize_prefixed, ha, hb]; simp
    rw [this]
    refine ⟨.inl, ?_⟩
    rintro (h | h | h)
    · exact h
    · rw [(sh h).1] at ha; cases ha
    · rw [(sh h).2] at ha; rw [(sh h).1] at hb; cases hb
  · rw [eq_comm, shifted_symbol hb ha]
    constructor
    · intro h; exact .inr (.inr ⟨(prefixed_iff cc b).mp hb, h⟩)
    · rintro (h | h | h)
      · rw [no h, hb] at ha; cases ha
      · rw [(sh h).1] at ha; cases ha
      · exact h.2
  · rw [shifted_symbol ha hb]
    constructor
    · intro h; exact .inr (.inl ⟨(prefixed_iff cc a).mp ha, h⟩)
    · rintro (h | h | h)
      · rw [no h, hb] at ha; cases ha
      · exact h.2
      · rw [(sh h).1] at hb; cases hb
  · have : symbolize cc a = symbolize cc b ↔ Alike cc a b := by
      rw [alike_map, symbolize_prefixed, symbolize_prefixed, ha, hb]; simp
    rw [this]
    refine ⟨.inl, ?_⟩
    rintro (h | h | h)
    · exact h
    · rw [(sh h).2] at hb; cases hb
    · rw [(sh h).2] at ha; cases ha

/-- **C136** (b). So strings of letters and numbers only become different symbols. -/
theorem symbols_differ (cc : CharClass) (a b : List Char) (ha : ∀ c ∈ a, ¬ Blank cc c) (hb : ∀ c ∈ b, ¬ Blank cc c) :
    symbolize cc a = symbolize cc b ↔ a = b := by
  rw [symbols_same_iff]
  constructor
  · rintro (h | h | h)
    · induction h with
      | nil => rfl
      | same c h ih => rw [ih (fun x hx => ha x (List.mem_cons_of_mem _ hx)) (fun x hx => hb x (List.mem_cons_of_mem _ hx))]
      | blank hc hd h ih => exact (ha _ (List.mem_cons_self ..) hc).elim
    · obtain ⟨-, c, b', rfl, hc, -⟩ := h
      exact (hb c (List.mem_cons_self ..) hc).elim
    · obtain ⟨-, c, b', rfl, hc, -⟩ := h
      exact (ha c (List.mem_cons_self ..) hc).elim
  · rintro rfl
    refine .inl ?_
    rw [alike_map]

/-- **C136** (c). And the results are exactly the symbols. -/
theorem symbols_all (cc : CharClass) (t : List Char) : (∃ s, symbolize cc s = t) ↔ IsSymbol cc t :=
  ⟨fun ⟨s, h⟩ => h ▸ symbolize_is_symbol cc s, fun h => ⟨t, symbolize_fixes_symbols cc t h⟩⟩

/-! ## Examples -/

-- `f10`, `f9`, `f1` in order.
theorem example_sorted : Sorted ascii [['f', '1', '0'], ['f', '9'], ['f', '1']] [['f', '1'], ['f', '9'], ['f', '1', '0']] := by
  have e : ∀ a b, cmp_natural ascii a b = scan ascii [] a b := natural_scan ascii
  refine ⟨by decide, ?_⟩
  unfold InOrder
  simp only [e]
  decide +kernel

-- `a-b`, `a b` and `a_b`; `1` and `-1`; the empty string and `-`.
example : symbolize ascii ['a', '-', 'b'] = symbolize ascii ['a', ' ', 'b'] ∧ symbolize ascii ['1'] = symbolize ascii ['-', '1'] ∧ symbolize ascii [] = symbolize ascii ['-'] ∧
    symbolize ascii ['a'] ≠ symbolize ascii ['_', 'a'] := by decide +kernel
example : Shifted ascii ['1'] ['-', '1'] := ⟨.inr ⟨'1', [], rfl, by decide⟩, '-', ['1'], rfl, .inr (by decide), .same '1' .nil⟩

end Verif.Str
