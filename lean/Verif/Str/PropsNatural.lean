import Verif.Str.LemmasNatural
/-! # Property theorems: where natural ordering is an ordering (C14)

`cmp_natural_trans_partial` covers the strings whose numbers fit `u64`. Here is the exact boundary. -/
namespace Verif.Str

/-- **C14** (d). The comparison is transitive on all sortable strings, which may have runs beyond `u64` and runs of
other numerals as long as their texts do not come before nineteen nines. -/
theorem cmp_natural_sortable_trans (cc : CharClass) (a b c : List Char)
    (ha : Sortable cc a) (hb : Sortable cc b) (hc : Sortable cc c) :
    ((cmp_natural cc a b).isLE → (cmp_natural cc b c).isLE → (cmp_natural cc a c).isLE) ∧
    (cmp_natural cc a b = .lt → cmp_natural cc b c = .lt → cmp_natural cc a c = .lt) := by
  rw [cmp_key2 cc _ a b (Nat.le_refl _) ha hb, cmp_key2 cc _ b c (Nat.le_refl _) hb hc,
    cmp_key2 cc _ a c (Nat.le_refl _) ha hc]
  exact ⟨Std.TransCmp.isLE_trans, Std.TransCmp.lt_trans⟩

/-- Strings whose numbers fit `u64` are sortable, so this includes `cmp_natural_trans_partial`. -/
theorem fits_sortable (cc : CharClass) (s : List Char) (h : Fits cc s) : Sortable cc s :=
  fun run hr => .inl ⟨hr.choose_spec.choose_spec.2.1, h run hr⟩

/-- **C14** (e). Every other string is on a cycle with two sortable ones: `a < b < s < a`. They are `s` up to its
first offending run, followed by a number that fits `u64`. -/
theorem cmp_natural_cycle (cc : CharClass) (hcc : NoEarlyNumerals cc) (s : List Char) (hs : ¬ Sortable cc s) :
    ∃ pre run post a b, s = pre ++ (run ++ post) ∧ IsRun cc s run ∧ ¬ Harmless run ∧ Number a ∧ Number b ∧
      Sortable cc (pre ++ a) ∧ Sortable cc (pre ++ b) ∧
      cmp_natural cc (pre ++ a) (pre ++ b) = .lt ∧ cmp_natural cc (pre ++ b) s = .lt ∧
      cmp_natural cc s (pre ++ a) = .lt := by
  obtain ⟨pre, run, post, he, hne, hall, hpre, hpost, hh, hsort⟩ := first_harm cc _ s (Nat.le_refl _) hs
  obtain ⟨a, b, na, nb, hab, hb, ha⟩ := cycle_numbers run hne (fun c hc => hcc c (hall c hc)) hh
  have hnone := parse_none (num_no_plus hall) (fun h => hh (.inl h))
  have hnum : ∀ d, Number d → ∀ c ∈ d, cc.num c = true := fun d hd c hc => cc.num_digit c (hd.2.1 c hc).1 (hd.2.1 c hc).2
  refine ⟨pre, run, post, a, b, he, ⟨pre, post, he, hne, hall, hpre, hpost⟩, hh, na, nb, ?_, ?_, ?_, ?_, ?_⟩
  · have := hsort a na
    rwa [List.append_nil] at this
  · have := hsort b nb
    rwa [List.append_nil] at this
  · have := cmp_natural_numeric cc pre a b [] [] hpre na.2.1 nb.2.1 na.1 nb.1 nb.2.2 (by simp) (by simp) hab
    rwa [List.append_nil, List.append_nil] at this
  · rw [he, ← List.append_nil b]
    apply cmp_common_prefix cc _ pre _ _ (Nat.le_refl _) hpre
    intro n hn
    rw [cmp_step cc _ _ (by simp [hne]), advance_of cc n b [] hn (hnum b nb) nb.1 (by simp),
      advance_of cc n run post hn hall hne hpost, cmpStr_self]
    have : numCmp b run = .eq := by simp only [numCmp, hnone]; split <;> first | rfl | contradiction
    rw [this, hb]; rfl
  · rw [he, ← List.append_nil a]
    apply cmp_common_prefix cc _ pre _ _ (Nat.le_refl _) hpre
    intro n hn
    rw [cmp_step cc _ _ (by simp [hne]), advance_of cc n a [] hn (hnum a na) na.1 (by simp),
      advance_of cc n run post hn hall hne hpost, cmpStr_self]
    have : numCmp run a = .eq := by simp only [numCmp, hnone]
    rw [this, ha]; rfl

/-- **C14** (f). The exact boundary: a string can be sorted together with the sortable ones if and only if it is
sortable itself. So the sortable strings are a maximal set on which the comparison is an ordering. -/
theorem cmp_natural_sortable_iff (cc : CharClass) (hcc : NoEarlyNumerals cc) (s : List Char) :
    Sortable cc s ↔ ¬ ∃ a b, Sortable cc a ∧ Sortable cc b ∧
      cmp_natural cc a b = .lt ∧ cmp_natural cc b s = .lt ∧ cmp_natural cc s a = .lt := by
  constructor
  · rintro hs ⟨a, b, ha, hb, h1, h2, h3⟩
    have h4 := (cmp_natural_sortable_trans cc a b s ha hb hs).2 h1 h2
    rw [cmp_natural_antisymm, h4] at h3
    cases h3
  · intro h
    refine Classical.byContradiction fun hs => h ?_
    obtain ⟨pre, _, _, a, b, _, _, _, _, _, ha, hb, h1, h2, h3⟩ := cmp_natural_cycle cc hcc s hs
    exact ⟨pre ++ a, pre ++ b, ha, hb, h1, h2, h3⟩

example : NoEarlyNumerals ascii := by
  intro c hc _
  have : '0' ≤ c ∧ c ≤ '9' := by simpa [ascii] using hc
  exact this.1

/-- A number of 21 digits is sortable if it starts with nineteen nines, and not if it starts with a one. -/
example : Sortable ascii "999999999999999999900".toList := by
  intro run hr
  rcases run_cases ascii _ run hr with h | h
  · rw [h]; exact .inr (by decide)
  · obtain ⟨pre, post, he, hne, _⟩ := h
    have he : [] = pre ++ (run ++ post) := he
    have := congrArg List.length he
    simp at this
    exact absurd (List.length_eq_zero_iff.mp (by omega)) hne

example : ¬ Sortable ascii "x100000000000000000000".toList := by
  intro h
  have := h "100000000000000000000".toList ⟨"x".toList, [], by decide, by decide, by decide, by decide, by decide⟩
  rcases this with h | h
  · exact absurd h.2.2 (by decide)
  · exact absurd h (by decide)

end Verif.Str
