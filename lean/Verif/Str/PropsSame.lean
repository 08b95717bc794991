import Verif.Str.PropsWork
import Verif.Str.SpecWork
/-! # Property theorems: natural comparison does not do less than it has to (C105)

The bounds of `natural_work` are upper ones. Here are the lower ones: what is counted when nothing is different. -/
namespace Verif.Str

/-! ### Lemmas -/

theorem pieces_text (cc : CharClass) : ∀ s : List Char, s ≠ [] →
    pieces cc s = if s.dropWhile (fun c => !cc.num c) = [] then 1 else pieces cc (s.dropWhile (fun c => !cc.num c))
  | [], h => absurd rfl h
  | [c], _ => by
    cases h : cc.num c <;> simp [h, pieces]
  | c :: d :: s, _ => by
    have ih := pieces_text cc (d :: s) (by simp)
    cases h : cc.num c
    · rw [List.dropWhile_cons_of_pos (by simp [h]), ← ih, pieces]
      simp [h]
    · rw [List.dropWhile_cons_of_neg (by simp [h]), if_neg (by simp)]

theorem pieces_number (cc : CharClass) : ∀ (c : Char) (s : List Char), cc.num c = true →
    pieces cc (c :: s) = 1 + pieces cc ((c :: s).dropWhile cc.num)
  | c, [], h => by simp [h, pieces]
  | c, d :: s, h => by
    rw [List.dropWhile_cons_of_pos h]
    cases h' : cc.num d
    · rw [List.dropWhile_cons_of_neg (by simp [h']), pieces]
      simp [h, h']
    · rw [← pieces_number cc d s h', pieces]
      simp [h']

/-- What is left when one piece is taken has one piece less. -/
theorem pieces_advance (cc : CharClass) (s : List Char) (h : s ≠ []) :
    pieces cc s = 1 + pieces cc (advance cc s).2.2 ∧ ((advance cc s).2.2 ≠ [] → (advance cc s).2.1 ≠ []) := by
  have e := pieces_text cc s h
  unfold advance
  simp only []
  generalize hd : s.dropWhile (fun c => !cc.num c) = t at e ⊢
  cases t with
  | nil => rw [if_pos rfl] at e; rw [e]; simp [pieces]
  | cons c t =>
    have hc : cc.num c = true := by
      have q := List.head_dropWhile_not (fun c => !cc.num c) (l := s) (by rw [hd]; simp)
      simp only [hd, List.head_cons] at q
      simpa using q
    rw [if_neg (by simp)] at e
    exact ⟨by rw [e, pieces_number cc c t hc], fun _ => by simp [hc]⟩

theorem cmpStrM_shared : ∀ a b : List Char,
    (cmpStrM a b).2 = shared a b + (if shared a b < min a.length b.length then 1 else 0)
  | [], [] => rfl
  | [], _ :: _ => rfl
  | _ :: _, [] => rfl
  | x :: a, y :: b => by
    have ih := cmpStrM_shared a b
    unfold cmpStrM shared
    by_cases h : x = y
    · subst h
      have hc : compare x x = .eq := Std.ReflCmp.compare_self (cmp := (compare : Char → Char → Ordering))
      rw [hc, if_pos rfl]
      simp only [List.length_cons] at ih ⊢
      rw [ih]
      have : (shared a b + 1 < min (a.length + 1) (b.length + 1)) ↔ shared a b < min a.length b.length := by omega
      simp only [this]
      omega
    · rw [if_neg h]
      have hc : compare x y ≠ .eq := fun e => h (Std.LawfulEqCmp.eq_of_compare (cmp := (compare : Char → Char → Ordering)) e)
      have hl : 0 < min (x :: a).length (y :: b).length := by simp only [List.length_cons]; omega
      rw [if_pos hl]
      cases e : compare x y
      · rfl
      · exact absurd e hc
      · rfl

theorem shared_self : ∀ a : List Char, shared a a = a.length
  | [] => rfl
  | x :: a => by simp [shared, shared_self a]

theorem cmpStrM_self (a : List Char) : cmpStrM a a = (.eq, a.length) := by
  have h2 := cmpStrM_shared a a
  rw [shared_self, if_neg (by omega)] at h2
  have h1 : (cmpStrM a a).1 = .eq := by rw [cmpStrM_eq]; exact Std.ReflCmp.compare_self (cmp := cmpStr)
  exact Prod.ext h1 h2

theorem parseDigitsM_pos (s : List Char) (v : Nat) (h : s ≠ []) : 1 ≤ (parseDigitsM s v).2 := by
  cases s with
  | nil => exact absurd rfl h
  | cons c s =>
    unfold parseDigitsM
    cases digit c with
    | none => exact Nat.le_refl _
    | some d => simp only []; split <;> simp

theorem parseU64M_pos (s : List Char) (h : s ≠ []) : 1 ≤ (parseU64M s).2 := by
  rw [parseU64M.eq_def]
  split
  · exact absurd rfl h
  · exact Nat.le_refl _
  · simp
  · exact parseDigitsM_pos _ _ h

/-- Advancing tests each character that it takes. -/
theorem advanceM_least (cc : CharClass) (s : List Char) :
    (advanceM cc s).1.1.length + (advanceM cc s).1.2.1.length ≤ (advanceM cc s).2 := by
  unfold advanceM
  simp only []
  have h1 := (findM_tests cc.num s).1
  have h3 := (findM_tests (fun c => !cc.num c) (findM cc.num s).2.1).1
  omega

/-! ### C105 -/

/-- C105: how many pairs of characters are compared of two texts: those that they share, and the first that is different. -/
theorem text_pairs (a b : List Char) :
    (cmpStrM a b).2 = shared a b + (if shared a b < min a.length b.length then 1 else 0) := cmpStrM_shared a b

/-- C105: comparing a string with itself compares each pair of characters, once, tests each character of both sides, and takes
exactly one round for each piece. Of all numbers but possibly one a digit is read on both sides. -/
theorem natural_same (cc : CharClass) (a : List Char) :
    (cmp_naturalM cc a a).2.pairs = a.length
    ∧ 2 * a.length ≤ (cmp_naturalM cc a a).2.tests
    ∧ (cmp_naturalM cc a a).2.rounds = pieces cc a
    ∧ 2 * pieces cc a ≤ (cmp_naturalM cc a a).2.digits + 2 := by
  generalize hn : a.length = n
  induction n using Nat.strongRecOn generalizing a with
  | ind n ih =>
    subst hn
    by_cases he : a = []
    · subst he
      rw [cmp_naturalM]
      simp [pieces]
    · have he' : ¬ (a = [] ∧ a = []) := fun h => he h.1
      rw [cmp_naturalM, dif_neg he']
      have hl := advanceM_least cc a
      have ht := (advanceM_tests cc a).2
      have hs := (advance_shorter cc a).2 he
      obtain ⟨hp, hr⟩ := pieces_advance cc a he
      rw [← advanceM_eq cc a] at hs hp hr
      have hpos := parseU64M_pos (advanceM cc a).1.2.1
      generalize advanceM cc a = A at *
      have hcn : cmpNum (parseU64M A.1.2.1).1 (parseU64M A.1.2.1).1 = .eq := by
        cases (parseU64M A.1.2.1).1 with
        | none => rfl
        | some v => exact Std.ReflCmp.compare_self (cmp := (compare : Nat → Nat → Ordering))
      obtain ⟨i1, i2, i3, i4⟩ := ih A.1.2.2.length hs A.1.2.2 rfl
      simp only [cmpStrM_self, hcn, Work.add]
      refine ⟨by omega, by omega, by omega, ?_⟩
      by_cases hx : A.1.2.2 = []
      · rw [hx] at hp ⊢
        simp only [pieces] at hp
        omega
      · have := hpos (hr hx)
        omega

/-! ## Examples -/

-- natural_same: four pieces, the last one without a number.
#guard (cmp_naturalM ascii ['a', '1', 'b', '2', '2', 'c', '3', 'd'] ['a', '1', 'b', '2', '2', 'c', '3', 'd'])
  = (.eq, ⟨28, 8, 8, 4⟩)
example : pieces ascii ['a', '1', 'b', '2', '2', 'c', '3', 'd'] = 4 := by decide +kernel

-- text_pairs: the third pair is different; one text is the start of the other.
example : (cmpStrM ['a', 'b', 'c', 'd'] ['a', 'b', 'x', 'd']).2 = 3 ∧ (cmpStrM ['a', 'b'] ['a', 'b', 'c']).2 = 2 := by decide +kernel

end Verif.Str
