import Verif.Build.Spec
/-! # Lemmas about the line of lints -/
namespace Verif.Build

theorem split_plain {sep : Char} : ∀ (l cur : Text), (∀ c ∈ l, c ≠ sep) → split sep cur l = [cur ++ l]
  | [], cur, _ => by rw [split, List.append_nil]
  | c :: l, cur, h => by
    rw [split, if_neg (h c List.mem_cons_self), split_plain l _ fun d hd => h d (List.mem_cons_of_mem _ hd), List.append_assoc]; rfl

theorem split_sep {sep : Char} : ∀ (l cur r : Text), (∀ c ∈ l, c ≠ sep) → split sep cur (l ++ sep :: r) = (cur ++ l) :: split sep [] r
  | [], cur, r, _ => by rw [List.nil_append, split, if_pos rfl, List.append_nil]
  | c :: l, cur, r, h => by
    rw [List.cons_append, split, if_neg (h c List.mem_cons_self), split_sep l _ r fun d hd => h d (List.mem_cons_of_mem _ hd), List.append_assoc]; rfl

theorem lines_line : ∀ (l cur r : Text), (∀ c ∈ l, isBreak c = false) → splitlines cur (l ++ '\n' :: r) = (cur ++ l) :: splitlines [] r
  | [], cur, r, _ => by
    rw [List.nil_append, splitlines.eq_def, List.append_nil]
    rfl
  | c :: l, cur, r, h => by
    have hc := h c List.mem_cons_self
    have ih := lines_line l (cur ++ [c]) r fun d hd => h d (List.mem_cons_of_mem _ hd)
    rw [List.cons_append, splitlines]
    · rw [if_neg (by rw [hc]; decide), ih, List.append_assoc]; rfl
    · intro l' hl
      cases hl
      exact absurd hc (by decide)

/-- Names joined by commas. -/
def joined : List Text → Text
  | [] => []
  | [a] => a
  | a :: l => a ++ ',' :: joined l

theorem joined_snoc : ∀ (l : List Text) (a : Text), joined (l ++ [a]) = if l = [] then a else joined l ++ ',' :: a
  | [], _ => rfl
  | [_], _ => rfl
  | x :: y :: l, a => by
    have := joined_snoc (y :: l) a
    rw [List.cons_append, joined, this]
    · simp [joined]
    · simp

theorem joined_nil : ∀ (l : List Text), (∀ a ∈ l, a ≠ []) → ((joined l).isEmpty = true ↔ l = [])
  | [], _ => by simp [joined]
  | [a], h => by
    have := h a List.mem_cons_self
    simp [joined, this]
  | a :: b :: l, _ => by simp [joined]

theorem split_joined : ∀ (l : List Text), l ≠ [] → (∀ a ∈ l, ∀ c ∈ a, c ≠ ',') → split ',' [] (joined l) = l
  | [], h, _ => absurd rfl h
  | [a], _, h => by rw [joined, split_plain _ _ (h a List.mem_cons_self), List.nil_append]
  | a :: b :: l, _, h => by
    rw [joined, split_sep _ _ _ (h a List.mem_cons_self), split_joined (b :: l) (by simp) fun x hx => h x (List.mem_cons_of_mem _ hx), List.nil_append]
    simp

/-- What the script takes the allowed lints for: all of them have the prefix. -/
def named (t : List (Text × Lint)) : List Text := (allows t).map ((chars! "clippy::") ++ ·)

theorem lintLoop_eq : ∀ (t : List (Text × Lint)) (l : List Text), (∀ kv ∈ t, kv.2 ≠ .table none) → (∀ a ∈ l, a ≠ []) →
    lintLoop t (joined l) = some (joined (l ++ named t))
  | [], l, _, _ => by simp [lintLoop, named, allows]
  | (k, v) :: t, l, h, hl => by
    have ht : ∀ kv ∈ t, kv.2 ≠ .table none := fun kv hk => h kv (List.mem_cons_of_mem _ hk)
    have hskip : (v ≠ .text (chars! "allow") ∧ v ≠ .table (some (chars! "allow"))) → named ((k, v) :: t) = named t := by
      intro ⟨h1, h2⟩
      simp [named, allows, h1, h2]
    have htake : (v = .text (chars! "allow") ∨ v = .table (some (chars! "allow"))) →
        lintLoop t (joined l ++ (if (joined l).isEmpty then [] else [',']) ++ (chars! "clippy::") ++ k) = some (joined (l ++ named ((k, v) :: t))) := by
      intro hv
      have hn : named ((k, v) :: t) = ((chars! "clippy::") ++ k) :: named t := by
        rcases hv with rfl | rfl <;> simp [named, allows]
      have ih := lintLoop_eq t (l ++ [(chars! "clippy::") ++ k]) ht (by
        intro a ha
        rcases List.mem_append.mp ha with ha | ha
        · exact hl a ha
        · cases List.mem_singleton.mp ha
          simp)
      rw [hn, show l ++ ((chars! "clippy::") ++ k) :: named t = (l ++ [(chars! "clippy::") ++ k]) ++ named t by simp, ← ih, joined_snoc]
      have he := joined_nil l hl
      by_cases hl : l = []
      · subst hl; rfl
      · rw [if_neg hl, if_neg (fun hx => hl (he.mp hx))]
        simp
    rw [lintLoop]
    cases v with
    | text lv =>
      simp only [levelOf]
      by_cases hv : lv = chars! "allow"
      · subst hv
        rw [if_pos rfl]
        exact htake (.inl rfl)
      · rw [if_neg (by simpa using hv), hskip ⟨by simpa using hv, by simp⟩]
        exact lintLoop_eq t l ht hl
    | table lv =>
      cases lv with
      | none => exact absurd rfl (h _ List.mem_cons_self)
      | some lv =>
        simp only [levelOf]
        by_cases hv : lv = chars! "allow"
        · subst hv
          rw [if_pos rfl]
          exact htake (.inr rfl)
        · rw [if_neg (by simpa using hv), hskip ⟨by simp, by simpa using hv⟩]
          exact lintLoop_eq t l ht hl
    | other =>
      simp only [levelOf]
      rw [if_neg (by simp), hskip ⟨by simp, by simp⟩]
      exact lintLoop_eq t l ht hl

end Verif.Build
