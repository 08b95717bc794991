import Verif.Types.ModelCoerce
/-! # Lemmas about coercions -/
namespace Verif.Types

variable {W : World} {a b : CTy} {es : List Effect}

/-- From a pointer to a slice, flat coercions lead to pointers to slices only. -/
theorem wide_stays (h : Coerces a b es) : es.all Effect.flat = true →
    (∃ m t, a = .ref m (.slice t) ∨ a = .raw m (.slice t)) → ∃ m t, b = .ref m (.slice t) ∨ b = .raw m (.slice t) := by
  induction h with
  | nil t => intro _ h; exact h
  | cons hs _ ih =>
    intro hf ⟨m, t, ha⟩
    rw [List.all_cons, Bool.and_eq_true] at hf
    refine ih hf.2 ?_
    cases hs with
    | sub => exact ⟨m, t, ha⟩
    | freeze => rcases ha with ha | ha <;> cases ha; exact ⟨false, t, .inl rfl⟩
    | freezeRaw => rcases ha with ha | ha <;> cases ha; exact ⟨false, t, .inr rfl⟩
    | toRaw => rcases ha with ha | ha <;> cases ha; exact ⟨m, t, .inr rfl⟩
    | deref => cases hf.1
    | load => cases hf.1
    | unsize => rcases ha with ha | ha <;> cases ha
    | unsizeRaw => rcases ha with ha | ha <;> cases ha
    | reify => rcases ha with ha | ha <;> cases ha
    | absurd => rcases ha with ha | ha <;> cases ha

/-- From a pointer to a function, coercions lead nowhere. -/
theorem fnPtr_stays (h : Coerces a b es) : a = .fnPtr → b = .fnPtr := by
  induction h with
  | nil t => intro h; exact h
  | cons hs _ ih =>
    intro ha
    refine ih ?_
    cases ha
    cases hs
    rfl

theorem flat_cases (h : Coerces a b es) : es.all Effect.flat = true → a ≠ .never →
    ((∀ e ∈ es, e = .same) ∧ a.size W = b.size W) ∨ ((∃ e ∈ es, e ≠ .same) ∧ a.size W ≠ b.size W) := by
  induction h with
  | nil t => intro _ _; exact .inl ⟨fun e he => (by cases he), rfl⟩
  | @cons a b c e es hs hc ih =>
    intro hf hn
    rw [List.all_cons, Bool.and_eq_true] at hf
    have same : a.size W = b.size W → e = .same → b ≠ .never →
        ((∀ x ∈ e :: es, x = .same) ∧ a.size W = c.size W) ∨ ((∃ x ∈ e :: es, x ≠ .same) ∧ a.size W ≠ c.size W) := by
      intro h1 h2 h3
      rcases ih hf.2 h3 with ⟨h4, h5⟩ | ⟨⟨x, h4, h5⟩, h6⟩
      · exact .inl ⟨fun x hx => (List.mem_cons.mp hx).elim (fun h => h.trans h2) (h4 x), h1.trans h5⟩
      · exact .inr ⟨⟨x, List.mem_cons_of_mem _ h4, h5⟩, by rw [h1]; exact h6⟩
    cases hs with
    | sub => exact same rfl rfl hn
    | freeze => exact same rfl rfl (by simp)
    | freezeRaw => exact same rfl rfl (by simp)
    | toRaw => exact same rfl rfl (by simp)
    | deref => cases hf.1
    | load => cases hf.1
    | unsize m t n =>
      obtain ⟨m', t', h | h⟩ := wide_stays hc hf.2 ⟨m, t, .inl rfl⟩ <;>
      · subst h
        exact .inr ⟨⟨_, List.mem_cons_self, by simp⟩, by simp [CTy.size, CTy.pointer]⟩
    | unsizeRaw m t n =>
      obtain ⟨m', t', h | h⟩ := wide_stays hc hf.2 ⟨m, t, .inr rfl⟩ <;>
      · subst h
        exact .inr ⟨⟨_, List.mem_cons_self, by simp⟩, by simp [CTy.size, CTy.pointer]⟩
    | reify =>
      have := fnPtr_stays hc rfl
      subst this
      exact .inr ⟨⟨_, List.mem_cons_self, by simp⟩, by simp [CTy.size]⟩
    | absurd => exact absurd rfl hn

theorem runs_same (v : List Nat) : ∀ es : List Effect, (∀ e ∈ es, e = .same) → Effect.runs W es v = some v
  | [], _ => rfl
  | e :: es, h => by
    rw [Effect.runs, h e List.mem_cons_self]
    exact runs_same v es fun x hx => h x (List.mem_cons_of_mem _ hx)

theorem offset_cases (f ty : CTy) : TypedOffset f ty ↔ ty = f ∨ ∃ u n, f = .array u n ∧ ty = .slice u := by
  constructor
  · rintro ⟨es, h⟩
    have key : ∀ a b es, Coerces a b es → ∀ f ty, a = .raw false f → b = .raw false ty → ty = f ∨ ∃ u n, f = .array u n ∧ ty = .slice u := by
      intro a b es h
      induction h with
      | nil t => intro f ty h1 h2; rw [h1] at h2; cases h2; exact .inl rfl
      | cons hs _ ih =>
        intro f ty h1 h2
        subst h1
        cases hs with
        | sub => exact ih f ty rfl h2
        | unsizeRaw m t n =>
          rcases ih _ ty rfl h2 with h | ⟨_, _, h, _⟩
          · exact .inr ⟨t, n, rfl, h⟩
          · cases h
    exact key _ _ _ h f ty rfl rfl
  · rintro (rfl | ⟨u, n, rfl, rfl⟩)
    · exact ⟨[], .nil _⟩
    · exact ⟨[.attach n], .cons (.unsizeRaw false u n) (.nil _)⟩

end Verif.Types
