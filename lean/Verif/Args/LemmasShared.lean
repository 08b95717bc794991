import Verif.Args.SpecShared
/-! # Lemmas: shared report targets -/
namespace Verif.Args.Sharing
variable {T ε R : Type}

theorem flag_zero {g : Guards} : g.flag = 0 ↔ g = .none := by
  cases g <;> simp [Guards.flag] <;> omega

theorem flag_nonneg {g : Guards} : 0 ≤ g.flag ↔ g ≠ .refMut := by
  cases g <;> simp [Guards.flag] <;> omega

theorem flag_more {g : Guards} (h : g ≠ .refMut) : g.flag + 1 = g.more.flag := by
  cases g with
  | none => rfl
  | refs n => simp [Guards.flag, Guards.more]
  | refMut => exact absurd rfl h

theorem dropped_eq (t : T) (g : Guards) : RefCell.dropped ⟨t, g.flag, g⟩ = ⟨t, g.less.flag, g.less⟩ := by
  cases g with
  | none => rfl
  | refMut => rfl
  | refs n =>
    cases n with
    | zero => rfl
    | succ n =>
      simp only [RefCell.dropped, Guards.flag, Guards.less]
      congr 1
      omega

/-- While a report has the cell, nothing gets through to it. -/
theorem run_lent (code : RefCode T ε R) (t : T) : code.run ⟨t, -1, .none⟩ = (⟨t, -1, .none⟩, code.blind) := by
  induction code with
  | ret e r => rfl
  | panic e => rfl
  | read k ih => exact ih none
  | write f k ih => exact ih none
  | hold k ih => exact ih none
  | holdMut k ih => exact ih none
  | via f k ih => exact ih none
  | release k ih => exact ih

theorem run_outside (code : RefCode T ε R) (t : T) (g : Guards) :
    code.run ⟨t, g.flag, g⟩
      = (⟨(code.outside t g).1, (code.outside t g).2.1.flag, (code.outside t g).2.1⟩, (code.outside t g).2.2) := by
  induction code generalizing t g with
  | ret e r => rfl
  | panic e => rfl
  | read k ih =>
    rw [RefCode.run, RefCode.outside]
    by_cases h : g = .refMut
    · rw [if_pos h, if_neg (fun hf => flag_nonneg.mp hf h)]
      exact ih none t g
    · rw [if_neg h, if_pos (flag_nonneg.mpr h)]
      exact ih (some t) t g
  | write f k ih =>
    rw [RefCode.run, RefCode.outside]
    by_cases h : g = .none
    · rw [if_pos h, if_pos (flag_zero.mpr h)]
      exact ih (some (f t)) (f t) g
    · rw [if_neg h, if_neg (fun hf => h (flag_zero.mp hf))]
      exact ih none t g
  | hold k ih =>
    rw [RefCode.run, RefCode.outside]
    by_cases h : g = .refMut
    · rw [if_pos h, if_neg (fun hf => flag_nonneg.mp hf h)]
      exact ih none t g
    · rw [if_neg h, if_pos (flag_nonneg.mpr h)]
      show (k (some t)).run ⟨t, g.flag + 1, g.more⟩ = _
      rw [flag_more h]
      exact ih (some t) t g.more
  | holdMut k ih =>
    rw [RefCode.run, RefCode.outside]
    by_cases h : g = .none
    · rw [if_pos h, if_pos (flag_zero.mpr h)]
      subst h
      exact ih (some t) t .refMut
    · rw [if_neg h, if_neg (fun hf => h (flag_zero.mp hf))]
      exact ih none t g
  | via f k ih =>
    rw [RefCode.outside]
    by_cases h : g = .refMut
    · rw [if_pos h]
      subst h
      exact ih (some (f t)) (f t) .refMut
    · rw [if_neg h]
      cases g with
      | refMut => exact absurd rfl h
      | none => exact ih none t .none
      | refs n => exact ih none t (.refs n)
  | release k ih =>
    rw [RefCode.run, RefCode.outside, dropped_eq]
    exact ih t g.less

theorem onRef_alone (H : ε → Query → RefCode T ε R) (i : Inner T ε R) (t0 : T) :
    i.onRef H ⟨t0, -1, .none⟩
      = (⟨(i.alone fun e q => (H e q).blind).1, -1, .none⟩, (i.alone fun e q => (H e q).blind).2) := by
  induction i generalizing t0 with
  | ret t e r => rfl
  | panic t e => rfl
  | call t e q k ih =>
    rw [Inner.onRef, Inner.alone]
    show (match (H e q).run ⟨t, -1, .none⟩ with | (c', .ret e' r) => _ | (c', .panic e') => _) = _
    rw [run_lent]
    cases (H e q).blind with
    | ret e' r => exact ih t e' r t
    | panic e' => rfl

theorem onCopy_split (H : ε → Query → CellCode T ε R) (i : Inner T ε R) (c : T) :
    ∃ l, Plays i l (i.onCopy H c).2.1 (i.onCopy H c).2.2 ∧ Answers H l c (i.onCopy H c).1 := by
  induction i generalizing c with
  | ret t e r => exact ⟨[], .ret t e r, .nil c⟩
  | panic t e => exact ⟨[], .panic t e, .nil c⟩
  | call t e q k ih =>
    rw [Inner.onCopy]
    rcases hr : (H e q).run c with ⟨c', x⟩
    cases x with
    | ret e' r =>
      obtain ⟨l, h1, h2⟩ := ih t e' r c'
      exact ⟨_, .call t e q k e' r l _ _ h1, .cons e q _ l c c' _ hr h2⟩
    | panic e' => exact ⟨_, .unwind t e q k e', .cons e q _ [] c c' c' hr (.nil c')⟩

theorem run_reads (code : CellCode T ε R) (h : code.Reads) (c : T) : (code.run c).1 = c := by
  induction h with
  | ret e r => rfl
  | panic e => rfl
  | get k _ ih => exact ih c

theorem onCopy_reads (H : ε → Query → CellCode T ε R) (hH : ∀ e q, (H e q).Reads) (i : Inner T ε R) (c : T) :
    i.onCopy H c = (c, i.alone fun e q => ((H e q).run c).2) := by
  induction i with
  | ret t e r => rfl
  | panic t e => rfl
  | call t e q k ih =>
    rw [Inner.onCopy, Inner.alone]
    have hc := run_reads (H e q) (hH e q) c
    rcases hr : (H e q).run c with ⟨c', x⟩
    rw [hr] at hc
    have hc' : c' = c := hc
    subst hc'
    cases x with
    | ret e' r => exact ih t e' r
    | panic e' => rfl

end Verif.Args.Sharing
