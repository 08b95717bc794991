import Verif.Args.SpecErrors
/-! # Lemmas: what errors say -/
namespace Verif.Args

theorem takeWhile_no_eq (l : Bytes) : (0x3d : UInt8) ∉ l.takeWhile (· ≠ 0x3d) := by
  intro h
  have := List.all_takeWhile (l := l) (p := fun b => decide (b ≠ 0x3d))
  rw [List.all_eq_true] at this
  have := this _ h
  simp at this

theorem takeWhile_split (l : Bytes) (h : (0x3d : UInt8) ∈ l) :
    l = l.takeWhile (· ≠ 0x3d) ++ 0x3d :: l.drop ((l.takeWhile (· ≠ 0x3d)).length + 1) := by
  induction l with
  | nil => cases h
  | cons a l ih =>
    by_cases ha : a = 0x3d
    · subst ha; simp
    · have hm : (0x3d : UInt8) ∈ l := by
        rcases List.mem_cons.mp h with e | e
        · exact absurd e.symm ha
        · exact e
      rw [List.takeWhile_cons, if_pos (by simpa using ha)]
      rw [List.cons_append, List.length_cons, List.drop_succ_cons, ← ih hm]

theorem takeWhile_whole (l : Bytes) (h : (0x3d : UInt8) ∉ l) : l.takeWhile (· ≠ 0x3d) = l := by
  induction l with
  | nil => rfl
  | cons a l ih =>
    rw [List.mem_cons, not_or] at h
    rw [List.takeWhile_cons, if_pos (by simpa using Ne.symm h.1), ih h.2]

/-- The parts of a flag are those it is spelled with. -/
theorem shape_long {a name : Bytes} {value : Option Bytes} (h : shape a = .long name value) :
    (0x3d : UInt8) ∉ name ∧ a = spelled name value := by
  unfold shape at h
  split at h
  · rename_i rest
    by_cases hm : (0x3d : UInt8) ∈ rest
    · simp only [if_pos hm] at h
      split at h
      · cases h
      · rw [if_neg (fun hc => nomatch hc.2)] at h
        cases h
        refine ⟨takeWhile_no_eq rest, ?_⟩
        show _ = 0x2d :: 0x2d :: (_ ++ 0x3d :: _)
        rw [← takeWhile_split rest hm]
    · simp only [if_neg hm] at h
      split at h
      · cases h
      · split at h
        · cases h
        · cases h
          refine ⟨takeWhile_no_eq rest, ?_⟩
          show _ = 0x2d :: 0x2d :: _
          rw [takeWhile_whole rest hm]
  · cases h
  · cases h

theorem not_spelled (flag : Bytes) (value : Option Bytes) : flag ≠ spelled flag value := by
  intro h
  have := congrArg List.length h
  cases value <;> simp [spelled] at this <;> omega

end Verif.Args
