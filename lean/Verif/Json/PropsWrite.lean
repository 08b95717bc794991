import Verif.Json.LemmasWrite
import Verif.Json.PropsText
/-! # C78: every JSON value has a text that is reported as the value -/
namespace Verif.Json.Text

/-- **C78** (f). The values with JSON texts of the standard are exactly those whose numbers are numbers. -/
theorem json_exists (v : Value) : (∃ text, IsText false false v text) ↔ v.proper := by
  constructor
  · rintro ⟨_, w, t, w', _, _, h, _⟩
    exact writes_proper h
  · intro h
    exact ⟨v.write, [], v.write, [], spaces_nil, spaces_nil, write_writes v h, by simp⟩

/-- **C78** (g). What a writer writes that escapes no more than it has to is reported, whatever the flags, without errors and as the value. -/
theorem json_written (fl : BitVec 32) (v : Value) (h : v.proper) :
    ∃ toks : List Token, tokens fl v.write = toks.map .tok ∧ toks.filterMap mark = v.marks :=
  (json_iff fl v v.write).mp (json_flags fl ⟨[], v.write, [], spaces_nil, spaces_nil, write_writes v h, by simp⟩)

/-- **C78** (h). The writer's texts of different values differ. -/
theorem write_inj {v v' : Value} (h : v.proper) (h' : v'.proper) (e : v.write = v'.write) : v = v' := by
  have a : IsText false false v v.write := ⟨[], v.write, [], spaces_nil, spaces_nil, write_writes v h, by simp⟩
  have b : IsText false false v' v.write := ⟨[], v.write, [], spaces_nil, spaces_nil, by rw [e]; exact write_writes v' h', by simp⟩
  exact json_unique (fl := 0) a b

/-! Examples: a value with everything; a value without a text. -/
example : Value.proper (.object [(['a'], .array [.number [1, 0] [0] [2] .minus .minus, .null]), (['\n', '"'], .object []), ([], .array [])]) := by
  simp [Value.proper, properMembers, properAll, IsNumber]

example : Value.write (.object [(['a'], .array [.number [1, 0] [0] [2] .minus .minus, .null]), (['\n', '"'], .object []), ([], .array [])]) =
    "{\"a\":[-10.0e-2,null],\"\\u000a\\\"\":{},\"\":[]}".toList := by decide +kernel

example : ¬ ∃ text, IsText false false (.array [.number [0, 1] [] [] .plus .plus]) text := by
  rw [json_exists]
  simp [Value.proper, properAll, IsNumber]

end Verif.Json.Text
