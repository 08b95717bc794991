import Verif.Json.LemmasNumval
/-! # C92: the values of JSON numbers -/
namespace Verif.Json.Text

/-- **C92** (a). A text which is reported as a number denotes exactly the value of the reported digits and signs, whatever the flags. -/
theorem number_value {fl : BitVec 32} {text raw : List Char} {i f x : List UInt8} {s e : Sign}
    (h : tokens fl text = [.tok (.number raw i f x s e)]) (q : Rat) : Denotes text q ↔ q = numberValue i f x s e := by
  have hj := ((number_iff fl _ _ _ _ _ _ _).mp h).2
  constructor
  · rintro ⟨s', sg, ds, ft, fs, e', xt, xs, ht, h1, h2, h3, h4, h5, rfl⟩
    have h' : JsonNumber (allowsPlus 3) (allowsZero 3) text (ds.map digitVal) (fs.map digitVal) (xs.map digitVal) s' e' :=
      ⟨sg, ds, ft, fs, xt, xs, ht, h1, .leading ds rfl h2 h3, h4, h5, rfl, rfl, rfl⟩
    have hj' : JsonNumber (allowsPlus 3) (allowsZero 3) text i f x s e := by
      obtain ⟨sg, ds, ft, fs, xt, xs, ht, h1, h2, h3⟩ := hj
      exact ⟨sg, ds, ft, fs, xt, xs, ht, sign_true h1, .leading ds rfl (int_digits h2).1 (int_digits h2).2, h3⟩
    have a := (number_iff 3 text text _ _ _ _ _).mpr ⟨rfl, h'⟩
    have b := (number_iff 3 text text _ _ _ _ _).mpr ⟨rfl, hj'⟩
    have e := a.symm.trans b
    simp only [List.cons.injEq, Ev.tok.injEq, Token.number.injEq, and_true, true_and] at e
    obtain ⟨rfl, rfl, rfl, rfl, rfl⟩ := e
    exact (value_eq h2 (frac_digits h4) (exp_digits h5) _ _).symm
  · rintro rfl
    obtain ⟨sg, ds, ft, fs, xt, xs, ht, h1, h2, h3, h4, rfl, rfl, rfl⟩ := hj
    exact ⟨s, sg, ds, ft, fs, e, xt, xs, ht, sign_true h1, (int_digits h2).1, (int_digits h2).2, h3, h4,
      value_eq (int_digits h2).1 (frac_digits h3) (exp_digits h4) _ _⟩

/-- **C92** (b). With both flags, every text that denotes a number is reported as one, without errors. -/
theorem number_accepted {text : List Char} {q : Rat} (h : Denotes text q) :
    ∃ i f x s e, tokens 3 text = [.tok (.number text i f x s e)] ∧ numberValue i f x s e = q := by
  have h' := h
  obtain ⟨s, sg, ds, ft, fs, e, xt, xs, ht, h1, h2, h3, h4, h5, _⟩ := h'
  have a : tokens 3 text = [.tok (.number text (ds.map digitVal) (fs.map digitVal) (xs.map digitVal) s e)] :=
    (number_iff 3 text text _ _ _ _ _).mpr ⟨rfl, sg, ds, ft, fs, xt, xs, ht, h1, .leading ds rfl h2 h3, h4, h5, rfl, rfl, rfl⟩
  exact ⟨_, _, _, _, _, a, ((number_value a q).mp h).symm⟩

/-- **C92** (c). A plus sign in front of a number changes nothing but the text: all digits and signs are reported as without it. -/
theorem plus_ignored {fl : BitVec 32} {text raw : List Char} {i f x : List UInt8} {s e : Sign}
    (h : tokens fl ('+' :: text) = [.tok (.number raw i f x s e)]) : tokens fl text = [.tok (.number text i f x s e)] ∧ s = .plus := by
  obtain ⟨sg, ds, ft, fs, xt, xs, ht, h1, h2, h3⟩ := ((number_iff fl _ _ _ _ _ _ _).mp h).2
  cases h1 with
  | none =>
    obtain ⟨hd, hn⟩ := int_digits h2
    match ds, hn with
    | c :: ds, _ =>
      simp only [List.nil_append, List.cons_append, List.cons.injEq] at ht
      have := hd c (by simp)
      rw [← ht.1] at this
      exact absurd this (by decide)
  | minus => simp at ht
  | plus hp =>
    simp only [List.cons_append, List.nil_append, List.cons.injEq, true_and] at ht
    exact ⟨(number_iff fl _ _ _ _ _ _ _).mpr ⟨rfl, [], ds, ft, fs, xt, xs, by simpa using ht, .none, h2, h3⟩, rfl⟩

/-- **C92** (d). The extensions do not change what a text means: if a text is reported, with any flags and without errors, as a value, then the
value without leading zeros has a text of the standard (the one the writer writes), which is reported without any flags as that value; both mean the
same, and if there were no leading zeros then it is the same value. -/
theorem flags_value {fl : BitVec 32} {text : List Char} {toks : List Token} {v : Value} (h : tokens fl text = toks.map .tok)
    (hv : toks.filterMap mark = v.marks) :
    (∃ toks' : List Token, tokens 0 v.standard.write = toks'.map .tok ∧ toks'.filterMap mark = v.standard.marks) ∧
      v.standard.meaning = v.meaning ∧ (allowsZero fl = false → v.standard = v) := by
  have ht := (json_iff fl v text).mpr ⟨toks, h, hv⟩
  obtain ⟨_, _, _, _, _, hw, _⟩ := ht
  refine ⟨json_written 0 _ (relaxed_proper hw), standard_means v, fun hz => ?_⟩
  rw [hz] at hw
  exact standard_id v (strict_proper hw)

/-! Examples: a number with everything; a text whose meaning is the same without the extensions. -/
example : Denotes "+007.250e-1".toList (29 / 40) :=
  (number_value (fl := 3) (raw := "+007.250e-1".toList) (i := [0, 0, 7]) (f := [2, 5, 0]) (x := [1]) (s := .plus) (e := .minus) (by decide +kernel) _).mpr (by decide +kernel)

example : ¬ Denotes "-0.1".toList (1 / 10) := fun h =>
  absurd ((number_value (fl := 0) (raw := "-0.1".toList) (i := [0]) (f := [1]) (x := []) (s := .minus) (e := .plus) (by decide +kernel) _).mp h) (by decide +kernel)

example : tokens 3 "+10.5".toList = [.tok (.number "+10.5".toList [1, 0] [5] [] .plus .plus)] := by decide +kernel

example : tokens 3 "[+00,{\"a\":-0012e3}]".toList = [Token.arrayOpen, .number "+00".toList [0, 0] [] [] .plus .plus, .comma, .objectOpen,
      .string ['a'] ['a'], .colon, .number "-0012e3".toList [0, 0, 1, 2] [] [3] .minus .plus, .objectClose, .arrayClose].map .tok ∧
    (Value.array [.number [0, 0] [] [] .plus .plus, .object [(['a'], .number [0, 0, 1, 2] [] [3] .minus .plus)]]).standard.write =
      "[0,{\"a\":-12e3}]".toList := by
  decide +kernel

end Verif.Json.Text
