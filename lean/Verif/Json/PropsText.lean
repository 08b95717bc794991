import Verif.Json.LemmasJson
import Verif.Json.PropsToken
/-! # C78: JSON texts are told by their tokens -/
namespace Verif.Json.Text

/-- **C78** (a). A text is a JSON text of a value exactly if it is reported without errors, and the tokens, without white space, are those of the
value. With the flags, the texts may have plus signs and leading zeros. -/
theorem json_iff (fl : BitVec 32) (v : Value) (text : List Char) :
    IsText (allowsPlus fl) (allowsZero fl) v text ↔ ∃ toks : List Token, tokens fl text = toks.map .tok ∧ toks.filterMap mark = v.marks := by
  constructor
  · rintro ⟨w, t, w', hw, hw', h, rfl⟩
    obtain ⟨toks, hc, hs⟩ := writes_cover h
    have := cover_padded hw hw' hc hs
    refine ⟨_, ?_, this.marks⟩
    rw [← this.src]
    exact written_tokens fl _ this.written this.sep
  · rintro ⟨toks, h, hm⟩
    have hw := tokens_written h
    obtain ⟨w, t, b, h1, h2, h3, h4, h5⟩ := starts v [] toks hw (by rw [hm, List.append_nil])
    rw [source_text h] at h3
    exact ⟨w, t, _, h1, split_none h5 h4, h2, h3⟩

/-- **C78** (b). Different values have different tokens, so that a text is a JSON text of one value at most. -/
theorem marks_tell {v v' : Value} (h : v.marks = v'.marks) : v = v' :=
  (marks_inj v v' [] [] (by rw [h])).1

/-- **C78** (c). -/
theorem json_unique {fl : BitVec 32} {v v' : Value} {text : List Char} (h : IsText (allowsPlus fl) (allowsZero fl) v text)
    (h' : IsText (allowsPlus fl) (allowsZero fl) v' text) : v = v' := by
  obtain ⟨toks, h1, h2⟩ := (json_iff fl v text).mp h
  obtain ⟨toks', h1', h2'⟩ := (json_iff fl v' text).mp h'
  have e : toks = toks' := by
    have := h1.symm.trans h1'
    exact (List.map_inj_right (fun a b h => by cases h; rfl)).mp this
  subst e
  exact marks_tell (h2.symm.trans h2')

/-- **C78** (d). JSON texts of the standard stay JSON texts of the same value, whatever the flags. -/
theorem json_flags (fl : BitVec 32) {v : Value} {text : List Char} (h : IsText false false v text) :
    IsText (allowsPlus fl) (allowsZero fl) v text := by
  obtain ⟨toks, h1, h2⟩ := (json_iff 0 v text).mp h
  exact (json_iff fl v text).mpr ⟨toks, flags_relax fl h1, h2⟩

/-- **C78** (e). A caller that pushes a JSON text in any pieces gets its tokens, whatever the handler, and the tokenizer is as new after the end. -/
theorem json_pieces {ρ R : Type} (fl : BitVec 32) (H : Report ρ R) (s : ρ) (v : Value) (pieces : List (List Char))
    (h : IsText (allowsPlus fl) (allowsZero fl) v pieces.flatten) :
    ∃ toks : List Token, toks.filterMap mark = v.marks ∧
      (match pushAll H (.withFlags fl) s pieces with
        | (t, s, .cont _) => pushEnd H t s
        | x => x) = outcome H fl s (toks.map .tok) := by
  obtain ⟨toks, h1, h2⟩ := (json_iff fl v _).mp h
  refine ⟨toks, h2, ?_⟩
  rw [← h1]
  exact pieces_parse fl H s pieces

/-! Examples: nested values, empty arrays and objects, white space, escapes. -/
example : IsText false false (.object [(['a'], .array [.number [1] [] [] .plus .plus, .null]), (['b'], .object [])])
    " {\"\\u0061\" : [1 ,null],\n\"b\":{ }} ".toList :=
  (json_iff 0 _ _).mpr ⟨[.whitespace [' '], .objectOpen, .string ['\\', 'u', '0', '0', '6', '1'] ['a'], .whitespace [' '], .colon, .whitespace [' '],
    .arrayOpen, .number ['1'] [1] [] [] .plus .plus, .whitespace [' '], .comma, .null, .arrayClose, .comma, .whitespace ['\n'], .string ['b'] ['b'], .colon,
    .objectOpen, .whitespace [' '], .objectClose, .objectClose, .whitespace [' ']], by decide +kernel, by decide +kernel⟩

/-- `[1,]` is not a JSON text of any value, although there are no errors of the tokenizer. -/
example (v : Value) : ¬ IsText false false v "[1,]".toList := by
  intro h
  obtain ⟨toks, h1, h2⟩ := (json_iff 0 v _).mp h
  have e : tokens 0 "[1,]".toList = [Token.arrayOpen, .number ['1'] [1] [] [] .plus .plus, .comma, .arrayClose].map .tok := by decide +kernel
  rw [e] at h1
  have e2 := (List.map_inj_right (fun a b h => by cases h; rfl)).mp h1
  subst e2
  have h3 : v.marks = [.arrayOpen, .number [1] [] [] .plus .plus, .comma, .arrayClose] := h2.symm
  cases v with
  | array vs =>
    match vs with
    | [] => simp [Value.marks, elementMarks] at h3
    | [v] =>
      simp only [Value.marks, elementMarks] at h3
      have := congrArg List.length h3
      have h4 := (List.cons.inj h3).2
      have h5 : v.marks = [.number [1] [] [] .plus .plus, .comma] := List.append_cancel_right (bs := [.arrayClose]) h4
      have := (marks_inj v (.number [1] [] [] .plus .plus) [] [.comma] (by rw [h5]; rfl)).2
      cases this
    | v :: v' :: vs =>
      rw [Value.marks, elementMarks_cons _ (by simp), List.append_assoc] at h3
      have h4 := (List.cons.inj h3).2
      obtain ⟨_, h5⟩ := marks_inj v (.number [1] [] [] .plus .plus) _ [.comma, .arrayClose] h4
      have h6 := (List.cons.inj h5).2
      obtain ⟨m, ms, e, hm⟩ := marks_head v'
      have : ∃ x, elementMarks (v' :: vs) = v'.marks ++ x := by cases vs <;> simp [elementMarks]
      obtain ⟨x, hx⟩ := this
      have h7 : elementMarks (v' :: vs) ++ [Mark.arrayClose] = [.arrayClose] := h6
      rw [hx, e] at h7
      have := (List.cons.inj h7).1
      exact hm (.inl this)
  | _ => simp [Value.marks] at h3

end Verif.Json.Text
