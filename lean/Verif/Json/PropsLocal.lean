import Verif.Json.LemmasLocal
/-! # Damage to a JSON text stays where it is: properties

The reports for a text that is followed by another are the reports for the two, each as if it was alone, provided the first
does not end within a string or a comment, and the second begins with a mark. The texts can be wrong in any other way. -/
namespace Verif.Json

variable {ρ R : Type}

theorem mark_stop {c : Char} (h : c ∈ marks) {evs : List Ev} (hc : Closed evs) : Stop c evs := by
  have all : ∀ c ∈ marks, isBreak c = true ∧ c ≠ '/' ∧ c ≠ '+' ∧ c ≠ '-' ∧ isWhitespace c = false := by decide
  obtain ⟨h1, h2, h3, h4, h5⟩ := all c h
  exact ⟨h1, h2, h3, h4, (fun h => by rw [h5] at h; cases h), (fun _ => hc.comment), hc.string⟩

/-- C126. What follows a text that is not within a string or a comment is reported as if it was alone, if it begins with a mark;
and so is the text before it. -/
theorem local_marks (fl : BitVec 32) (a z : List Char) (c : Char) (hc : c ∈ marks) (ha : Closed (tokens fl a)) :
    tokens fl (a ++ c :: z) = tokens fl a ++ tokens fl (c :: z) :=
  (tokens_iff fl _ _).mpr (lex_append (tokens_lex fl a) (tokens_lex fl (c :: z)) (mark_stop hc ha))

/-- C126. New lines end everything but strings and white space. -/
theorem local_lines (fl : BitVec 32) (a z : List Char) (ha : LineClosed (tokens fl a)) :
    tokens fl (a ++ '\n' :: z) = tokens fl a ++ tokens fl ('\n' :: z) :=
  (tokens_iff fl _ _).mpr (lex_append (tokens_lex fl a) (tokens_lex fl ('\n' :: z))
    ⟨by decide, by decide, by decide, by decide, (fun _ => ha.space), (fun h => absurd rfl h), ha.string⟩)

/-- C126. And any handler is told just that. -/
theorem local_parse (fl : BitVec 32) (H : Report ρ R) (s : ρ) (a z : List Char) (c : Char) (hc : c ∈ marks)
    (ha : Closed (tokens fl a)) :
    (Tokenizer.withFlags fl).parseStr H s (a ++ c :: z) = outcome H fl s (tokens fl a ++ tokens fl (c :: z)) := by
  rw [parse_outcome, local_marks fl a z c hc ha]

/-- A punctuation character is reported on its own. -/
theorem punct_first (fl : BitVec 32) (c : Char) (t : Token) (h : punct c = some t) (l : List Char) :
    tokens fl (c :: l) = .tok t :: tokens fl l :=
  (tokens_iff fl _ _).mpr (.punct c t l _ h (tokens_lex fl l))

/-- C126. A list of elements: the reports are those of each element, between those of the punctuation. -/
theorem local_elements (fl : BitVec 32) (es : List (List Char)) (h : ∀ e ∈ es, Closed (tokens fl e)) :
    tokens fl ('[' :: [','].intercalate es ++ [']'])
      = .tok .arrayOpen :: [.tok .comma].intercalate (es.map (tokens fl)) ++ [.tok .arrayClose] := by
  rw [List.cons_append, punct_first fl '[' .arrayOpen rfl, List.cons_append]
  congr 1
  have hend : tokens fl [']'] = [.tok .arrayClose] := by
    rw [punct_first fl ']' .arrayClose rfl, (tokens_iff fl [] []).mpr .nil]
  induction es with
  | nil => exact hend
  | cons e es ih =>
    have he := h e (List.mem_cons_self ..)
    cases es with
    | nil =>
      have q := local_marks fl e [] ']' (by decide) he
      rw [hend] at q
      simpa [List.intercalate] using q
    | cons f es =>
      have q := local_marks fl e ([','].intercalate (f :: es) ++ [']']) ',' (by decide) he
      rw [punct_first fl ',' .comma rfl, ih (fun x hx => h x (List.mem_cons_of_mem _ hx))] at q
      simpa [List.intercalate] using q

/-- C126. Two texts that differ in one element: the reports differ in those of that element only. -/
theorem local_damage (fl : BitVec 32) (pre e e' z : List Char) (c : Char) (hp : Closed (tokens fl pre)) (hc : c ∈ marks)
    (he : Closed (tokens fl e)) (he' : Closed (tokens fl e')) :
    ∃ x y, tokens fl (pre ++ ',' :: e ++ c :: z) = x ++ tokens fl e ++ y
      ∧ tokens fl (pre ++ ',' :: e' ++ c :: z) = x ++ tokens fl e' ++ y := by
  refine ⟨tokens fl pre ++ [.tok .comma], tokens fl (c :: z), ?_, ?_⟩
  · rw [List.append_assoc, List.cons_append, local_marks fl pre _ ',' (by decide) hp, punct_first fl ',' .comma rfl,
      local_marks fl e z c hc he]
    simp
  · rw [List.append_assoc, List.cons_append, local_marks fl pre _ ',' (by decide) hp, punct_first fl ',' .comma rfl,
      local_marks fl e' z c hc he']
    simp

/-! ## The conditions are met, and are needed -/

/-- Numbers without digits, unknown words, wrong escapes, stray characters: all are closed. -/
example : Closed (tokens 0 "1e".toList) ∧ Closed (tokens 0 "tru".toList) ∧ Closed (tokens 0 "\"\\q\"".toList) ∧ Closed (tokens 0 "=".toList)
    ∧ Closed (tokens 0 "-".toList) ∧ Closed (tokens 0 "]]".toList) ∧ Closed (tokens 0 []) := by decide +kernel

example : tokens 0 "[1e,tru,2]".toList
    = [.tok .arrayOpen] ++ tokens 0 "1e".toList ++ [.tok .comma] ++ tokens 0 "tru".toList ++ [.tok .comma] ++ tokens 0 "2".toList
      ++ [.tok .arrayClose] := by
  have h := local_elements 0 ["1e".toList, "tru".toList, "2".toList] (by decide +kernel)
  simpa [List.intercalate] using h

example : (tokens 0 "[1e,tru,2]".toList).filterMap (fun | .err e => some e | .tok _ => none) = [.numberIncomplete, .keywordUnknown "tru".toList] := by
  decide +kernel

/-- A comment ends with its line. -/
example : LineClosed (tokens 0 "1 # one".toList) ∧ ¬ Closed (tokens 0 "1 # one".toList)
    ∧ tokens 0 "1 # one\n,2".toList = tokens 0 "1 # one".toList ++ tokens 0 "\n,2".toList := by decide +kernel

/-- A string that is not closed takes in what follows. -/
example : ¬ Closed (tokens 0 "\"a".toList) ∧ tokens 0 "\"a,1".toList ≠ tokens 0 "\"a".toList ++ tokens 0 ",1".toList := by decide +kernel

/-- And so does a comment. -/
example : tokens 0 "#,1".toList ≠ tokens 0 "#".toList ++ tokens 0 ",1".toList := by decide +kernel

/-- Characters that are no marks can belong to what is before them. -/
example : tokens 0 "1e-2".toList ≠ tokens 0 "1e".toList ++ tokens 0 "-2".toList
    ∧ tokens 0 "//".toList ≠ tokens 0 "/".toList ++ tokens 0 "/".toList
    ∧ tokens 0 " \n".toList ≠ tokens 0 " ".toList ++ tokens 0 "\n".toList
    ∧ tokens 0 "12".toList ≠ tokens 0 "1".toList ++ tokens 0 "2".toList := by decide +kernel

end Verif.Json
