import Verif.Json.LemmasText
/-! # The JSON tokenizer: properties

The specification is in `SpecToken`: `Lex` cuts a text into lexemes. -/
namespace Verif.Json

variable {ρ R : Type}

theorem has_plus (fl : BitVec 32) : (Tokenizer.withFlags fl).has flagPlusSign = allowsPlus fl := by
  show (fl &&& BitVec.twoPow 32 1 == BitVec.twoPow 32 1) = fl.getLsbD 1
  rw [BitVec.and_twoPow]
  cases fl.getLsbD 1 <;> decide

theorem has_zero (fl : BitVec 32) : (Tokenizer.withFlags fl).has flagLeadingZero = allowsZero fl := by
  show (fl &&& BitVec.twoPow 32 0 == BitVec.twoPow 32 0) = fl.getLsbD 0
  rw [BitVec.and_twoPow]
  cases fl.getLsbD 0 <;> decide

/-- The reports for a text are those of the specification. -/
theorem tokens_iff (fl : BitVec 32) (text : List Char) (evs : List Ev) :
    tokens fl text = evs ↔ Lex (allowsPlus fl) (allowsZero fl) text evs := by
  rw [← has_plus, ← has_zero]
  constructor
  · rintro rfl
    obtain ⟨evs, h⟩ := lex_exists _ _ text
    rw [tokens_spec h]
    exact h
  · exact tokens_spec

example : Lex false false "[1, \"a\"]".toList
    [.tok .arrayOpen, .tok (.number ['1'] [1] [] [] .plus .plus), .tok .comma, .tok (.whitespace [' ']), .tok (.string ['a'] ['a']),
      .tok .arrayClose] := (tokens_iff 0 _ _).mp (by decide +kernel)

theorem tokens_lex (fl : BitVec 32) (text : List Char) : Lex (allowsPlus fl) (allowsZero fl) text (tokens fl text) :=
  (tokens_iff fl text _).mp rfl

/-- C38, C39. A text with its end, with any handler: it does not panic, the handler gets the reports in order until it asks
to stop, and the tokenizer is as new. -/
theorem parse_outcome (fl : BitVec 32) (H : Report ρ R) (s : ρ) (text : List Char) :
    (Tokenizer.withFlags fl).parseStr H s text = outcome H fl s (tokens fl text) := by
  have h := tokens_lex fl text
  rw [← has_plus, ← has_zero] at h
  exact parse_spec H s h

/-- A handler that stops at the first error. -/
def firstError : Report Nat Err := ⟨fun n e => match e with
  | .err x => (n, some x)
  | .tok _ => (n + 1, none)⟩

example : (Tokenizer.withFlags 0).parseStr firstError 0 "[0,\"\\q\",1]".toList = (.withFlags 0, 3, .brk (.stringEscapeInvalid 'q')) := by
  decide +kernel

/-- C38. Pieces of a text are pushed like the text. -/
theorem pieces_push (H : Report ρ R) (t : Tokenizer) (s : ρ) (pieces : List (List Char)) :
    pushAll H t s pieces = t.pushStr H s pieces.flatten := pushAll_eq H pieces t s

example : pushAll collect (.withFlags 0) [] ["12".toList, "34".toList, " ".toList]
    = (⟨0, .whitespace, [' '], [], []⟩, [.tok (.number "1234".toList [1, 2, 3, 4] [] [] .plus .plus)], .cont .busy) := by
  decide +kernel

/-- C38. Characters one by one are pushed like the text. -/
theorem chars_push (H : Report ρ R) (t : Tokenizer) (s : ρ) (text : List Char) :
    pushAll H t s (text.map fun c => [c]) = t.pushStr H s text := by
  rw [pushAll_eq]
  congr 1
  induction text with
  | nil => rfl
  | cons c l ih => rw [List.map_cons, List.flatten_cons, ih]; rfl

/-- C38. The reports do not depend on the pieces in which a text is pushed. -/
theorem pieces_parse (fl : BitVec 32) (H : Report ρ R) (s : ρ) (pieces : List (List Char)) :
    (match pushAll H (.withFlags fl) s pieces with
      | (t, s, .cont _) => pushEnd H t s
      | x => x) = outcome H fl s (tokens fl pieces.flatten) := by
  rw [pieces_push, ← parse_outcome]
  exact (parseStr_end H pieces.flatten (.withFlags fl) s).symm

example : tokens 0 ["\"\\u00".toList, "41\" tr".toList, "ue".toList].flatten
    = [.tok (.string "\\u0041".toList ['A']), .tok (.whitespace [' ']), .tok .true] := by decide +kernel

/-- C39. From every reachable state, every character and the end of the text is handled without panic: it goes on in some
state, or the handler asked to stop and the tokenizer is as new. -/
theorem push_total {fl : BitVec 32} {t : Tokenizer} (h : Reachable fl t) (H : Report ρ R) (s : ρ) (ch : Option Char) :
    (∃ t' s', t.push H s ch = (t', s', .cont t'.status)) ∨ ∃ s' r, t.push H s ch = (.withFlags fl, s', .brk r) := by
  obtain ⟨e, t', ha, _, _⟩ := live_advance (reachable_live h) ch
  rcases push_cases H s ha with ⟨s', r, hp⟩ | ⟨s', hp⟩
  · rw [(reachable_live h).1] at hp
    exact .inr ⟨s', r, hp⟩
  · exact .inl ⟨t', s', hp⟩

/-- C39. After the end of a text, in every reachable state and whatever the handler answers, the tokenizer is as new. -/
theorem end_resets {fl : BitVec 32} {t : Tokenizer} (h : Reachable fl t) (H : Report ρ R) (s : ρ) :
    (t.push H s none).1 = .withFlags fl := by
  obtain ⟨e, t', ha, _, hn⟩ := live_advance (reachable_live h) none
  rcases push_cases H s ha with ⟨s', r, hp⟩ | ⟨s', hp⟩
  · rw [hp]; show Tokenizer.withFlags t.flags = _; rw [(reachable_live h).1]
  · rw [hp]; exact hn rfl

/-- C39. The status tells whether the tokenizer is as new. -/
theorem status_done {fl : BitVec 32} {t : Tokenizer} (h : Reachable fl t) : t.status = .done ↔ t = .withFlags fl := by
  constructor
  · intro hs
    have : t.state = .none := by
      unfold Tokenizer.status at hs
      split at hs
      · assumption
      · cases hs
    rw [← (reachable_live h).1]
    exact reachable_idle h this
  · rintro rfl; rfl

/-- Concrete states: within a surrogate pair, and within an exponent. -/
example : ∃ t, Reachable 0 t ∧ t.state = .stringSurrogateUnicode 0xd834 2 0xdd := by
  refine ⟨_, .push collect _ [] (some 'd') (.push collect _ [] (some 'D') (.push collect _ [] (some 'u') (.push collect _ [] (some '\\')
    (.push collect _ [] (some '4') (.push collect _ [] (some '3') (.push collect _ [] (some '8') (.push collect _ [] (some 'd')
    (.push collect _ [] (some 'u') (.push collect _ [] (some '\\') (.push collect _ [] (some '"') .new)))))))))), by decide +kernel⟩

example : ∃ t, Reachable 2 t ∧ t.state = .exponentSign .plus 1 0 .minus := by
  refine ⟨_, .push collect _ [] (some '-') (.push collect _ [] (some 'E') (.push collect _ [] (some '7')
    (.push collect _ [] (some '+') .new))), by decide +kernel⟩

/-- C40. If there are only tokens, then their texts make up the text. -/
theorem source_text {fl : BitVec 32} {text : List Char} {toks : List Token} (h : tokens fl text = toks.map .tok) :
    toks.flatMap source = text := lex_source ((tokens_iff fl text _).mp h) toks rfl

example : tokens 0 "{\"a\\n\": [1e5, null]}".toList = [Token.objectOpen, .string "a\\n".toList ['a', '\n'], .colon, .whitespace [' '], .arrayOpen,
    .number "1e5".toList [1] [] [5] .plus .plus, .comma, .whitespace [' '], .null, .arrayClose, .objectClose].map .tok := by
  decide +kernel

/-- C41. A text is reported as one number, without errors, exactly if it is a number; and its digits and signs are those of
the text. -/
theorem number_iff (fl : BitVec 32) (text raw : List Char) (i f x : List UInt8) (s e : Sign) :
    tokens fl text = [.tok (.number raw i f x s e)] ↔ raw = text ∧ JsonNumber (allowsPlus fl) (allowsZero fl) text i f x s e := by
  constructor
  · intro h
    have hl := (tokens_iff fl text _).mp h
    have h1 := source_text (toks := [.number raw i f x s e]) h
    have h2 := lex_written hl [.number raw i f x s e] rfl (.number raw i f x s e) (by simp)
    rw [List.flatMap_singleton] at h1
    have h1 : raw = text := h1
    subst h1
    exact ⟨rfl, h2⟩
  · rintro ⟨rfl, h⟩
    rw [tokens_iff]
    have := written_lex (plus := allowsPlus fl) (zero := allowsZero fl) [.number raw i f x s e]
      (fun k hk => by rw [List.mem_singleton] at hk; subst hk; exact h) trivial
    rw [List.flatMap_singleton] at this
    exact this

example : tokens 0 "-12.050E+07".toList = [.tok (.number "-12.050E+07".toList [1, 2] [0, 5, 0] [0, 7] .minus .plus)] := by decide +kernel
example : JsonNumber true true "+007".toList [0, 0, 7] [] [] .plus .plus :=
  ((number_iff 3 _ _ _ _ _ _ _).mp (by decide +kernel : tokens 3 "+007".toList = [.tok (.number "+007".toList _ _ _ _ _)])).2
example : ¬ JsonNumber false false "007".toList [0, 0, 7] [] [] .plus .plus := fun h => by
  have := (number_iff 0 _ _ _ _ _ _ _).mpr ⟨rfl, h⟩
  exact absurd this (by decide +kernel)

/-- C41. A number within a text. -/
theorem number_prefix {fl : BitVec 32} {raw rest : List Char} {i f x : List UInt8} {s e : Sign}
    (h : JsonNumber (allowsPlus fl) (allowsZero fl) raw i f x s e) (hr : Ends cont rest) :
    tokens fl (raw ++ rest) = .tok (.number raw i f x s e) :: tokens fl rest := by
  rw [tokens_iff]
  obtain ⟨more, h1, h2⟩ := json_numeral h
  exact .number raw _ [] more _ _ h1 (fun c l hc => h2 c (hr c l hc)) (tokens_lex fl rest)

/-- C42. A text is reported as one string, without errors, exactly if it is a quoted string; and the string is what the text
stands for. -/
theorem string_iff (fl : BitVec 32) (text raw s : List Char) :
    tokens fl text = [.tok (.string raw s)] ↔ text = '"' :: raw ++ ['"'] ∧ StringText s raw := by
  constructor
  · intro h
    have hl := (tokens_iff fl text _).mp h
    have h1 := source_text (toks := [.string raw s]) h
    have h2 := lex_written hl [.string raw s] rfl (.string raw s) (by simp)
    rw [List.flatMap_singleton] at h1
    exact ⟨h1.symm, h2⟩
  · rintro ⟨rfl, h⟩
    rw [tokens_iff]
    have := written_lex (plus := allowsPlus fl) (zero := allowsZero fl) [.string raw s]
      (fun k hk => by rw [List.mem_singleton] at hk; subst hk; exact h) trivial
    rw [List.flatMap_singleton] at this
    exact this

example : StringText ['a', '\n', Char.ofNat 0x1d11e, 'A'] "a\\n\\uD834\\udd1e\\u0041".toList :=
  ((string_iff 0 _ _ _).mp (by decide +kernel : tokens 0 "\"a\\n\\uD834\\udd1e\\u0041\"".toList = [.tok (.string _ _)])).2

/-- C42. Every character can be written, hence every string. -/
theorem char_written (c : Char) : ∃ raw, CharText c raw := by
  by_cases h : 0x20 ≤ c.toNat
  · by_cases h1 : c = '"'
    · subst h1; exact ⟨_, .escape '"' rfl⟩
    · by_cases h2 : c = '\\'
      · subst h2; exact ⟨_, .escape '\\' rfl⟩
      · exact ⟨_, .plain h h1 h2⟩
  · have : ∀ n, n < 32 → ∃ h, Hexs 4 h ∧ hexVal h = n := by
      intro n hn
      refine ⟨['0', '0', if n < 16 then '0' else '1', Nat.digitChar (n % 16)], ⟨rfl, ?_⟩, ?_⟩
      · have : ∀ m : Fin 32, ∀ c ∈ ['0', '0', if m.val < 16 then '0' else '1', Nat.digitChar (m.val % 16)], isHex c = true := by decide
        exact this ⟨n, hn⟩
      · have : ∀ m : Fin 32, hexVal ['0', '0', if m.val < 16 then '0' else '1', Nat.digitChar (m.val % 16)] = m.val := by decide
        exact this ⟨n, hn⟩
    obtain ⟨h, h1, h2⟩ := this c.toNat (by omega)
    exact ⟨_, .unicode h h1 h2⟩

/-- C55. Tokens which are written one after the other, with numbers and keywords separated, are reported again. -/
theorem written_tokens (fl : BitVec 32) (toks : List Token) (h : ∀ k ∈ toks, Written (allowsPlus fl) (allowsZero fl) k) (hs : Separate toks) :
    tokens fl (toks.flatMap source) = toks.map .tok := (tokens_iff _ _ _).mpr (written_lex toks h hs)

example : Separate [Token.objectOpen, .string ['a'] ['a'], .colon, .null, .comma, .whitespace [' '], .true, .objectClose] := by
  simp [Separate, isWordy, isBlank]

/-- C55. If there are only tokens, then the text consists of tokens which are written correctly. -/
theorem tokens_written {fl : BitVec 32} {text : List Char} {toks : List Token} (h : tokens fl text = toks.map .tok) :
    ∀ k ∈ toks, Written (allowsPlus fl) (allowsZero fl) k := lex_written ((tokens_iff fl text _).mp h) toks rfl

/-- C56. Flags do not change what is reported for a text that has no errors without them. -/
theorem flags_relax (fl : BitVec 32) {text : List Char} {toks : List Token} (h : tokens 0 text = toks.map .tok) :
    tokens fl text = toks.map .tok := (tokens_iff _ _ _).mpr (lex_mono ((tokens_iff 0 text _).mp h) toks rfl)

/-- Flags do change other texts. -/
example : tokens 0 "+01".toList ≠ tokens 3 "+01".toList := by decide +kernel

end Verif.Json
