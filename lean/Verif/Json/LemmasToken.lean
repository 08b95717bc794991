import Verif.Json.SpecToken
/-! # Lemmas about the JSON tokenizer: lexemes -/
namespace Verif.Json

/-- Feeding a text and its end. -/
inductive Ran : Tokenizer → List Char → List Ev → Prop
  | done (t e) : t.advance none = ⟨e, some t.prepare⟩ → Ran t [] e
  | more (t c e t' l es) : t.advance (some c) = ⟨e, some t'⟩ → t'.flags = t.flags → Ran t' l es → Ran t (c :: l) (e ++ es)

variable {fl : BitVec 32} {t t' : Tokenizer} {l : List Char} {e es evs : List Ev}

theorem prepare_eq (t : Tokenizer) : t.prepare = .withFlags t.flags := rfl

/-- A character that is handled within a token. -/
theorem Ran.step {c : Char} (h : t.handle (some c) = ⟨e, some (t', none)⟩) (hf : t'.flags = t.flags) (hr : Ran t' l es) :
    Ran t (c :: l) (e ++ es) := by
  refine .more _ _ _ _ _ _ ?_ hf hr
  unfold Tokenizer.advance
  rw [h]

theorem Ran.step0 {c : Char} (h : t.handle (some c) = .ret (t', none)) (hf : t'.flags = t.flags) (hr : Ran t' l es) :
    Ran t (c :: l) es := Ran.step (e := []) h hf hr

theorem Ran.nil (fl : BitVec 32) : Ran (.withFlags fl) [] [] := .done _ _ rfl

/-- The first character. -/
theorem Ran.start {c : Char} (h : (Tokenizer.withFlags fl).start c = ⟨e, some (t', none)⟩) (hf : t'.flags = fl) (hr : Ran t' l es) :
    Ran (.withFlags fl) (c :: l) (e ++ es) := by
  refine .more _ _ _ _ _ _ ?_ hf hr
  show Run.mk ([] ++ ((Tokenizer.withFlags fl).start c).evs) _ = _
  rw [h]
  rfl

theorem Ran.start0 {c : Char} (h : (Tokenizer.withFlags fl).start c = .ret (t', none)) (hf : t'.flags = fl) (hr : Ran t' l es) :
    Ran (.withFlags fl) (c :: l) es := Ran.start (e := []) h hf hr

/-- The end of a token. -/
theorem Ran.finish (p : Char → Bool) (hc : ∀ c, p c = false → t.handle (some c) = ⟨e, some (t.prepare, some c)⟩)
    (hn : t.handle none = ⟨e, some (t.prepare, none)⟩) (hp : Ends p l) (hr : Ran (.withFlags t.flags) l evs) :
    Ran t l (e ++ evs) := by
  cases hr with
  | done _ _ h =>
    have : evs = [] := by
      have h' : (Tokenizer.withFlags t.flags).advance none = ⟨[], some (.withFlags t.flags)⟩ := rfl
      rw [h'] at h; cases h; rfl
    subst this
    refine .done _ _ ?_
    unfold Tokenizer.advance
    rw [hn, List.append_nil]
  | more _ c e' t' l es h hf hr =>
    rw [← List.append_assoc]
    refine .more _ _ _ _ _ _ ?_ hf hr
    have h' : (Tokenizer.withFlags t.flags).advance (some c)
        = ⟨((Tokenizer.withFlags t.flags).start c).evs, ((Tokenizer.withFlags t.flags).start c).res.map (·.1)⟩ := rfl
    rw [h'] at h
    unfold Tokenizer.advance
    rw [hc c (hp c l rfl)]
    show Run.mk (e ++ ((Tokenizer.withFlags t.flags).start c).evs) _ = _
    simp only [Run.mk.injEq] at h
    rw [h.1]
    exact congrArg _ h.2

/-! ## Characters -/

theorem digit_cases {c : Char} (h : isDigit c = true) : 48 ≤ c.toNat ∧ c.toNat ≤ 57 := by simpa [isDigit] using h

theorem char_ne {c d : Char} (h : c.toNat ≠ d.toNat) : c ≠ d := fun h' => h (by rw [h'])

theorem char_eq {c d : Char} (h : c.toNat = d.toNat) : c = d := Char.toNat_inj.mp h

theorem toDigit_digit {c : Char} (h : isDigit c = true) : toDigit 10 c = some (c.toNat - 48) := by
  obtain ⟨h1, h2⟩ := digit_cases h
  unfold toDigit
  simp only [h1, h2, and_self, if_true]
  rw [if_pos (by omega)]

theorem digit_eq {c : Char} (h : isDigit c = true) (s : State) : t.digit c s
    = .ret (⟨t.flags, s, t.acc ++ [c], t.accStr, t.accNum ++ [digitVal c]⟩, none) := by
  obtain ⟨h1, h2⟩ := digit_cases h
  unfold Tokenizer.digit Tokenizer.num
  rw [toDigit_digit h]
  simp only
  rw [if_pos (by omega)]
  rfl

/-! ## Tokens of one character -/

theorem punct_ran {c : Char} {k : Token} (h : punct c = some k) (hr : Ran (.withFlags fl) l evs) :
    Ran (.withFlags fl) (c :: l) (.tok k :: evs) := by
  unfold punct at h
  split at h <;> cases h <;> exact Ran.start (e := [.tok _]) rfl rfl hr

theorem equals_ran (hr : Ran (.withFlags fl) l evs) :
    Ran (.withFlags fl) ('=' :: l) (.err (.characterStray '=') :: .tok .colon :: evs) :=
  Ran.start (e := [_, _]) rfl rfl hr

theorem stray_ran (h : (Tokenizer.withFlags fl).has flagPlusSign = false) (hr : Ran (.withFlags fl) l evs) :
    Ran (.withFlags fl) ('+' :: l) (.err (.characterStray '+') :: evs) := by
  refine Ran.start (e := [_]) ?_ rfl hr
  show (if (Tokenizer.withFlags fl).has flagPlusSign = true then _ else _) = _
  rw [if_neg (by rw [h]; simp)]
  rfl

/-! ## White space -/

theorem space_white {c : Char} (h : isSpace c = true) : isWhitespace c = true := by
  simp only [isSpace, Bool.or_eq_true, decide_eq_true_eq] at h
  rcases h with ((rfl | rfl) | rfl) | rfl <;> rfl

theorem space_loop : ∀ (w acc : List Char), (∀ c ∈ w, isWhitespace c = true) → Ends isWhitespace l → Ran (.withFlags fl) l evs →
    Ran ⟨fl, .whitespace, acc, [], []⟩ (w ++ l) (strays w ++ .tok (.whitespace (acc ++ w.filter isSpace)) :: evs)
  | [], acc, _, he, hr => by
    refine Ran.finish (e := [_]) isWhitespace (fun c hc => ?_) ?_ he hr
    · have hs : isSpace c = false := by
        cases h : isSpace c with
        | false => rfl
        | true => rw [space_white h] at hc; cases hc
      show (if isSpace c = true then _ else if isWhitespace c = true then _ else _) = _
      rw [hs, hc]
      simp [Run.say, Run.ret]
    · simp [Tokenizer.handle, Tokenizer.advanceMisc, Run.say, Run.ret]
  | c :: w, acc, hw, he, hr => by
    have hc := hw c (by simp)
    have ih := fun acc => space_loop w acc (fun d hd => hw d (by simp [hd])) he hr
    cases hs : isSpace c with
    | true =>
      have := ih (acc ++ [c])
      rw [List.append_assoc] at this
      have h1 : strays (c :: w) = strays w := by simp [strays, hs]
      rw [h1, List.filter_cons_of_pos hs]
      refine Ran.step0 (t' := ⟨fl, .whitespace, acc ++ [c], [], []⟩) ?_ rfl this
      show (if isSpace c = true then _ else _) = _
      rw [if_pos hs]; rfl
    | false =>
      have h1 : strays (c :: w) = .err (.characterStray c) :: strays w := by simp [strays, hs]
      rw [h1, List.filter_cons_of_neg (by rw [hs]; simp)]
      refine Ran.step (e := [_]) (t' := ⟨fl, .whitespace, acc, [], []⟩) ?_ rfl (ih acc)
      show (if isSpace c = true then _ else if isWhitespace c = true then _ else _) = _
      rw [if_neg (by rw [hs]; simp), if_pos hc]; rfl

/-- Characters that start something else. -/
theorem white_start {c : Char} (hc : isWhitespace c = true) : (Tokenizer.withFlags fl).start c
    = if isSpace c then .ret (⟨fl, .whitespace, [c], [], []⟩, none)
      else .say (.err (.characterStray c)) <| .ret (⟨fl, .whitespace, [], [], []⟩, none) := by
  have hn : ∀ d : Char, isWhitespace d = false → c ≠ d := fun d hd h => by rw [h, hd] at hc; cases hc
  have ha : ¬ ((97 ≤ c.toNat ∧ c.toNat ≤ 122) ∨ (65 ≤ c.toNat ∧ c.toNat ≤ 90)) := by
    intro h
    simp only [isWhitespace, Bool.or_eq_true, decide_eq_true_eq, beq_iff_eq] at hc
    omega
  have hd : ¬ isDigit c = true := by
    intro h
    have := digit_cases h
    simp only [isWhitespace, Bool.or_eq_true, decide_eq_true_eq, beq_iff_eq] at hc
    omega
  unfold Tokenizer.start
  rw [if_neg (hn ':' rfl), if_neg (hn ',' rfl), if_neg (hn '[' rfl), if_neg (hn ']' rfl), if_neg (hn '{' rfl), if_neg (hn '}' rfl), if_neg ha,
    if_neg (hn '-' rfl), if_neg hd, if_neg (hn '"' rfl), if_neg (hn '#' rfl), if_neg (hn '+' rfl), if_neg (hn '/' rfl),
    if_neg (hn '=' rfl), if_pos hc]
  rfl

theorem space_ran {w : List Char} (hw : w ≠ []) (h : ∀ c ∈ w, isWhitespace c = true) (he : Ends isWhitespace l)
    (hr : Ran (.withFlags fl) l evs) :
    Ran (.withFlags fl) (w ++ l) (strays w ++ .tok (.whitespace (w.filter isSpace)) :: evs) := by
  match w, hw with
  | c :: w, _ =>
    have hc := h c (by simp)
    have ih := fun acc => space_loop (fl := fl) w acc (fun d hd => h d (by simp [hd])) he hr
    have hst := white_start (fl := fl) hc
    cases hs : isSpace c with
    | true =>
      have h1 : strays (c :: w) = strays w := by simp [strays, hs]
      rw [h1, List.filter_cons_of_pos hs]
      rw [hs, if_pos rfl] at hst
      exact Ran.start0 hst rfl (ih [c])
    | false =>
      have h1 : strays (c :: w) = .err (.characterStray c) :: strays w := by simp [strays, hs]
      rw [h1, List.filter_cons_of_neg (by rw [hs]; simp)]
      rw [hs, if_neg (by simp)] at hst
      exact Ran.start (e := [_]) hst rfl (ih [])

/-! ## Words -/

theorem keyword_eq (t : Tokenizer) : t.keyword = word t.acc := rfl

theorem break_keyword {c : Char} (h : isBreak c = true) : t.advanceKeyword (some c) = ⟨[word t.acc], some (t.prepare, some c)⟩ := by
  unfold Tokenizer.advanceKeyword
  simp only
  split
  · rfl
  · split
    · rfl
    · split
      · rfl
      · exfalso
        rename_i h1 h2 h3
        simp only [Bool.or_eq_true, decide_eq_true_eq, not_or] at h1 h2
        simp only [isBreak, Bool.or_eq_true, decide_eq_true_eq, h1, h2, h3, or_false] at h
        unfold punct at h
        split at h <;> simp_all

theorem nobreak_ne {c : Char} (h : isBreak c = false) : (punct c = none) ∧ c ≠ '-' ∧ c ≠ '"' ∧ c ≠ '#' ∧ c ≠ '/' ∧ c ≠ '+' ∧ c ≠ '='
    ∧ isWhitespace c = false := by
  simp only [isBreak, Bool.or_eq_false_iff, decide_eq_false_iff_not] at h
  obtain ⟨⟨⟨⟨⟨⟨⟨h1, h2⟩, h3⟩, h4⟩, h5⟩, h6⟩, h7⟩, h8⟩ := h
  exact ⟨by simpa using h1, h2, h3, h4, h5, h6, h7, h8⟩

theorem punct_ne {c : Char} (h : punct c = none) : c ≠ ':' ∧ c ≠ ',' ∧ c ≠ '[' ∧ c ≠ ']' ∧ c ≠ '{' ∧ c ≠ '}' := by
  refine ⟨?_, ?_, ?_, ?_, ?_, ?_⟩ <;> (rintro rfl; cases h)

theorem white_ne {c : Char} (h : isWhitespace c = false) : isSpace c = false := by
  cases h' : isSpace c with
  | false => rfl
  | true => rw [space_white h'] at h; cases h

theorem space_ne {c : Char} (h : isSpace c = false) : c ≠ ' ' ∧ c ≠ '\n' ∧ c ≠ '\r' ∧ c ≠ '\t' := by
  simp only [isSpace, Bool.or_eq_false_iff, decide_eq_false_iff_not] at h
  obtain ⟨⟨⟨h1, h2⟩, h3⟩, h4⟩ := h
  exact ⟨h1, h2, h3, h4⟩

theorem nobreak_keyword {c : Char} (h : isBreak c = false) : t.advanceKeyword (some c) = .ret (t.raw c, none) := by
  obtain ⟨h1, h2, h3, h4, h5, h6, h7, h8⟩ := nobreak_ne h
  obtain ⟨p1, p2, p3, p4, p5, p6⟩ := punct_ne h1
  obtain ⟨s1, s2, s3, s4⟩ := space_ne (white_ne h8)
  unfold Tokenizer.advanceKeyword
  simp [h2, h3, h4, h5, h6, h7, h8, p1, p2, p3, p4, p5, p6, s1, s2, s3, s4]

theorem word_loop : ∀ (w acc : List Char), (∀ c ∈ w, isBreak c = false) → Ends (! isBreak ·) l → Ran (.withFlags fl) l evs →
    Ran ⟨fl, .keyword, acc, [], []⟩ (w ++ l) (word (acc ++ w) :: evs)
  | [], acc, _, he, hr => by
    rw [List.append_nil]
    refine Ran.finish (e := [_]) (! isBreak ·) (fun c hc => ?_) rfl he hr
    exact break_keyword (t := ⟨fl, .keyword, acc, [], []⟩) (by simpa using hc)
  | c :: w, acc, hw, he, hr => by
    have hc := hw c (by simp)
    have := word_loop w (acc ++ [c]) (fun d hd => hw d (by simp [hd])) he hr
    rw [List.append_assoc] at this
    exact Ran.step0 (t' := ⟨fl, .keyword, acc ++ [c], [], []⟩) (nobreak_keyword (t := ⟨fl, .keyword, acc, [], []⟩) hc) rfl this

theorem word_start {c : Char} (hd : isDigit c = false) (h : isBreak c = false) :
    (Tokenizer.withFlags fl).start c = .ret (⟨fl, .keyword, [c], [], []⟩, none) := by
  obtain ⟨h1, h2, h3, h4, h5, h6, h7, h8⟩ := nobreak_ne h
  obtain ⟨p1, p2, p3, p4, p5, p6⟩ := punct_ne h1
  have hs := white_ne h8
  unfold Tokenizer.start
  rw [if_neg p1, if_neg p2, if_neg p3, if_neg p4, if_neg p5, if_neg p6]
  split
  · rfl
  · rw [if_neg (by rw [hs]; simp)]
    simp only [h2, h3, h4, h5, h6, h7, if_false]
    rw [if_neg (by rw [hd]; simp), if_neg (by rw [h8]; simp)]
    rfl

theorem word_ran {c : Char} {w : List Char} (hd : isDigit c = false) (h : ∀ d ∈ c :: w, isBreak d = false) (he : Ends (! isBreak ·) l)
    (hr : Ran (.withFlags fl) l evs) : Ran (.withFlags fl) (c :: w ++ l) (word (c :: w) :: evs) :=
  Ran.start0 (word_start hd (h c (by simp))) rfl (word_loop w [c] (fun d hd => h d (by simp [hd])) he hr)

theorem word_slash (w : List Char) : word ('/' :: w) = .err (.keywordUnknown ('/' :: w)) := by
  unfold word
  rw [if_neg (by intro h; simp at h), if_neg (by intro h; simp at h), if_neg (by intro h; simp at h)]

theorem slash_ran {w : List Char} (h : ∀ d ∈ w, isBreak d = false) (he : Ends (! isBreak ·) l) (hw : w = [] → Ends (· = '/') l)
    (hr : Ran (.withFlags fl) l evs) : Ran (.withFlags fl) ('/' :: w ++ l) (.err (.keywordUnknown ('/' :: w)) :: evs) := by
  rw [← word_slash]
  refine Ran.start0 (t' := ⟨fl, .slash, ['/'], [], []⟩) rfl rfl ?_
  match w, h, hw with
  | [], _, hw =>
    have he' := hw rfl
    match l, he, he', hr with
    | [], _, _, hr => exact Ran.finish (e := [_]) (fun _ => true) (fun c hc => by cases hc) rfl (fun _ _ h => by cases h) hr
    | c :: l, he, he', hr =>
      have h1 := he c l rfl
      have h2 := he' c l rfl
      refine Ran.finish (e := [_]) (fun d => d ≠ c) (fun d hd => ?_) rfl (fun d l' h => by cases h; simp) hr
      simp only [ne_eq, decide_not, Bool.not_eq_false', decide_eq_true_eq] at hd
      subst hd
      show (if d = '/' then _ else _) = _
      rw [if_neg (by simpa using h2)]
      exact break_keyword (t := ⟨fl, .keyword, ['/'], [], []⟩) (by simpa using h1)
  | c :: w, h, _ =>
    have hc := h c (by simp)
    refine Ran.step0 (t' := ⟨fl, .keyword, ['/', c], [], []⟩) ?_ rfl
      (word_loop w ['/', c] (fun d hd => h d (by simp [hd])) he hr)
    show (if c = '/' then _ else _) = _
    rw [if_neg (nobreak_ne hc).2.2.2.2.1]
    exact nobreak_keyword (t := ⟨fl, .keyword, ['/'], [], []⟩) hc

/-! ## Comments -/

theorem comment_loop : ∀ (w acc : List Char), '\n' ∉ w → Ends (· ≠ '\n') l → Ran (.withFlags fl) l evs →
    Ran ⟨fl, .commentLine, acc, [], []⟩ (w ++ l) (.err (.comment (acc ++ w)) :: evs)
  | [], acc, _, he, hr => by
    rw [List.append_nil]
    refine Ran.finish (e := [_]) (· ≠ '\n') (fun c hc => ?_) rfl he hr
    show (if c = '\n' then _ else _) = _
    rw [if_pos (by simpa using hc)]
    rfl
  | c :: w, acc, hw, he, hr => by
    have := comment_loop w (acc ++ [c]) (fun h => hw (by simp [h])) he hr
    rw [List.append_assoc] at this
    refine Ran.step0 (t' := ⟨fl, .commentLine, acc ++ [c], [], []⟩) ?_ rfl this
    show (if c = '\n' then _ else _) = _
    rw [if_neg (fun h => hw (by simp [h]))]
    rfl

theorem hash_ran {w : List Char} (h : '\n' ∉ w) (he : Ends (· ≠ '\n') l) (hr : Ran (.withFlags fl) l evs) :
    Ran (.withFlags fl) ('#' :: w ++ l) (.err (.comment w) :: evs) :=
  Ran.start0 (t' := ⟨fl, .commentLine, [], [], []⟩) rfl rfl (comment_loop w [] h he hr)

theorem slashes_ran {w : List Char} (h : '\n' ∉ w) (he : Ends (· ≠ '\n') l) (hr : Ran (.withFlags fl) l evs) :
    Ran (.withFlags fl) ('/' :: '/' :: w ++ l) (.err (.comment ('/' :: '/' :: w)) :: evs) :=
  Ran.start0 (t' := ⟨fl, .slash, ['/'], [], []⟩) rfl rfl
    (Ran.step0 (t' := ⟨fl, .commentLine, ['/', '/'], [], []⟩) rfl rfl (comment_loop w ['/', '/'] h he hr))

end Verif.Json
