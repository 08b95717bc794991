import Verif.Json.LemmasToken
/-! # Lemmas about the JSON tokenizer: numbers -/
namespace Verif.Json

variable {fl : BitVec 32} {t t' : Tokenizer} {l : List Char} {e es evs : List Ev} {s x : Sign} {n m k : Nat} {st : State}
  {acc : List Char} {an : List UInt8}

/-- The states after the digits of the integer. -/
def IntSt (s : Sign) (n : Nat) (st : State) : Prop := st = .integerSome s n ∨ (st = .integerZero s ∧ n = 1)

theorem digit_ne {c d : Char} (h : isDigit c = true) (hd : isDigit d = false) : c ≠ d := fun h' => by rw [h', hd] at h; cases h

/-! ## Runs of digits -/

theorem int_loop : ∀ (ds : List Char) (n : Nat) (acc : List Char) (an : List UInt8), Digits ds →
    Ran ⟨fl, .integerSome s (n + ds.length), acc ++ ds, [], an ++ ds.map digitVal⟩ l evs →
    Ran ⟨fl, .integerSome s n, acc, [], an⟩ (ds ++ l) evs
  | [], n, acc, an, _, h => by simpa using h
  | c :: ds, n, acc, an, hd, h => by
    have hc := hd c (by simp)
    refine Ran.step0 (t' := ⟨fl, .integerSome s (n + 1), acc ++ [c], [], an ++ [digitVal c]⟩) ?_ rfl
      (int_loop ds (n + 1) (acc ++ [c]) (an ++ [digitVal c]) (fun d hd' => hd d (by simp [hd'])) ?_)
    · show (if isDigit c = true then _ else _) = _
      rw [if_pos hc, digit_eq hc]
    · simpa [Nat.add_assoc, Nat.add_comm 1] using h

theorem frac_loop : ∀ (ds : List Char) (m : Nat) (acc : List Char) (an : List UInt8), Digits ds →
    Ran ⟨fl, .fractionSome s n (m + ds.length), acc ++ ds, [], an ++ ds.map digitVal⟩ l evs →
    Ran ⟨fl, .fractionSome s n m, acc, [], an⟩ (ds ++ l) evs
  | [], m, acc, an, _, h => by simpa using h
  | c :: ds, m, acc, an, hd, h => by
    have hc := hd c (by simp)
    refine Ran.step0 (t' := ⟨fl, .fractionSome s n (m + 1), acc ++ [c], [], an ++ [digitVal c]⟩) ?_ rfl
      (frac_loop ds (m + 1) (acc ++ [c]) (an ++ [digitVal c]) (fun d hd' => hd d (by simp [hd'])) ?_)
    · show (if (decide (c = 'e') || decide (c = 'E')) = true then _ else if isDigit c = true then _ else _) = _
      rw [if_neg (by simp [digit_ne hc (d := 'e') rfl, digit_ne hc (d := 'E') rfl]), if_pos hc, digit_eq hc]
    · simpa [Nat.add_assoc, Nat.add_comm 1] using h

theorem exp_loop : ∀ (ds : List Char) (k : Nat) (acc : List Char) (an : List UInt8), Digits ds →
    Ran ⟨fl, .exponentSome s n m x (k + ds.length), acc ++ ds, [], an ++ ds.map digitVal⟩ l evs →
    Ran ⟨fl, .exponentSome s n m x k, acc, [], an⟩ (ds ++ l) evs
  | [], k, acc, an, _, h => by simpa using h
  | c :: ds, k, acc, an, hd, h => by
    have hc := hd c (by simp)
    refine Ran.step0 (t' := ⟨fl, .exponentSome s n m x (k + 1), acc ++ [c], [], an ++ [digitVal c]⟩) ?_ rfl
      (exp_loop ds (k + 1) (acc ++ [c]) (an ++ [digitVal c]) (fun d hd' => hd d (by simp [hd'])) ?_)
    · show (if isDigit c = true then _ else _) = _
      rw [if_pos hc, digit_eq hc]
    · simpa [Nat.add_assoc, Nat.add_comm 1] using h

/-! ## The integer -/

theorem zero_char {c : Char} : c = '0' ↔ c.toNat = 48 := ⟨fun h => by rw [h]; rfl, fun h => char_eq h⟩

/-- The digits after the first one. -/
theorem int_rest (c : Char) (ds : List Char) (hd : Digits (c :: ds))
    (h : ∀ st, IntSt s (ds.length + 1) st → Ran ⟨fl, st, acc ++ c :: ds, [], (c :: ds).map digitVal⟩ l evs) :
    Ran ⟨fl, if c = '0' then .integerZero s else .integerSome s 1, acc ++ [c], [], [digitVal c]⟩ (ds ++ l)
      ((leadingZero ((Tokenizer.withFlags fl).has flagLeadingZero) (c :: ds)).map .err ++ evs) := by
  by_cases hc : c = '0'
  · rw [if_pos hc]
    subst hc
    match ds, hd, h with
    | [], _, h => exact h _ (.inr ⟨rfl, rfl⟩)
    | d :: ds, hd, h =>
      have hdd := hd d (by simp)
      have h2 := int_loop (fl := fl) (s := s) (l := l) (evs := evs) ds 2 (acc ++ ['0'] ++ [d]) ([digitVal '0'] ++ [digitVal d])
        (fun c hc => hd c (by simp [hc])) (by
          have := h _ (.inl rfl)
          simp only [List.length_cons, show ds.length + 1 + 1 = 2 + ds.length by omega] at this
          simpa using this)
      have hh : ∀ (t : Tokenizer), t.state = .integerZero s → t.handle (some d)
          = if t.has flagLeadingZero then t.digit d (.integerSome s 2) else .say (.err (.characterStray d)) <| t.digit d (.integerSome s 2) := by
        intro t ht
        unfold Tokenizer.handle
        rw [ht]
        unfold Tokenizer.advanceNumber
        rw [ht]
        simp only
        rw [if_neg (digit_ne hdd rfl), if_neg (by simp [digit_ne hdd (d := 'e') rfl, digit_ne hdd (d := 'E') rfl]), if_pos hdd]
      cases hz : (Tokenizer.withFlags fl).has flagLeadingZero with
      | true =>
        refine Ran.step0 (t' := ⟨fl, .integerSome s 2, acc ++ ['0'] ++ [d], [], [digitVal '0'] ++ [digitVal d]⟩) ?_ (by rfl) h2
        rw [hh _ rfl, digit_eq hdd]
        rw [if_pos (show Tokenizer.has ⟨fl, .integerZero s, acc ++ ['0'], [], [digitVal '0']⟩ flagLeadingZero = true from hz)]
      | false =>
        refine Ran.step (e := [.err (.characterStray d)])
          (t' := ⟨fl, .integerSome s 2, acc ++ ['0'] ++ [d], [], [digitVal '0'] ++ [digitVal d]⟩) ?_ (by rfl) h2
        rw [hh _ rfl, digit_eq hdd]
        rw [if_neg (by rw [show Tokenizer.has ⟨fl, .integerZero s, acc ++ ['0'], [], [digitVal '0']⟩ flagLeadingZero = false from hz]; simp)]
        rfl
  · rw [if_neg hc]
    have hl : leadingZero ((Tokenizer.withFlags fl).has flagLeadingZero) (c :: ds) = [] := by
      unfold leadingZero
      split
      · rename_i h'; cases h'; exact absurd rfl hc
      · rfl
    rw [hl]
    exact int_loop ds 1 _ _ (fun c hc => hd c (by simp [hc])) (by simpa [Nat.add_comm] using h _ (.inl rfl))

theorem int_ran {sg ds : List Char} (hs : SignText ((Tokenizer.withFlags fl).has flagPlusSign) s sg) (hd : Digits ds) (hn : ds ≠ [])
    (h : ∀ st, IntSt s ds.length st → Ran ⟨fl, st, sg ++ ds, [], ds.map digitVal⟩ l evs) :
    Ran (.withFlags fl) (sg ++ ds ++ l) ((leadingZero ((Tokenizer.withFlags fl).has flagLeadingZero) ds).map .err ++ evs) := by
  match ds, hn with
  | c :: ds, _ =>
    have hc := hd c (by simp)
    have key := int_rest (fl := fl) (s := s) (l := l) (evs := evs) (acc := sg) c ds hd h
    have h1 : Ran ⟨fl, .integerNone s, sg, [], []⟩ (c :: ds ++ l)
        ((leadingZero ((Tokenizer.withFlags fl).has flagLeadingZero) (c :: ds)).map .err ++ evs) := by
      refine Ran.step0 ?_ (by rfl) key
      show (if isDigit c = true then _ else _) = _
      rw [if_pos hc, digit_eq hc]
      rfl
    cases hs with
    | none =>
      refine Ran.start0 ?_ (by rfl) key
      have := digit_cases hc
      unfold Tokenizer.start
      rw [if_neg (digit_ne hc rfl), if_neg (digit_ne hc rfl), if_neg (digit_ne hc rfl), if_neg (digit_ne hc rfl), if_neg (digit_ne hc rfl),
        if_neg (digit_ne hc rfl), if_neg (by omega), if_neg (by simp [isSpace, digit_ne hc (d := ' ') rfl, digit_ne hc (d := '\n') rfl,
          digit_ne hc (d := '\r') rfl, digit_ne hc (d := '\t') rfl]), if_neg (digit_ne hc rfl), if_pos hc, digit_eq hc]
      rfl
    | minus => exact Ran.start0 (t' := ⟨fl, .integerNone .minus, ['-'], [], []⟩) rfl rfl h1
    | plus hp =>
      refine Ran.start0 (t' := ⟨fl, .integerNone .plus, ['+'], [], []⟩) ?_ (by rfl) h1
      show (if (Tokenizer.withFlags fl).has flagPlusSign = true then _ else _) = _
      rw [if_pos hp]
      rfl

/-- A sign only. -/
theorem sign_ran {sg : List Char} (hs : SignText ((Tokenizer.withFlags fl).has flagPlusSign) s sg) (hn : sg ≠ [])
    (h : Ran ⟨fl, .integerNone s, sg, [], []⟩ l evs) : Ran (.withFlags fl) (sg ++ l) evs := by
  cases hs with
  | none => exact absurd rfl hn
  | minus => exact Ran.start0 (t' := ⟨fl, .integerNone .minus, ['-'], [], []⟩) rfl rfl h
  | plus hp =>
    refine Ran.start0 (t' := ⟨fl, .integerNone .plus, ['+'], [], []⟩) ?_ (by rfl) h
    show (if (Tokenizer.withFlags fl).has flagPlusSign = true then _ else _) = _
    rw [if_pos hp]
    rfl

/-! ## Fraction and exponent -/

theorem point_step (hst : IntSt s n st) (h : Ran ⟨fl, .fractionNone s n, acc ++ ['.'], [], an⟩ l evs) :
    Ran ⟨fl, st, acc, [], an⟩ ('.' :: l) evs := by
  rcases hst with rfl | ⟨rfl, rfl⟩
  · exact Ran.step0 rfl rfl h
  · exact Ran.step0 rfl rfl h

theorem frac_step {fs : List Char} (hf : Digits fs) (hn : fs ≠ [])
    (h : Ran ⟨fl, .fractionSome s n fs.length, acc ++ fs, [], an ++ fs.map digitVal⟩ l evs) :
    Ran ⟨fl, .fractionNone s n, acc, [], an⟩ (fs ++ l) evs := by
  match fs, hn with
  | c :: fs, _ =>
    have hc := hf c (by simp)
    refine Ran.step0 (t' := ⟨fl, .fractionSome s n 1, acc ++ [c], [], an ++ [digitVal c]⟩) ?_ rfl
      (frac_loop fs 1 _ _ (fun d hd => hf d (by simp [hd])) (by simpa [Nat.add_comm] using h))
    show (if isDigit c = true then _ else _) = _
    rw [if_pos hc, digit_eq hc]

theorem e_step {ft fs : List Char} {c : Char} (hst : IntSt s n st) (hf : FracText ft fs) (hc : isE c = true)
    (h : Ran ⟨fl, .exponentNone s n fs.length, acc ++ ft ++ [c], [], an ++ fs.map digitVal⟩ l evs) :
    Ran ⟨fl, st, acc, [], an⟩ (ft ++ c :: l) evs := by
  cases hf with
  | none =>
    have hcd : isDigit c = false ∧ c ≠ '.' := by
      simp only [isE, Bool.or_eq_true, decide_eq_true_eq] at hc
      rcases hc with rfl | rfl <;> decide
    refine Ran.step0 (t' := ⟨fl, .exponentNone s n 0, acc ++ [c], [], an⟩) ?_ rfl (by simpa using h)
    rcases hst with rfl | ⟨rfl, rfl⟩
    · show (if isDigit c = true then _ else if c = '.' then _ else if isE c = true then _ else _) = _
      rw [if_neg (by rw [hcd.1]; simp), if_neg hcd.2, if_pos hc]
      rfl
    · show (if c = '.' then _ else if isE c = true then _ else _) = _
      rw [if_neg hcd.2, if_pos hc]
      rfl
  | some _ hf hn =>
    refine point_step hst (frac_step hf hn ?_)
    refine Ran.step0 (t' := ⟨fl, .exponentNone s n fs.length, acc ++ ['.'] ++ fs ++ [c], [], an ++ fs.map digitVal⟩) ?_ rfl (by simpa using h)
    show (if isE c = true then _ else _) = _
    rw [if_pos hc]
    rfl

theorem expSign_step {et : List Char} (he : ExpSign x et) (hn : et ≠ [])
    (h : Ran ⟨fl, .exponentSign s n m x, acc ++ et, [], an⟩ l evs) : Ran ⟨fl, .exponentNone s n m, acc, [], an⟩ (et ++ l) evs := by
  cases he with
  | none => exact absurd rfl hn
  | minus => exact Ran.step0 rfl rfl h
  | plus => exact Ran.step0 rfl rfl h

theorem exp_step {et xs : List Char} (he : ExpSign x et) (hx : Digits xs) (hn : xs ≠ [])
    (h : Ran ⟨fl, .exponentSome s n m x xs.length, acc ++ et ++ xs, [], an ++ xs.map digitVal⟩ l evs) :
    Ran ⟨fl, .exponentNone s n m, acc, [], an⟩ (et ++ xs ++ l) evs := by
  match xs, hn with
  | c :: xs, _ =>
    have hc := hx c (by simp)
    have hrest : Ran ⟨fl, .exponentSome s n m x 1, acc ++ et ++ [c], [], an ++ [digitVal c]⟩ (xs ++ l) evs :=
      exp_loop xs 1 _ _ (fun d hd => hx d (by simp [hd])) (by simpa [Nat.add_comm] using h)
    have hsgn : Ran ⟨fl, .exponentSign s n m x, acc ++ et, [], an⟩ (c :: xs ++ l) evs := by
      refine Ran.step0 ?_ (by rfl) hrest
      show (if isDigit c = true then _ else _) = _
      rw [if_pos hc, digit_eq hc]
    rw [List.append_assoc]
    cases he with
    | none =>
      refine Ran.step0 ?_ (by rfl) hrest
      show (if c = '+' then _ else if c = '-' then _ else if isDigit c = true then _ else _) = _
      rw [if_neg (digit_ne hc rfl), if_neg (digit_ne hc rfl), if_pos hc, digit_eq hc]
      simp
    | minus => exact expSign_step .minus (by simp) hsgn
    | plus => exact expSign_step .plus (by simp) hsgn

/-! ## The end -/

theorem number_eq {α : Type} {r : Run α} (hn : n ≤ t.accNum.length) (hm : n + m ≤ t.accNum.length) :
    t.number s n m x r = .say (.tok (.number t.acc (t.accNum.take n) ((t.accNum.drop n).take m) (t.accNum.drop (n + m)) s x)) r := by
  unfold Tokenizer.number
  rw [if_pos ⟨hn, hm⟩]

theorem Ran.finish' (p : Char → Bool) (q : Run (Tokenizer × Option Char) → Run (Tokenizer × Option Char))
    (hc : ∀ c, p c = false → t.handle (some c) = q (.ret (t.prepare, some c)))
    (hn : t.handle none = q (.ret (t.prepare, none))) (hq : ∀ c, q (.ret (t.prepare, c)) = ⟨e, some (t.prepare, c)⟩)
    (hp : Ends p l) (hr : Ran (.withFlags t.flags) l evs) :
    Ran t l (e ++ evs) := Ran.finish p (fun c h => by rw [hc c h, hq]) (by rw [hn, hq]) hp hr

theorem number_ran {raw : List Char} {tk : Token} {errs : List Err} {more : Char → Bool}
    (hn : Numeral ((Tokenizer.withFlags fl).has flagPlusSign) ((Tokenizer.withFlags fl).has flagLeadingZero) raw tk errs more)
    (he : Ends more l) (hr : Ran (.withFlags fl) l evs) : Ran (.withFlags fl) (raw ++ l) (errs.map .err ++ .tok tk :: evs) := by
  cases hn with
  | sign s sg hs hn =>
    refine sign_ran hs hn (Ran.finish (e := [_, _]) isDigit (fun c hc => ?_) rfl he hr)
    show (if isDigit c = true then _ else _) = _
    rw [if_neg (by rw [hc]; simp)]
    rfl
  | integer s sg ds hs hd hn =>
    refine int_ran hs hd hn fun st hst => ?_
    refine Ran.finish' (t := ⟨fl, st, sg ++ ds, [], ds.map digitVal⟩) (e := [_]) (fun c => isDigit c || c = '.' || isE c)
      (Tokenizer.number ⟨fl, st, sg ++ ds, [], ds.map digitVal⟩ s ds.length 0 .plus) (fun c hc => ?_) ?_
      (fun c => by rw [number_eq (by simp) (by simp), List.take_of_length_le (by simp)]; simp [Run.say, Run.ret]) he hr
    · simp only [Bool.or_eq_false_iff, decide_eq_false_iff_not] at hc
      obtain ⟨⟨h1, h2⟩, h3⟩ := hc
      rcases hst with rfl | ⟨rfl, h⟩
      · show (if isDigit c = true then _ else if c = '.' then _ else if isE c = true then _ else _) = _
        rw [if_neg (by rw [h1]; simp), if_neg h2, if_neg (by rw [h3]; simp)]
        rfl
      · rw [h]
        show (if c = '.' then _ else if isE c = true then _ else if isDigit c = true then _ else _) = _
        rw [if_neg h2, if_neg (by rw [h3]; simp), if_neg (by rw [h1]; simp)]
        rfl
    · rcases hst with rfl | ⟨rfl, h⟩
      · rfl
      · rw [h]; rfl
  | point s sg ds hs hd hn =>
    have : sg ++ ds ++ ['.'] ++ l = sg ++ ds ++ '.' :: l := by simp
    rw [this, List.map_append, List.append_assoc (List.map Ev.err _)]
    refine int_ran hs hd hn fun st hst => point_step hst ?_
    refine Ran.finish' (t := ⟨fl, .fractionNone s ds.length, sg ++ ds ++ ['.'], [], ds.map digitVal⟩) (e := [_, _]) isDigit
      (fun r => .say (.err .numberIncomplete) <|
        Tokenizer.number ⟨fl, .fractionNone s ds.length, sg ++ ds ++ ['.'], [], ds.map digitVal⟩ s ds.length 0 .plus r) (fun c hc => ?_) rfl
      (fun c => by rw [number_eq (by simp) (by simp), List.take_of_length_le (by simp)]; simp [Run.say, Run.ret]) he hr
    show (if isDigit c = true then _ else _) = _
    rw [if_neg (by rw [hc]; simp)]
    rfl
  | fraction s sg ds fs hs hd hn hf hfn =>
    have : sg ++ ds ++ '.' :: fs ++ l = sg ++ ds ++ '.' :: (fs ++ l) := by simp
    rw [this]
    refine int_ran hs hd hn fun st hst => point_step hst (frac_step hf hfn ?_)
    have : sg ++ ds ++ '.' :: fs = sg ++ ds ++ ['.'] ++ fs := by simp
    rw [this]
    refine Ran.finish' (t := ⟨fl, .fractionSome s ds.length fs.length, sg ++ ds ++ ['.'] ++ fs, [], ds.map digitVal ++ fs.map digitVal⟩) (e := [_])
      (fun c => isDigit c || isE c) (Tokenizer.number ⟨fl, .fractionSome s ds.length fs.length, sg ++ ds ++ ['.'] ++ fs, [],
        ds.map digitVal ++ fs.map digitVal⟩ s ds.length fs.length .plus) (fun c hc => ?_) rfl
      (fun c => by
        rw [number_eq (by simp) (by simp)]
        simp only [Run.say, Run.ret]
        rw [List.take_left' (by simp), List.drop_left' (by simp), List.take_of_length_le (by simp), List.drop_of_length_le (by simp)]) he hr
    simp only [Bool.or_eq_false_iff] at hc
    show (if isE c = true then _ else if isDigit c = true then _ else _) = _
    rw [if_neg (by rw [hc.2]; simp), if_neg (by rw [hc.1]; simp)]
    rfl
  | exponent s sg ds ft fs c hs hd hn hf hc =>
    have : sg ++ ds ++ ft ++ [c] ++ l = sg ++ ds ++ (ft ++ c :: l) := by simp
    rw [this, List.map_append, List.append_assoc (List.map Ev.err _)]
    refine int_ran hs hd hn fun st hst => e_step hst hf hc ?_
    refine Ran.finish' (t := ⟨fl, .exponentNone s ds.length fs.length, sg ++ ds ++ ft ++ [c], [], ds.map digitVal ++ fs.map digitVal⟩) (e := [_, _])
      (fun c => isDigit c || c = '+' || c = '-') (fun r => .say (.err .numberIncomplete) <|
        Tokenizer.number ⟨fl, .exponentNone s ds.length fs.length, sg ++ ds ++ ft ++ [c], [],
        ds.map digitVal ++ fs.map digitVal⟩ s ds.length fs.length .plus r) (fun c hc => ?_) rfl
      (fun c => by
        rw [number_eq (by simp) (by simp)]
        simp only [Run.say, Run.ret]
        rw [List.take_left' (by simp), List.drop_left' (by simp), List.take_of_length_le (by simp), List.drop_of_length_le (by simp)]) he hr
    simp only [Bool.or_eq_false_iff, decide_eq_false_iff_not] at hc
    show (if c = '+' then _ else if c = '-' then _ else if isDigit c = true then _ else _) = _
    rw [if_neg hc.1.2, if_neg hc.2, if_neg (by rw [hc.1.1]; simp)]
    rfl
  | exponentSign s sg ds ft fs c x et hs hd hn hf hc hx hxn =>
    have : sg ++ ds ++ ft ++ c :: et ++ l = sg ++ ds ++ (ft ++ c :: (et ++ l)) := by simp
    rw [this, List.map_append, List.append_assoc (List.map Ev.err _)]
    refine int_ran hs hd hn fun st hst => e_step hst hf hc (expSign_step hx hxn ?_)
    have : sg ++ ds ++ ft ++ c :: et = sg ++ ds ++ ft ++ [c] ++ et := by simp
    rw [this]
    refine Ran.finish' (t := ⟨fl, .exponentSign s ds.length fs.length x, sg ++ ds ++ ft ++ [c] ++ et, [], ds.map digitVal ++ fs.map digitVal⟩) (e := [_, _])
      isDigit (fun r => .say (.err .numberIncomplete) <|
        Tokenizer.number ⟨fl, .exponentSign s ds.length fs.length x, sg ++ ds ++ ft ++ [c] ++ et, [],
        ds.map digitVal ++ fs.map digitVal⟩ s ds.length fs.length x r) (fun c hc => ?_) rfl
      (fun c => by
        rw [number_eq (by simp) (by simp)]
        simp only [Run.say, Run.ret]
        rw [List.take_left' (by simp), List.drop_left' (by simp), List.take_of_length_le (by simp), List.drop_of_length_le (by simp)]) he hr
    show (if isDigit c = true then _ else _) = _
    rw [if_neg (by rw [hc]; simp)]
    rfl
  | full s sg ds ft fs c x et xs hs hd hn hf hc hx hxs hxn =>
    have : sg ++ ds ++ ft ++ c :: et ++ xs ++ l = sg ++ ds ++ (ft ++ c :: (et ++ xs ++ l)) := by simp
    rw [this]
    refine int_ran hs hd hn fun st hst => e_step hst hf hc (exp_step hx hxs hxn ?_)
    have : sg ++ ds ++ ft ++ c :: et ++ xs = sg ++ ds ++ ft ++ [c] ++ et ++ xs := by simp
    rw [this]
    refine Ran.finish' (t := ⟨fl, .exponentSome s ds.length fs.length x xs.length, sg ++ ds ++ ft ++ [c] ++ et ++ xs, [],
      ds.map digitVal ++ fs.map digitVal ++ xs.map digitVal⟩) (e := [_])
      isDigit (Tokenizer.number ⟨fl, .exponentSome s ds.length fs.length x xs.length, sg ++ ds ++ ft ++ [c] ++ et ++ xs, [],
        ds.map digitVal ++ fs.map digitVal ++ xs.map digitVal⟩ s ds.length fs.length x) (fun c hc => ?_) rfl
      (fun c => by
        rw [number_eq (by simp) (by simp)]
        simp only [Run.say, Run.ret]
        rw [List.append_assoc (ds.map digitVal), List.take_left' (by simp), List.drop_left' (by simp), List.take_left' (by simp),
          ← List.append_assoc, List.drop_left' (by simp)]) he hr
    show (if isDigit c = true then _ else _) = _
    rw [if_neg (by rw [hc]; simp)]
    rfl

end Verif.Json
