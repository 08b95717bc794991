import Verif.Json.LemmasNumber
import Verif.Json.LemmasString
/-! # Lemmas about the JSON tokenizer: texts -/
namespace Verif.Json

variable {fl : BitVec 32} {plus zero : Bool} {l text : List Char} {e es evs : List Ev}

/-! ## The specification is met -/

theorem lex_ran (h : Lex ((Tokenizer.withFlags fl).has flagPlusSign) ((Tokenizer.withFlags fl).has flagLeadingZero) text evs) :
    Ran (.withFlags fl) text evs := by
  induction h with
  | nil => exact Ran.nil fl
  | punct c t l evs h _ ih => exact punct_ran h ih
  | equals l evs _ ih => exact equals_ran ih
  | stray l evs h _ ih => exact stray_ran h ih
  | space w l evs h1 h2 h3 _ ih => exact space_ran h1 h2 h3 ih
  | word c w l evs h1 h2 h3 _ ih => exact word_ran h1 h2 h3 ih
  | slash w l evs h1 h2 h3 _ ih => exact slash_ran h1 h2 h3 ih
  | hash w l evs h1 h2 _ ih => exact hash_ran h1 h2 ih
  | slashes w l evs h1 h2 _ ih => exact slashes_ran h1 h2 ih
  | number raw t errs more l evs h1 h2 _ ih => exact number_ran h1 h2 ih
  | string text raw chars errs l evs h1 _ ih => exact string_ran h1 ih
  | cut text errs h => exact stringCut_ran h

theorem ran_unique {t : Tokenizer} (h : Ran t text evs) : ∀ {evs'}, Ran t text evs' → evs' = evs := by
  induction h with
  | done t e h =>
    intro evs' h'
    cases h' with
    | done _ _ h' => rw [h] at h'; cases h'; rfl
  | more t c e t' l es h _ _ ih =>
    intro evs' h'
    cases h' with
    | more _ _ e' t'' _ es' h' _ hr =>
      rw [h] at h'; cases h'
      rw [ih hr]

/-! ## The specification covers all texts -/

theorem span (p : Char → Bool) : ∀ l : List Char, ∃ a b, l = a ++ b ∧ (∀ c ∈ a, p c = true) ∧ Ends p b
  | [] => ⟨[], [], rfl, fun _ h => (by cases h), fun _ _ h => (by cases h)⟩
  | c :: l => by
    cases hp : p c with
    | false => exact ⟨[], c :: l, rfl, fun _ h => (by cases h), fun _ _ h => by cases h; exact hp⟩
    | true =>
      obtain ⟨a, b, rfl, h1, h2⟩ := span p l
      refine ⟨c :: a, b, rfl, fun d hd => ?_, h2⟩
      rw [List.mem_cons] at hd
      rcases hd with rfl | hd
      · exact hp
      · exact h1 d hd

theorem span_hex : ∀ (n : Nat) (l : List Char), ∃ m h next, l = h ++ next ∧ Hexs m h ∧ (m = n ∨ (m < n ∧ Ends isHex next))
  | 0, l => ⟨0, [], l, rfl, ⟨rfl, fun _ h => (by cases h)⟩, .inl rfl⟩
  | n + 1, [] => ⟨0, [], [], rfl, ⟨rfl, fun _ h => (by cases h)⟩, .inr ⟨by omega, fun _ _ h => (by cases h)⟩⟩
  | n + 1, c :: l => by
    cases hc : isHex c with
    | false => exact ⟨0, [], c :: l, rfl, ⟨rfl, fun _ h => (by cases h)⟩, .inr ⟨by omega, fun _ _ h => by cases h; exact hc⟩⟩
    | true =>
      obtain ⟨m, h, next, rfl, hh, hm⟩ := span_hex n l
      refine ⟨m + 1, c :: h, next, rfl, ⟨by simp [hh.1], fun d hd => ?_⟩, ?_⟩
      · rw [List.mem_cons] at hd
        rcases hd with rfl | hd
        · exact hc
        · exact hh.2 d hd
      · rcases hm with rfl | ⟨hm, he⟩
        · exact .inl rfl
        · exact .inr ⟨by omega, he⟩

/-- What follows a lead surrogate. -/
theorem lead_total {h : List Char} (hh : Hexs 4 h) (hl : isLead (hexVal h)) (next : List Char) :
    Unfinished ('\\' :: 'u' :: (h ++ next)) ∨
    ∃ raw rest chars errs, '\\' :: 'u' :: (h ++ next) = raw ++ rest ∧ raw ≠ [] ∧ Item raw rest chars errs := by
  match next with
  | [] => exact .inl (by rw [List.append_nil]; exact .lead h hh hl)
  | c :: next =>
    by_cases hc : c = '\\'
    · subst hc
      match next with
      | [] => exact .inl (.leadEscape h hh hl)
      | d :: next =>
        cases hd : escape d with
        | some x =>
          exact .inr ⟨'\\' :: 'u' :: h ++ ['\\', d], next, _, _, by simp, by simp, .leadEscape h d x next hh hl hd⟩
        | none =>
          by_cases hu : d = 'u'
          · subst hu
            obtain ⟨m, k, rest, rfl, hk, hm⟩ := span_hex 4 next
            rcases hm with rfl | ⟨hm, he⟩
            · by_cases ht : isTrail (hexVal k)
              · obtain ⟨h1, h2⟩ := hl
                obtain ⟨t1, t2⟩ := ht
                obtain ⟨c, _, hc⟩ := fromU32_some (n := 0x10000 + (hexVal h - 0xd800) * 0x400 + (hexVal k - 0xdc00)) (by omega)
                exact .inr ⟨'\\' :: 'u' :: h ++ '\\' :: 'u' :: k, rest, _, _, by simp, by simp,
                  .pair h k c rest hh hk ⟨h1, h2⟩ ⟨t1, t2⟩ hc⟩
              · exact .inr ⟨'\\' :: 'u' :: h ++ '\\' :: 'u' :: k, rest, _, _, by simp, by simp, .leadOther h k rest hh hl hk ht⟩
            · match rest, he with
              | [], _ => exact .inl (by rw [List.append_nil]; exact .leadUnicode m h k hh hl hm hk)
              | c :: rest, he =>
                exact .inr ⟨'\\' :: 'u' :: h ++ '\\' :: 'u' :: k, c :: rest, _, _, by simp, by simp,
                  .leadShort m h k _ hh hl hm hk (by simp) he⟩
          · exact .inr ⟨'\\' :: 'u' :: h ++ ['\\', d], next, _, _, by simp, by simp, .leadBadEscape h d next hh hl hd hu⟩
    · exact .inr ⟨'\\' :: 'u' :: h, c :: next, _, _, by simp, by simp,
        .lead h _ hh hl (by simp) (fun _ _ h => by cases h; simpa using hc)⟩

/-- Escape sequences. -/
theorem escape_total (l : List Char) : Unfinished ('\\' :: l) ∨
    ∃ raw rest chars errs, '\\' :: l = raw ++ rest ∧ raw ≠ [] ∧ Item raw rest chars errs := by
  match l with
  | [] => exact .inl .escape
  | c :: l =>
    cases hc : escape c with
    | some d => exact .inr ⟨['\\', c], l, _, _, rfl, by simp, .escape c d l hc⟩
    | none =>
      by_cases hu : c = 'u'
      · subst hu
        obtain ⟨m, h, rest, rfl, hh, hm⟩ := span_hex 4 l
        rcases hm with rfl | ⟨hm, he⟩
        · have hv := hexVal_lt hh
          by_cases hl : isLead (hexVal h)
          · exact lead_total hh hl rest
          · by_cases ht : isTrail (hexVal h)
            · exact .inr ⟨'\\' :: 'u' :: h, rest, _, _, by simp, by simp, .trail h rest hh ht⟩
            · unfold isLead at hl
              unfold isTrail at ht
              obtain ⟨c, _, hc⟩ := fromU32_some (n := hexVal h) (by omega)
              exact .inr ⟨'\\' :: 'u' :: h, rest, _, _, by simp, by simp, .unicode h c rest hh hc⟩
        · match rest, he with
          | [], _ => exact .inl (by rw [List.append_nil]; exact .unicode m h hm hh)
          | c :: rest, he => exact .inr ⟨'\\' :: 'u' :: h, c :: rest, _, _, by simp, by simp, .short m h _ hm hh (by simp) he⟩
      · exact .inr ⟨['\\', c], l, _, _, rfl, by simp, .badEscape c l hc hu⟩

theorem item_total (c : Char) (l : List Char) (hq : c ≠ '"') : Unfinished (c :: l) ∨
    ∃ raw rest chars errs, c :: l = raw ++ rest ∧ raw ≠ [] ∧ Item raw rest chars errs := by
  by_cases hc : c = '\\'
  · subst hc; exact escape_total l
  · by_cases h : 0x20 ≤ c.toNat
    · exact .inr ⟨[c], l, _, _, rfl, by simp, .plain c l h hq hc⟩
    · exact .inr ⟨[c], l, _, _, rfl, by simp, .control c l (by omega)⟩

theorem body_total : ∀ (n : Nat) (text : List Char), text.length ≤ n →
    (∃ raw chars errs rest, Body text raw chars errs rest ∧ rest.length < text.length) ∨ ∃ errs, Cut text errs
  | _, [], _ => .inr ⟨_, .nil⟩
  | 0, c :: l, h => by simp at h
  | n + 1, c :: l, hn => by
    by_cases hq : c = '"'
    · subst hq
      exact .inl ⟨_, _, _, l, .close l, by simp⟩
    · rcases item_total c l hq with h | ⟨raw, rest, chars, errs, he, hne, hi⟩
      · exact .inr ⟨_, .unfinished _ h⟩
      · have hlen : 0 < raw.length := List.length_pos_iff.mpr hne
        have hlen2 : (c :: l).length = raw.length + rest.length := by rw [he, List.length_append]
        rw [he]
        rcases body_total n rest (by omega) with ⟨r, ch, er, re, hb, hl⟩ | ⟨er, hc⟩
        · exact .inl ⟨_, _, _, re, .item _ _ _ _ _ _ _ _ hi hb, by rw [List.length_append]; omega⟩
        · exact .inr ⟨_, .item _ _ _ _ _ hi hc⟩

/-- Numbers which start with a digit. -/
theorem digits_total {s : Sign} {sg ds : List Char} (hs : SignText plus s sg) (hd : Digits ds) (hne : ds ≠ []) (l : List Char)
    (he : Ends isDigit l) : ∃ raw tok errs more rest, sg ++ ds ++ l = raw ++ rest ∧ raw ≠ [] ∧ Numeral plus zero raw tok errs more ∧ Ends more rest := by
  have key : ∀ (ft fs : List Char) (e : Char) (l : List Char), FracText ft fs → isE e = true →
      ∃ raw tok errs more rest, sg ++ ds ++ (ft ++ e :: l) = raw ++ rest ∧ raw ≠ [] ∧ Numeral plus zero raw tok errs more ∧ Ends more rest := by
    intro ft fs e l hf hee
    have fin : ∀ (es : Sign) (et l : List Char), ExpSign es et →
        (∀ c l', l = c :: l' → et = [] → (isDigit c || c = '+' || c = '-') = true → isDigit c = true) →
        ∃ raw tok errs more rest, sg ++ ds ++ (ft ++ e :: (et ++ l)) = raw ++ rest ∧ raw ≠ [] ∧ Numeral plus zero raw tok errs more ∧ Ends more rest := by
      intro es et l hes hx
      obtain ⟨xs, rest, rfl, hxs, hr⟩ := span isDigit l
      by_cases hxn : xs = []
      · subst hxn
        by_cases hen : et = []
        · subst hen
          refine ⟨sg ++ ds ++ ft ++ [e], _, _, _, rest, by simp, by simp, .exponent s sg ds ft fs e hs hd hne hf hee, ?_⟩
          intro c l' hc
          subst hc
          cases hb : (isDigit c || c = '+' || c = '-') with
          | false => exact hb
          | true =>
            have := hx c l' rfl rfl hb
            rw [hr c l' rfl] at this; cases this
        · exact ⟨sg ++ ds ++ ft ++ e :: et, _, _, _, rest, by simp, by simp, .exponentSign s sg ds ft fs e es et hs hd hne hf hee hes hen, hr⟩
      · exact ⟨sg ++ ds ++ ft ++ e :: et ++ xs, _, _, _, rest, by simp, by simp, .full s sg ds ft fs e es et xs hs hd hne hf hee hes hxs hxn, hr⟩
    match l with
    | [] => exact fin .plus [] [] .none (fun _ _ h => by cases h)
    | c :: l =>
      by_cases hp : c = '+'
      · subst hp; exact fin .plus ['+'] l .plus (fun _ _ _ h => by cases h)
      · by_cases hm : c = '-'
        · subst hm; exact fin .minus ['-'] l .minus (fun _ _ _ h => by cases h)
        · refine fin .plus [] (c :: l) .none (fun _ _ h _ h2 => ?_)
          cases h
          simpa [hp, hm] using h2
  match l, he with
  | [], _ => exact ⟨sg ++ ds, _, _, _, [], rfl, by simp [hne], .integer s sg ds hs hd hne, fun _ _ h => by cases h⟩
  | c :: l, he =>
    by_cases hp : c = '.'
    · subst hp
      obtain ⟨fs, rest, rfl, hfs, hr⟩ := span isDigit l
      by_cases hfn : fs = []
      · subst hfn
        exact ⟨sg ++ ds ++ ['.'], _, _, _, rest, by simp, by simp, .point s sg ds hs hd hne, hr⟩
      · match rest, hr with
        | [], _ => exact ⟨sg ++ ds ++ '.' :: fs, _, _, _, [], by simp, by simp, .fraction s sg ds fs hs hd hne hfs hfn, fun _ _ h => by cases h⟩
        | c :: rest, hr =>
          by_cases hE : isE c = true
          · have := key ('.' :: fs) fs c rest (.some fs hfs hfn) hE
            simpa using this
          · refine ⟨sg ++ ds ++ '.' :: fs, _, _, _, c :: rest, by simp, by simp, .fraction s sg ds fs hs hd hne hfs hfn, fun _ _ h => ?_⟩
            cases h
            rw [hr c rest rfl]
            simpa using hE
    · by_cases hE : isE c = true
      · exact key [] [] c l .none hE
      · refine ⟨sg ++ ds, _, _, _, c :: l, rfl, by simp [hne], .integer s sg ds hs hd hne, fun _ _ h => ?_⟩
        cases h
        rw [he c l rfl]
        simpa [hp] using hE

theorem sign_total {s : Sign} {sg : List Char} (hs : SignText plus s sg) (hne : sg ≠ []) (l : List Char) :
    ∃ raw tok errs more rest, sg ++ l = raw ++ rest ∧ raw ≠ [] ∧ Numeral plus zero raw tok errs more ∧ Ends more rest := by
  obtain ⟨ds, rest, rfl, hds, hr⟩ := span isDigit l
  by_cases hn : ds = []
  · subst hn
    exact ⟨sg, _, _, _, rest, rfl, hne, .sign s sg hs hne, hr⟩
  · rw [← List.append_assoc]
    exact digits_total hs hds hn rest hr

theorem lex_total (plus zero : Bool) : ∀ (n : Nat) (text : List Char), text.length ≤ n → ∃ evs, Lex plus zero text evs
  | _, [], _ => ⟨[], .nil⟩
  | 0, c :: l, h => by simp at h
  | n + 1, c :: l, hn => by
    have ih := lex_total plus zero n
    rw [List.length_cons] at hn
    have num : (∃ raw tok errs more rest, c :: l = raw ++ rest ∧ raw ≠ [] ∧ Numeral plus zero raw tok errs more ∧ Ends more rest) →
        ∃ evs, Lex plus zero (c :: l) evs := by
      rintro ⟨raw, tok, errs, more, rest, he, hne, h1, h2⟩
      have hlen : 0 < raw.length := List.length_pos_iff.mpr hne
      have hlen2 : (c :: l).length = raw.length + rest.length := by rw [he, List.length_append]
      rw [List.length_cons] at hlen2
      obtain ⟨evs, hl⟩ := ih rest (by omega)
      rw [he]
      exact ⟨_, .number raw tok errs more rest evs h1 h2 hl⟩
    cases hp : punct c with
    | some t =>
      obtain ⟨evs, h⟩ := ih l (by omega)
      exact ⟨_, .punct c t l evs hp h⟩
    | none =>
    by_cases h1 : c = '"'
    · subst h1
      rcases body_total l.length l (Nat.le_refl _) with ⟨raw, chars, errs, rest, hb, hlen⟩ | ⟨errs, hc⟩
      · obtain ⟨evs, h⟩ := ih rest (by omega)
        exact ⟨_, .string l raw chars errs rest evs hb h⟩
      · exact ⟨_, .cut l errs hc⟩
    by_cases h2 : c = '='
    · subst h2
      obtain ⟨evs, h⟩ := ih l (by omega)
      exact ⟨_, .equals l evs h⟩
    by_cases h3 : c = '+'
    · subst h3
      cases hpl : plus with
      | false =>
        subst hpl
        obtain ⟨evs, h⟩ := ih l (by omega)
        exact ⟨_, .stray l evs rfl h⟩
      | true =>
        subst hpl
        exact num (sign_total (.plus rfl) (by simp) l)
    by_cases h4 : c = '-'
    · subst h4
      exact num (sign_total .minus (by simp) l)
    by_cases h5 : c = '#'
    · subst h5
      obtain ⟨w, rest, rfl, hw, hr⟩ := span (· ≠ '\n') l
      rw [List.length_append] at hn
      obtain ⟨evs, h⟩ := ih rest (by omega)
      exact ⟨_, .hash w rest evs (fun hm => by simpa using hw _ hm) hr h⟩
    by_cases h6 : c = '/'
    · subst h6
      obtain ⟨w, rest, rfl, hw, hr⟩ := span (! isBreak ·) l
      have hw' : ∀ d ∈ w, isBreak d = false := fun d hd => by simpa using hw d hd
      rw [List.length_append] at hn
      by_cases hs : w = [] ∧ ∃ r, rest = '/' :: r
      · obtain ⟨rfl, r, rfl⟩ := hs
        obtain ⟨w, rest, rfl, hw, hr⟩ := span (· ≠ '\n') r
        simp only [List.length_cons, List.length_append] at hn
        obtain ⟨evs, h⟩ := ih rest (by omega)
        exact ⟨_, .slashes w rest evs (fun hm => by simpa using hw _ hm) hr h⟩
      · obtain ⟨evs, h⟩ := ih rest (by omega)
        refine ⟨_, .slash w rest evs hw' hr (fun hn c r hc => ?_) h⟩
        cases hd : decide (c = '/') with
        | false => exact hd
        | true => exact absurd ⟨hn, r, by rw [hc, of_decide_eq_true hd]⟩ hs
    cases h7 : isWhitespace c with
    | true =>
      obtain ⟨w, rest, hl, hw, hr⟩ := span isWhitespace (c :: l)
      have hne : w ≠ [] := by
        rintro rfl
        have := hr c l (by simpa using hl.symm)
        rw [h7] at this; cases this
      have hlen : 0 < w.length := List.length_pos_iff.mpr hne
      have hlen2 : (c :: l).length = w.length + rest.length := by rw [hl, List.length_append]
      rw [List.length_cons] at hlen2
      obtain ⟨evs, h⟩ := ih rest (by omega)
      rw [hl]
      exact ⟨_, .space w rest evs hne hw hr h⟩
    | false =>
    have hb : isBreak c = false := by simp [isBreak, hp, h1, h2, h3, h4, h5, h6, h7]
    cases h8 : isDigit c with
    | true =>
      refine num ?_
      obtain ⟨ds, rest, hl, hds, hr⟩ := span isDigit (c :: l)
      have hne : ds ≠ [] := by
        rintro rfl
        have := hr c l (by simpa using hl.symm)
        rw [h8] at this; cases this
      rw [hl]
      exact digits_total .none hds hne rest hr
    | false =>
      obtain ⟨w, rest, rfl, hw, hr⟩ := span (! isBreak ·) l
      rw [List.length_append] at hn
      obtain ⟨evs, h⟩ := ih rest (by omega)
      refine ⟨_, .word c w rest evs h8 (fun d hd => ?_) hr h⟩
      rw [List.mem_cons] at hd
      rcases hd with rfl | hd
      · exact hb
      · simpa using hw d hd

/-- Every text. -/
theorem lex_exists (plus zero : Bool) (text : List Char) : ∃ evs, Lex plus zero text evs :=
  lex_total plus zero text.length text (Nat.le_refl _)

theorem lex_unique {evs' : List Ev} (h : Lex ((Tokenizer.withFlags fl).has flagPlusSign) ((Tokenizer.withFlags fl).has flagLeadingZero) text evs)
    (h' : Lex ((Tokenizer.withFlags fl).has flagPlusSign) ((Tokenizer.withFlags fl).has flagLeadingZero) text evs') : evs' = evs :=
  ran_unique (lex_ran h) (lex_ran h')

/-! ## Handlers -/

variable {ρ R : Type}

theorem all_some {H : Report ρ R} {s s' : ρ} {r : R} {e : Ev} {l : List Ev} (h : H.report s e = (s', some r)) :
    H.all s (e :: l) = (s', some r) := by unfold Report.all; rw [h]

theorem all_none {H : Report ρ R} {s s' : ρ} {e : Ev} {l : List Ev} (h : H.report s e = (s', none)) :
    H.all s (e :: l) = H.all s' l := by rw [Report.all, h]

theorem all_append (H : Report ρ R) : ∀ (a b : List Ev) (s : ρ), H.all s (a ++ b)
    = if (H.all s a).2.isSome then H.all s a else H.all (H.all s a).1 b
  | [], b, s => rfl
  | e :: a, b, s => by
    rw [List.cons_append]
    cases h : H.report s e with
    | mk s' r =>
      cases r with
      | some r => rw [all_some h, all_some h]; rfl
      | none => rw [all_none h, all_none h]; exact all_append H a b s'

theorem collect_all (a s : List Ev) : collect.all s a = (s ++ a, none) := by
  induction a generalizing s with
  | nil => simp [Report.all]
  | cons e a ih =>
    simp only [Report.all, collect]
    have := ih (s ++ [e])
    simp only [collect] at this
    rw [this]; simp

theorem outcome_some {H : Report ρ R} {s s' : ρ} {r : R} (h : H.all s evs = (s', some r)) : outcome H fl s evs = (.withFlags fl, s', .brk r) := by
  unfold outcome; rw [h]

theorem outcome_none {H : Report ρ R} {s s' : ρ} (h : H.all s evs = (s', none)) : outcome H fl s evs = (.withFlags fl, s', .cont .done) := by
  unfold outcome; rw [h]

theorem ran_parse (H : Report ρ R) {t : Tokenizer} (h : Ran t text evs) : ∀ s, t.parseStr H s text = outcome H t.flags s evs := by
  induction h with
  | done t e h =>
    intro s
    unfold Tokenizer.parseStr Tokenizer.push
    rw [h]
    cases ha : H.all s e with
    | mk s' r =>
      cases r with
      | some r => simp only [ha]; rw [outcome_some ha]; rfl
      | none => simp only [ha]; rw [outcome_none ha]; rfl
  | more t c e t' l es h hf _ ih =>
    intro s
    unfold Tokenizer.parseStr Tokenizer.push
    rw [h]
    have hap := all_append H e es s
    cases ha : H.all s e with
    | mk s' r =>
      rw [ha] at hap
      cases r with
      | some r =>
        rw [if_pos (show (some r).isSome = true from rfl)] at hap
        simp only [ha]
        rw [outcome_some hap]; rfl
      | none =>
        simp only [ha]
        rw [ih s', hf]
        unfold outcome
        rw [hap]; rfl

theorem parse_spec (H : Report ρ R) (s : ρ)
    (h : Lex ((Tokenizer.withFlags fl).has flagPlusSign) ((Tokenizer.withFlags fl).has flagLeadingZero) text evs) :
    (Tokenizer.withFlags fl).parseStr H s text = outcome H fl s evs := ran_parse H (lex_ran h) s

theorem tokens_spec (h : Lex ((Tokenizer.withFlags fl).has flagPlusSign) ((Tokenizer.withFlags fl).has flagLeadingZero) text evs) :
    tokens fl text = evs := by
  unfold tokens
  rw [parse_spec collect [] h]
  unfold outcome
  rw [collect_all]; rfl

/-! ## Pieces -/

theorem pushStr_append (H : Report ρ R) : ∀ (a b : List Char) (t : Tokenizer) (s : ρ), t.pushStr H s (a ++ b)
    = match t.pushStr H s a with
      | (t, s, .cont _) => t.pushStr H s b
      | x => x
  | [], b, t, s => rfl
  | c :: a, b, t, s => by
    simp only [List.cons_append, Tokenizer.pushStr]
    split
    · exact pushStr_append H a b _ _
    · rename_i h
      split
      · rename_i h2; exact absurd h2 (h _ _ _)
      · rfl

theorem parseStr_append (H : Report ρ R) : ∀ (a b : List Char) (t : Tokenizer) (s : ρ), t.parseStr H s (a ++ b)
    = match t.pushStr H s a with
      | (t, s, .cont _) => t.parseStr H s b
      | x => x
  | [], b, t, s => rfl
  | c :: a, b, t, s => by
    simp only [List.cons_append, Tokenizer.pushStr, Tokenizer.parseStr]
    split
    · exact parseStr_append H a b _ _
    · rename_i h
      split
      · rename_i h2; exact absurd h2 (h _ _ _)
      · rfl

end Verif.Json
