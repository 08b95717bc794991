import Verif.Json.LemmasLex
/-! # Lemmas about the JSON tokenizer: reachable states, and tokens as they are written -/
namespace Verif.Json

variable {fl : BitVec 32} {plus zero : Bool} {l text : List Char} {e es evs : List Ev} {t t' : Tokenizer} {ρ R : Type}

/-! ## Reachable states -/

/-- All texts can be fed. -/
def Live (fl : BitVec 32) (t : Tokenizer) : Prop := t.flags = fl ∧ ∀ l, ∃ evs, Ran t l evs

theorem live_new (fl : BitVec 32) : Live fl (.withFlags fl) :=
  ⟨rfl, fun l => (lex_exists _ _ l).imp fun _ h => lex_ran h⟩

theorem live_advance (h : Live fl t) : ∀ ch, ∃ e t', t.advance ch = ⟨e, some t'⟩ ∧ Live fl t' ∧ (ch = none → t' = .withFlags fl)
  | none => by
    obtain ⟨hf, hl⟩ := h
    obtain ⟨evs, hr⟩ := hl []
    cases hr with
    | done _ _ h =>
      rw [prepare_eq, hf] at h
      exact ⟨_, _, h, live_new fl, fun _ => rfl⟩
  | some c => by
    obtain ⟨hf, hl⟩ := h
    obtain ⟨evs, hr⟩ := hl [c]
    cases hr with
    | more _ _ e t' _ es h hf' _ =>
      refine ⟨e, t', h, ⟨hf'.trans hf, fun l => ?_⟩, fun h => by cases h⟩
      obtain ⟨evs, hr⟩ := hl (c :: l)
      cases hr with
      | more _ _ e2 t2 _ es2 h2 _ hr2 =>
        rw [h] at h2
        cases h2
        exact ⟨_, hr2⟩

theorem push_cases (H : Report ρ R) (s : ρ) {ch : Option Char} (h : t.advance ch = ⟨e, some t'⟩) :
    (∃ s' r, t.push H s ch = (.withFlags t.flags, s', .brk r)) ∨ ∃ s', t.push H s ch = (t', s', .cont t'.status) := by
  unfold Tokenizer.push
  rw [h]
  cases ha : H.all s e with
  | mk s' r =>
    cases r with
    | some r => exact .inl ⟨s', r, by simp only [ha]; rfl⟩
    | none => exact .inr ⟨s', by simp only [ha]⟩

theorem reachable_live (h : Reachable fl t) : Live fl t := by
  induction h with
  | new => exact live_new fl
  | push H t s ch _ ih =>
    obtain ⟨e, t', h, hl, _⟩ := live_advance ih ch
    rcases push_cases H s h with ⟨s', r, hp⟩ | ⟨s', hp⟩
    · rw [hp]; show Live fl (.withFlags t.flags); rw [ih.1]; exact live_new fl
    · rw [hp]; exact hl
  | reset t _ ih =>
    rw [prepare_eq, ih.1]; exact live_new fl

/-! ## Idle states -/

/-- Tokenizers without a token in progress hold nothing. -/
def Idle (t : Tokenizer) : Prop := t.state = .none → t = .withFlags t.flags

/-- The results of functions are idle, if they return. -/
def Idles (r : Run (Tokenizer × Option Char)) : Prop :=
  ∀ x, r.res = some x → Idle x.1 ∧ (x.2 ≠ none → x.1.state = .none)

theorem idles_panic : Idles .panic := fun _ h => by cases h
theorem idles_prepare (t : Tokenizer) (ch : Option Char) : Idles (.ret (t.prepare, ch)) := fun x h => by
  cases h; exact ⟨fun _ => rfl, fun _ => rfl⟩
theorem idles_busy {t : Tokenizer} (h : t.state ≠ .none) : Idles (.ret (t, none)) := fun x hx => by
  cases hx; exact ⟨fun h' => absurd h' h, fun h => absurd rfl h⟩
theorem idles_say {r : Run (Tokenizer × Option Char)} (ev : Ev) (h : Idles r) : Idles (.say ev r) := h
theorem idles_digit (t : Tokenizer) (c : Char) (s : State) (h : s ≠ .none) : Idles (t.digit c s) := by
  unfold Tokenizer.digit Tokenizer.num
  split
  · split
    · exact idles_busy h
    · exact idles_panic
  · exact idles_panic
theorem idles_number (t : Tokenizer) (s : Sign) (n m : Nat) (e : Sign) {r : Run (Tokenizer × Option Char)} (h : Idles r) :
    Idles (t.number s n m e r) := by
  unfold Tokenizer.number
  split
  · exact idles_say _ h
  · exact idles_panic
theorem idles_end (t : Tokenizer) (s : Sign) (n m : Nat) (e : Sign) (ch : Option Char) : Idles (t.endNumber s n m e ch) :=
  idles_number _ _ _ _ _ (idles_prepare _ _)
theorem idles_incomplete (t : Tokenizer) (s : Sign) (n m : Nat) (e : Sign) (ch : Option Char) : Idles (t.endIncomplete s n m e ch) :=
  idles_say _ (idles_number _ _ _ _ _ (idles_prepare _ _))
theorem idles_keyword (t : Tokenizer) (ch : Option Char) (h : t.state ≠ .none) : Idles (t.advanceKeyword ch) := by
  unfold Tokenizer.advanceKeyword
  split
  · split
    · exact idles_say _ (idles_prepare _ _)
    · split
      · exact idles_say _ (idles_prepare _ _)
      · split
        · exact idles_say _ (idles_prepare _ _)
        · exact idles_busy h
  · exact idles_say _ (idles_prepare _ _)

theorem idles_misc (t : Tokenizer) (ch : Option Char) : Idles (t.advanceMisc ch) := by
  unfold Tokenizer.advanceMisc
  split
  · split
    · split
      · exact idles_busy (by simp)
      · exact idles_keyword _ _ (by simp)
    · exact idles_say _ (idles_prepare _ _)
  · rename_i h; exact idles_keyword _ _ (by rw [h]; simp)
  · rename_i h
    split
    · split
      · exact idles_busy (by rw [show (t.raw _).state = t.state from rfl, h]; simp)
      · split
        · exact idles_say _ (idles_busy (by rw [h]; simp))
        · exact idles_say _ (idles_prepare _ _)
    · exact idles_say _ (idles_prepare _ _)
  · rename_i h
    split
    · split
      · exact idles_say _ (idles_prepare _ _)
      · exact idles_busy (by rw [show (t.raw _).state = t.state from rfl, h]; simp)
    · exact idles_say _ (idles_prepare _ _)
  · exact idles_panic

theorem idles_num (t : Tokenizer) (ch : Option Char) : Idles (t.advanceNumber ch) := by
  unfold Tokenizer.advanceNumber
  split <;> (try exact idles_panic) <;> split <;>
    first
    | exact idles_end _ _ _ _ _ _
    | exact idles_incomplete _ _ _ _ _ _
    | (repeat' split) <;>
      first
      | exact idles_end _ _ _ _ _ _
      | exact idles_incomplete _ _ _ _ _ _
      | exact idles_digit _ _ _ (by (try split) <;> simp)
      | exact idles_say _ (idles_digit _ _ _ (by simp))
      | exact idles_busy (by simp)

theorem idles_char (t : Tokenizer) (v : Char) : Idles (t.advanceChar v) := by
  unfold Tokenizer.advanceChar
  split
  · exact idles_panic
  · rename_i h
    have h : t.state = .string := Classical.not_not.mp h
    split
    · exact idles_say _ (idles_prepare _ _)
    · split
      · exact idles_busy (by simp)
      · split
        · exact idles_say _ (idles_busy (by show t.state ≠ _; rw [h]; simp))
        · exact idles_busy (by show t.state ≠ _; rw [h]; simp)

theorem idles_string (t : Tokenizer) (ch : Option Char) : Idles (t.advanceString ch) := by
  unfold Tokenizer.advanceString
  split
  · exact idles_say _ (idles_prepare _ _)
  · split
    · (repeat' split) <;> first | exact idles_busy (by simp) | exact idles_say _ (idles_busy (by simp))
    · split
      · unfold Tokenizer.advanceUnicode
        (repeat' (first | split | simp only)) <;>
          first | exact idles_panic | exact idles_busy (by simp) | exact idles_say _ (idles_busy (by simp))
      · exact idles_say _ (idles_char _ _)
    · split
      · exact idles_busy (by simp)
      · exact idles_say _ (idles_char _ _)
    · (repeat' split) <;>
        first
        | exact idles_busy (by simp)
        | exact idles_say _ (idles_busy (by simp))
        | exact idles_say _ (idles_say _ (idles_busy (by simp)))
    · split
      · unfold Tokenizer.advanceTrail
        (repeat' (first | split | simp only)) <;>
          first | exact idles_panic | exact idles_busy (by simp) | exact idles_say _ (idles_busy (by simp))
      · exact idles_say _ (idles_char _ _)
    · exact idles_char _ _

theorem idles_ite {c : Prop} [Decidable c] {a b : Run (Tokenizer × Option Char)} (ha : Idles a) (hb : Idles b) :
    Idles (if c then a else b) := by
  split
  · exact ha
  · exact hb

theorem idles_start (t : Tokenizer) (v : Char) (h : t = .withFlags t.flags) : Idles (t.start v) := by
  have hr : Idles (.ret (t, none)) := fun x hx => by
    cases hx; exact ⟨fun _ => h, fun h => absurd rfl h⟩
  unfold Tokenizer.start
  repeat'
    first
    | exact idles_say _ hr
    | exact idles_say _ (idles_say _ hr)
    | exact idles_busy (by simp)
    | exact idles_say _ (idles_busy (by simp))
    | (refine idles_digit _ _ _ ?_; split <;> simp; done)
    | apply idles_ite

theorem idles_handle (t : Tokenizer) (ch : Option Char) (h : Idle t) : Idles (t.handle ch) := by
  unfold Tokenizer.handle
  split
  · rename_i hs
    intro x hx; cases hx
    exact ⟨h, fun _ => hs⟩
  all_goals first | exact idles_misc _ _ | exact idles_num _ _ | exact idles_string _ _

theorem idle_advance {ch : Option Char} (h : Idle t) (ha : t.advance ch = ⟨e, some t'⟩) : Idle t' := by
  have hh := idles_handle t ch h
  unfold Tokenizer.advance at ha
  simp only at ha
  cases hr : (t.handle ch).res with
  | none => rw [hr] at ha; cases ha
  | some x =>
    obtain ⟨h1, h2⟩ := hh x hr
    obtain ⟨t1, c⟩ := x
    rw [hr] at ha
    cases c with
    | none => cases ha; exact h1
    | some v =>
      have hs := idles_start t1 v (h1 (h2 (by simp)))
      simp only [Run.mk.injEq] at ha
      cases hq : (t1.start v).res with
      | none => rw [hq] at ha; cases ha.2
      | some y =>
        rw [hq] at ha
        have := (hs y hq).1
        cases ha.2
        exact this

theorem reachable_idle (h : Reachable fl t) : Idle t := by
  induction h with
  | new => exact fun _ => rfl
  | push H t s ch hr ih =>
    obtain ⟨e, t', h, _, _⟩ := live_advance (reachable_live hr) ch
    rcases push_cases H s h with ⟨s', r, hp⟩ | ⟨s', hp⟩
    · rw [hp]; exact fun _ => rfl
    · rw [hp]; exact idle_advance ih h
  | reset t _ ih => exact fun _ => rfl

/-! ## Texts without errors -/

theorem tok_inj {k : Token} : ∀ {toks : List Token} {evs : List Ev}, Ev.tok k :: evs = toks.map .tok → ∃ ts, toks = k :: ts ∧ evs = ts.map .tok
  | [], _, h => by cases h
  | a :: ts, _, h => by
    simp only [List.map_cons, List.cons.injEq, Ev.tok.injEq] at h
    exact ⟨ts, by rw [h.1], h.2⟩

theorem err_absurd {x : Err} {evs : List Ev} {toks : List Token} : Ev.err x :: evs ≠ toks.map .tok := by
  cases toks <;> simp

theorem errs_nil {errs : List Err} {evs : List Ev} {toks : List Token} (h : errs.map .err ++ evs = toks.map .tok) : errs = [] := by
  cases errs with
  | nil => rfl
  | cons a b => exact absurd h err_absurd

theorem strays_nil {w : List Char} {evs : List Ev} {toks : List Token} (h : strays w ++ evs = toks.map .tok) : ∀ c ∈ w, isSpace c = true := by
  have : strays w = [] := by
    cases hs : strays w with
    | nil => rfl
    | cons a b =>
      rw [hs] at h
      have hm : a ∈ strays w := by rw [hs]; simp
      simp only [strays, List.mem_map] at hm
      obtain ⟨c, _, rfl⟩ := hm
      exact absurd h err_absurd
  simpa [strays] using this

theorem strays_spaces {w : List Char} (h : ∀ c ∈ w, isSpace c = true) : strays w = [] ∧ w.filter isSpace = w := by
  constructor
  · simpa [strays] using h
  · rw [List.filter_eq_self]; exact h

theorem numeral_source {raw : List Char} {k : Token} {errs : List Err} {more : Char → Bool} (h : Numeral plus zero raw k errs more) :
    source k = raw := by
  cases h <;> rfl

theorem body_text {text raw chars rest : List Char} {errs : List Err} (h : Body text raw chars errs rest) : text = raw ++ '"' :: rest := by
  induction h with
  | close rest => rfl
  | item raw text chars errs raws charss errss rest _ _ ih => rw [ih, List.append_assoc]

theorem word_source {w : List Char} {k : Token} (h : word w = .tok k) : source k = w := by
  unfold word at h
  split at h
  · rename_i hw; cases h; exact hw.symm
  · split at h
    · rename_i hw; cases h; exact hw.symm
    · split at h
      · rename_i hw; cases h; exact hw.symm
      · cases h

theorem lex_source (h : Lex plus zero text evs) : ∀ toks : List Token, evs = toks.map .tok → toks.flatMap source = text := by
  induction h with
  | nil => intro toks h; cases toks with
    | nil => rfl
    | cons a b => cases h
  | punct c k l evs h _ ih =>
    intro toks he
    obtain ⟨ts, rfl, h2⟩ := tok_inj he
    rw [List.flatMap_cons, ih ts h2]
    unfold punct at h
    split at h <;> cases h <;> rfl
  | equals l evs _ ih => intro toks he; exact absurd he err_absurd
  | stray l evs _ _ ih => intro toks he; exact absurd he err_absurd
  | space w l evs h1 h2 h3 _ ih =>
    intro toks he
    obtain ⟨s1, s2⟩ := strays_spaces (strays_nil he)
    rw [s1, s2] at he
    obtain ⟨ts, rfl, h2⟩ := tok_inj he
    rw [List.flatMap_cons, ih ts h2]; rfl
  | word c w l evs h1 h2 h3 _ ih =>
    intro toks he
    cases hw : word (c :: w) with
    | err x => rw [hw] at he; exact absurd he err_absurd
    | tok k =>
      rw [hw] at he
      obtain ⟨ts, rfl, h2⟩ := tok_inj he
      rw [List.flatMap_cons, ih ts h2, word_source hw]
  | slash w l evs h1 h2 h3 _ ih => intro toks he; exact absurd he err_absurd
  | hash w l evs h1 h2 _ ih => intro toks he; exact absurd he err_absurd
  | slashes w l evs h1 h2 _ ih => intro toks he; exact absurd he err_absurd
  | number raw k errs more l evs h1 h2 _ ih =>
    intro toks he
    have := errs_nil he
    subst this
    obtain ⟨ts, rfl, h2⟩ := tok_inj he
    rw [List.flatMap_cons, ih ts h2, numeral_source h1]
  | string text raw chars errs l evs h1 _ ih =>
    intro toks he
    have := errs_nil he
    subst this
    obtain ⟨ts, rfl, h2⟩ := tok_inj he
    rw [List.flatMap_cons, ih ts h2, body_text h1]
    simp [source]
  | cut text errs h =>
    intro toks he
    have := errs_nil he
    subst this
    exact absurd he err_absurd

theorem lex_nil (h : Lex plus zero text []) : text = [] := by
  simpa using (lex_source h [] rfl).symm

/-! ## Numbers -/

theorem zero_nil {ds : List Char} (hd : Digits ds) (hn : ds ≠ []) : leadingZero zero ds = [] ↔ IntText zero ds := by
  constructor
  · intro h
    cases hz : zero with
    | true => exact .leading ds rfl hd hn
    | false =>
      subst hz
      match ds, hn with
      | [c], _ =>
        by_cases hc : c = '0'
        · subst hc; exact .zero
        · exact .digits c [] hc hd
      | c :: d :: ds, _ =>
        by_cases hc : c = '0'
        · subst hc; simp [leadingZero] at h
        · exact .digits c _ hc hd
  · intro h
    cases h with
    | zero => rfl
    | digits c ds hc _ =>
      unfold leadingZero
      split
      · rename_i h; simp only [List.cons.injEq] at h; exact absurd h.1 hc
      · rfl
    | leading ds hz _ _ =>
      subst hz
      unfold leadingZero
      split <;> rfl

theorem int_digits {ds : List Char} (h : IntText zero ds) : Digits ds ∧ ds ≠ [] := by
  cases h with
  | zero => exact ⟨fun c hc => by simp at hc; subst hc; rfl, by simp⟩
  | digits c ds _ h => exact ⟨h, by simp⟩
  | leading ds _ h1 h2 => exact ⟨h1, h2⟩

theorem frac_digits {ft fs : List Char} (h : FracText ft fs) : Digits fs := by
  cases h with
  | none => exact fun _ h => by cases h
  | some _ h _ => exact h

/-- Numbers without errors are JSON numbers. -/
theorem numeral_json {raw : List Char} {k : Token} {more : Char → Bool} (h : Numeral plus zero raw k [] more) :
    ∃ i f x s e, k = .number raw i f x s e ∧ JsonNumber plus zero raw i f x s e := by
  generalize hz : ([] : List Err) = errs at h
  cases h with
  | sign s sg _ _ => cases hz
  | integer s sg ds hs hd hn =>
    exact ⟨_, _, _, _, _, rfl, sg, ds, [], [], [], [], by simp, hs, (zero_nil hd hn).mp hz.symm, .none, .none, rfl, rfl, rfl⟩
  | point s sg ds _ _ _ => simp at hz
  | fraction s sg ds fs hs hd hn hf hfn =>
    exact ⟨_, _, _, _, _, rfl, sg, ds, _, fs, [], [], by simp, hs, (zero_nil hd hn).mp hz.symm, .some fs hf hfn, .none, rfl, rfl, rfl⟩
  | exponent => simp at hz
  | exponentSign => simp at hz
  | full s sg ds ft fs e es et xs hs hd hn hf he hes hx hxn =>
    exact ⟨_, _, _, _, _, rfl, sg, ds, ft, fs, _, xs, by simp, hs, (zero_nil hd hn).mp hz.symm, hf, .some e es et xs he hes hx hxn, rfl, rfl, rfl⟩

/-- What may follow a number. -/
def cont (c : Char) : Bool := isDigit c || c = '.' || isE c || c = '+' || c = '-'

/-- JSON numbers are numbers without errors. -/
theorem json_numeral {raw : List Char} {i f x : List UInt8} {s e : Sign} (h : JsonNumber plus zero raw i f x s e) :
    ∃ more, Numeral plus zero raw (.number raw i f x s e) [] more ∧ ∀ c, cont c = false → more c = false := by
  obtain ⟨sg, ds, ft, fs, xt, xs, rfl, hs, hi, hf, hx, rfl, rfl, rfl⟩ := h
  obtain ⟨hd, hn⟩ := int_digits hi
  have hz := (zero_nil hd hn).mpr hi
  have hcont : ∀ c, cont c = false → isDigit c = false ∧ c ≠ '.' ∧ isE c = false ∧ c ≠ '+' ∧ c ≠ '-' := by
    intro c hc
    simp only [cont, Bool.or_eq_false_iff, decide_eq_false_iff_not] at hc
    obtain ⟨⟨⟨⟨h1, h2⟩, h3⟩, h4⟩, h5⟩ := hc
    exact ⟨h1, h2, h3, h4, h5⟩
  cases hx with
  | none =>
    cases hf with
    | none =>
      have := Numeral.integer (plus := plus) (zero := zero) s sg ds hs hd hn
      rw [hz] at this
      refine ⟨_, by simpa using this, fun c hc => ?_⟩
      obtain ⟨h1, h2, h3, _⟩ := hcont c hc
      simp [h1, h2, h3]
    | some fs hf hfn =>
      have := Numeral.fraction (plus := plus) (zero := zero) s sg ds fs hs hd hn hf hfn
      rw [hz] at this
      refine ⟨_, by simpa using this, fun c hc => ?_⟩
      obtain ⟨h1, h2, h3, _⟩ := hcont c hc
      simp [h1, h3]
  | some c es et xs hc hes hxs hxn =>
    have := Numeral.full (plus := plus) (zero := zero) s sg ds ft fs c e et xs hs hd hn hf hc hes hxs hxn
    rw [hz] at this
    refine ⟨_, by simpa using this, fun c hc => (hcont c hc).1⟩

/-! ## Strings -/

theorem item_char {c : Char} {raw next : List Char} (h : CharText c raw) : Item raw next [c] [] := by
  cases h with
  | plain h1 h2 h3 => exact .plain c next h1 h2 h3
  | escape x h => exact .escape x c next h
  | unicode h h1 h2 => exact .unicode h c next h1 h2.symm
  | pair h k h1 h2 h3 h4 h5 => exact .pair h k c next h1 h2 h3 h4 h5

theorem char_item {raw next chars : List Char} (h : Item raw next chars []) : ∃ c, chars = [c] ∧ CharText c raw := by
  generalize hz : ([] : List Err) = errs at h
  cases h with
  | plain c _ h1 h2 h3 => exact ⟨c, rfl, .plain h1 h2 h3⟩
  | escape x c _ h => exact ⟨c, rfl, .escape x h⟩
  | unicode h c _ h1 h2 => exact ⟨c, rfl, .unicode h h1 h2.symm⟩
  | pair h k c _ h1 h2 h3 h4 h5 => exact ⟨c, rfl, .pair h k h1 h2 h3 h4 h5⟩
  | _ => cases hz

theorem text_body {s raw : List Char} (h : StringText s raw) (rest : List Char) : Body (raw ++ '"' :: rest) raw s [] rest := by
  induction h with
  | nil => exact .close rest
  | cons c s raw raws hc _ ih =>
    rw [List.append_assoc]
    exact .item raw _ [c] [] raws s [] rest (item_char hc) ih

theorem body_string {text raw s rest : List Char} {errs : List Err} (h : Body text raw s errs rest) : errs = [] → StringText s raw := by
  induction h with
  | close rest => exact fun _ => .nil
  | item raw text chars errs raws charss errss rest hi _ ih =>
    intro he
    rw [List.append_eq_nil_iff] at he
    obtain ⟨rfl, h2⟩ := he
    obtain ⟨c, rfl, hc⟩ := char_item hi
    exact .cons c charss raw raws hc (ih h2)

/-! ## Written tokens -/

theorem source_head {k : Token} (hw : Written plus zero k) : ∃ c l, source k = c :: l ∧
    (isWordy k = false → cont c = false ∧ isBreak c = true) ∧ (isBlank k = false → isWhitespace c = false) := by
  cases k with
  | whitespace w =>
    obtain ⟨h1, h2⟩ := hw
    match w, h1 with
    | c :: w, _ =>
      have hs := h2 c (by simp)
      refine ⟨c, w, rfl, fun _ => ?_, fun h => by cases h⟩
      have hb : isBreak c = true := by simp [isBreak, space_white hs]
      simp only [isSpace, Bool.or_eq_true, decide_eq_true_eq] at hs
      rcases hs with ((rfl | rfl) | rfl) | rfl <;> exact ⟨rfl, rfl⟩
  | number raw i f x s e =>
    obtain ⟨sg, ds, ft, fs, xt, xs, rfl, hs, hi, hf, hx, rfl, rfl, rfl⟩ := hw
    obtain ⟨hd, hn⟩ := int_digits hi
    match ds, hn, hd with
    | d :: ds, _, hd =>
      have hdig := digit_cases (hd d (by simp))
      have hwd : isWhitespace d = false := by
        simp only [isWhitespace]
        simp only [Bool.or_eq_false_iff, decide_eq_false_iff_not, beq_eq_false_iff_ne]
        omega
      cases hs with
      | none => exact ⟨d, _, (by simp [source]; rfl), fun h => (by cases h), fun _ => hwd⟩
      | minus => exact ⟨'-', _, (by simp [source]; rfl), fun h => (by cases h), fun _ => rfl⟩
      | plus _ => exact ⟨'+', _, (by simp [source]; rfl), fun h => (by cases h), fun _ => rfl⟩
  | string raw s => exact ⟨'"', _, rfl, fun _ => ⟨rfl, rfl⟩, fun _ => rfl⟩
  | null => exact ⟨'n', _, rfl, fun h => (by cases h), fun _ => rfl⟩
  | true => exact ⟨'t', _, rfl, fun h => (by cases h), fun _ => rfl⟩
  | false => exact ⟨'f', _, rfl, fun h => (by cases h), fun _ => rfl⟩
  | colon => exact ⟨':', _, rfl, fun _ => ⟨rfl, rfl⟩, fun _ => rfl⟩
  | comma => exact ⟨',', _, rfl, fun _ => ⟨rfl, rfl⟩, fun _ => rfl⟩
  | arrayOpen => exact ⟨'[', _, rfl, fun _ => ⟨rfl, rfl⟩, fun _ => rfl⟩
  | arrayClose => exact ⟨']', _, rfl, fun _ => ⟨rfl, rfl⟩, fun _ => rfl⟩
  | objectOpen => exact ⟨'{', _, rfl, fun _ => ⟨rfl, rfl⟩, fun _ => rfl⟩
  | objectClose => exact ⟨'}', _, rfl, fun _ => ⟨rfl, rfl⟩, fun _ => rfl⟩

/-- The rest of the text does not continue a token. -/
theorem ends_written {k : Token} {toks : List Token} (hsep : Separate (k :: toks)) (hw : ∀ k ∈ toks, Written plus zero k) :
    (isWordy k = true → Ends cont (toks.flatMap source) ∧ Ends (! isBreak ·) (toks.flatMap source)) ∧
    (isBlank k = true → Ends isWhitespace (toks.flatMap source)) := by
  cases toks with
  | nil => exact ⟨fun _ => ⟨fun _ _ h => (by cases h), fun _ _ h => (by cases h)⟩, fun _ _ _ h => (by cases h)⟩
  | cons b ts =>
    obtain ⟨h1, h2, _⟩ := hsep
    obtain ⟨c, l, hs, hx, hy⟩ := source_head (hw b (by simp))
    rw [List.flatMap_cons, hs]
    refine ⟨fun hk => ?_, fun hk d l' h => ?_⟩
    · have hb : isWordy b = false := by
        cases h : isWordy b with
        | false => rfl
        | true => exact absurd ⟨hk, h⟩ h1
      obtain ⟨x1, x2⟩ := hx hb
      refine ⟨fun d l' h => ?_, fun d l' h => ?_⟩
      · rw [List.cons_append, List.cons.injEq] at h; rw [← h.1]; exact x1
      · rw [List.cons_append, List.cons.injEq] at h; rw [← h.1]; simp [x2]
    · have hb : isBlank b = false := by
        cases h : isBlank b with
        | false => rfl
        | true => exact absurd ⟨hk, h⟩ h2
      rw [List.cons_append, List.cons.injEq] at h; rw [← h.1]; exact hy hb

theorem separate_tail {k : Token} {toks : List Token} (h : Separate (k :: toks)) : Separate toks := by
  cases toks with
  | nil => trivial
  | cons b ts => exact h.2.2

theorem written_lex : ∀ toks : List Token, (∀ k ∈ toks, Written plus zero k) → Separate toks →
    Lex plus zero (toks.flatMap source) (toks.map .tok)
  | [], _, _ => .nil
  | k :: toks, hw, hs => by
    have ih := written_lex toks (fun b hb => hw b (by simp [hb])) (separate_tail hs)
    obtain ⟨e1, e2⟩ := ends_written hs (fun b hb => hw b (by simp [hb]))
    have hk := hw k (by simp)
    rw [List.flatMap_cons, List.map_cons]
    cases k with
    | whitespace w =>
      obtain ⟨h1, h2⟩ := hk
      have := Lex.space w _ _ h1 (fun c hc => space_white (h2 c hc)) (e2 rfl) ih
      obtain ⟨s1, s2⟩ := strays_spaces h2
      rw [s1, s2] at this
      exact this
    | number raw i f x s e =>
      obtain ⟨more, h1, h2⟩ := json_numeral hk
      exact .number raw _ [] more _ _ h1 (fun c l h => h2 c ((e1 rfl).1 c l h)) ih
    | string raw s =>
      have := Lex.string (plus := plus) (zero := zero) _ raw s [] _ _ (text_body hk (toks.flatMap source)) ih
      simpa [source] using this
    | null => exact .word 'n' "ull".toList _ _ rfl (by decide) (e1 rfl).2 ih
    | true => exact .word 't' "rue".toList _ _ rfl (by decide) (e1 rfl).2 ih
    | false => exact .word 'f' "alse".toList _ _ rfl (by decide) (e1 rfl).2 ih
    | colon => exact .punct _ _ _ _ rfl ih
    | comma => exact .punct _ _ _ _ rfl ih
    | arrayOpen => exact .punct _ _ _ _ rfl ih
    | arrayClose => exact .punct _ _ _ _ rfl ih
    | objectOpen => exact .punct _ _ _ _ rfl ih
    | objectClose => exact .punct _ _ _ _ rfl ih

/-- Tokens of texts without errors are written correctly. -/
theorem lex_written (h : Lex plus zero text evs) : ∀ toks : List Token, evs = toks.map .tok → ∀ k ∈ toks, Written plus zero k := by
  have step : ∀ {k : Token} {toks : List Token} {evs : List Ev}, Ev.tok k :: evs = toks.map .tok → Written plus zero k →
      (∀ ts : List Token, evs = ts.map .tok → ∀ k ∈ ts, Written plus zero k) → ∀ k ∈ toks, Written plus zero k := by
    intro k toks evs he hk ih b hb
    obtain ⟨ts, rfl, h2⟩ := tok_inj he
    rw [List.mem_cons] at hb
    rcases hb with rfl | hb
    · exact hk
    · exact ih ts h2 b hb
  induction h with
  | nil => intro toks h k hk; cases toks with
    | nil => cases hk
    | cons a b => cases h
  | punct c k l evs h _ ih =>
    intro toks he
    refine step he ?_ ih
    unfold punct at h
    split at h <;> cases h <;> trivial
  | equals l evs _ ih => intro toks he; exact absurd he err_absurd
  | stray l evs _ _ ih => intro toks he; exact absurd he err_absurd
  | space w l evs h1 h2 h3 _ ih =>
    intro toks he
    have hsp := strays_nil he
    obtain ⟨s1, s2⟩ := strays_spaces hsp
    rw [s1, s2] at he
    exact step he ⟨h1, hsp⟩ ih
  | word c w l evs h1 h2 h3 _ ih =>
    intro toks he
    cases hw : word (c :: w) with
    | err x => rw [hw] at he; exact absurd he err_absurd
    | tok k =>
      rw [hw] at he
      refine step he ?_ ih
      unfold word at hw
      split at hw
      · cases hw; trivial
      · split at hw
        · cases hw; trivial
        · split at hw
          · cases hw; trivial
          · cases hw
  | slash w l evs h1 h2 h3 _ ih => intro toks he; exact absurd he err_absurd
  | hash w l evs h1 h2 _ ih => intro toks he; exact absurd he err_absurd
  | slashes w l evs h1 h2 _ ih => intro toks he; exact absurd he err_absurd
  | number raw k errs more l evs h1 h2 _ ih =>
    intro toks he
    have := errs_nil he
    subst this
    refine step he ?_ ih
    obtain ⟨i, f, x, s, e, rfl, hj⟩ := numeral_json h1
    exact hj
  | string text raw chars errs l evs h1 _ ih =>
    intro toks he
    have := errs_nil he
    subst this
    exact step he (body_string h1 rfl) ih
  | cut text errs h =>
    intro toks he
    have := errs_nil he
    subst this
    exact absurd he err_absurd

/-! ## Flags -/

theorem sign_mono {s : Sign} {sg : List Char} (h : SignText false s sg) : SignText plus s sg := by
  cases h with
  | none => exact .none
  | minus => exact .minus
  | plus h => cases h

theorem zero_mono {ds : List Char} (h : leadingZero false ds = []) : leadingZero zero ds = [] := by
  unfold leadingZero at h ⊢
  split
  · simp at h
  · rfl

theorem numeral_mono {raw : List Char} {k : Token} {more : Char → Bool} (h : Numeral false false raw k [] more) : Numeral plus zero raw k [] more := by
  generalize hz : ([] : List Err) = errs at h
  cases h with
  | sign s sg _ _ => cases hz
  | integer s sg ds hs hd hn =>
    rw [← hz, ← zero_mono (zero := zero) hz.symm]; exact .integer s sg ds (sign_mono hs) hd hn
  | point s sg ds _ _ _ => simp at hz
  | fraction s sg ds fs hs hd hn hf hfn =>
    rw [← hz, ← zero_mono (zero := zero) hz.symm]; exact .fraction s sg ds fs (sign_mono hs) hd hn hf hfn
  | exponent => simp at hz
  | exponentSign => simp at hz
  | full s sg ds ft fs e es et xs hs hd hn hf he hes hx hxn =>
    rw [← hz, ← zero_mono (zero := zero) hz.symm]; exact .full s sg ds ft fs e es et xs (sign_mono hs) hd hn hf he hes hx hxn

theorem lex_mono (h : Lex false false text evs) : ∀ toks : List Token, evs = toks.map .tok → Lex plus zero text evs := by
  induction h with
  | nil => intro _ _; exact .nil
  | punct c k l evs h _ ih =>
    intro toks he
    obtain ⟨ts, rfl, h2⟩ := tok_inj he
    exact .punct c k l evs h (ih ts h2)
  | equals l evs _ ih => intro toks he; exact absurd he err_absurd
  | stray l evs _ _ ih => intro toks he; exact absurd he err_absurd
  | space w l evs h1 h2 h3 _ ih =>
    intro toks he
    obtain ⟨s1, s2⟩ := strays_spaces (strays_nil he)
    rw [s1] at he
    obtain ⟨ts, rfl, hq⟩ := tok_inj he
    exact .space w l evs h1 h2 h3 (ih ts hq)
  | word c w l evs h1 h2 h3 _ ih =>
    intro toks he
    cases hw : word (c :: w) with
    | err x => rw [hw] at he; exact absurd he err_absurd
    | tok k =>
      rw [hw] at he
      obtain ⟨ts, rfl, hq⟩ := tok_inj he
      rw [← hw]
      exact .word c w l evs h1 h2 h3 (ih ts hq)
  | slash w l evs h1 h2 h3 _ ih => intro toks he; exact absurd he err_absurd
  | hash w l evs h1 h2 _ ih => intro toks he; exact absurd he err_absurd
  | slashes w l evs h1 h2 _ ih => intro toks he; exact absurd he err_absurd
  | number raw k errs more l evs h1 h2 _ ih =>
    intro toks he
    have := errs_nil he
    subst this
    obtain ⟨ts, rfl, hq⟩ := tok_inj he
    exact .number raw k [] more l evs (numeral_mono h1) h2 (ih ts hq)
  | string text raw chars errs l evs h1 _ ih =>
    intro toks he
    have := errs_nil he
    subst this
    obtain ⟨ts, rfl, hq⟩ := tok_inj he
    exact .string text raw chars [] l evs h1 (ih ts hq)
  | cut text errs h =>
    intro toks he
    have := errs_nil he
    subst this
    exact absurd he err_absurd

/-! ## Pieces -/

theorem pushAll_eq (H : Report ρ R) : ∀ (ps : List (List Char)) (t : Tokenizer) (s : ρ), pushAll H t s ps = t.pushStr H s ps.flatten
  | [], t, s => rfl
  | p :: ps, t, s => by
    rw [List.flatten_cons, pushStr_append]
    unfold pushAll
    split
    · rename_i h; rw [h]; exact pushAll_eq H ps _ _
    · rename_i h
      split
      · rename_i h2; exact absurd h2 (h _ _ _)
      · rfl

theorem parseStr_end (H : Report ρ R) (l : List Char) (t : Tokenizer) (s : ρ) : t.parseStr H s l
    = match t.pushStr H s l with
      | (t, s, .cont _) => pushEnd H t s
      | x => x := by
  have := parseStr_append H l [] t s
  rw [List.append_nil] at this
  exact this

end Verif.Json
