import Verif.Json.SpecAgree
import Verif.Json.PropsBytes
import Verif.Json.PropsAlphabet
import Verif.Json.PropsWrite
namespace Verif.Json.Agree
open Verif.Json.Bytes (Lexeme Tail Space Digit SignByte Point Exp InWord StartsWord Hex Hex4 Spells SpellsAll)

theorem bytesOf_append (a b : List Char) : bytesOf (a ++ b) = bytesOf a ++ bytesOf b := List.flatMap_append
theorem bytesOf_cons (c : Char) (l : List Char) : bytesOf (c :: l) = String.utf8EncodeChar c ++ bytesOf l := List.flatMap_cons
theorem bytesOf_nil : bytesOf [] = [] := rfl

/-! ## Digits -/

theorem digit_facts : ∀ c ∈ ['0', '1', '2', '3', '4', '5', '6', '7', '8', '9'],
    String.utf8EncodeChar c = [digitVal c + 0x30] ∧ Digit (digitVal c + 0x30) := by decide +kernel

theorem digits_bytes {ds : List Char} (h : Digits ds) : bytesOf ds = digitBytes (ds.map digitVal) ∧ ∀ b ∈ digitBytes (ds.map digitVal), Digit b := by
  induction ds with
  | nil => exact ⟨rfl, fun b hb => by cases hb⟩
  | cons c ds ih =>
    obtain ⟨h1, h2⟩ := ih (fun d hd => h d (List.mem_cons_of_mem _ hd))
    obtain ⟨h3, h4⟩ := digit_facts c ((digit_iff c).mp (h c List.mem_cons_self))
    constructor
    · rw [bytesOf_cons, h3, h1]; rfl
    · intro b hb
      have hb : b ∈ (digitVal c + 0x30) :: digitBytes (ds.map digitVal) := hb
      rcases List.mem_cons.mp hb with rfl | hb
      · exact h4
      · exact h2 b hb

theorem digitBytes_ne {ds : List UInt8} (h : ds ≠ []) : digitBytes ds ≠ [] := by
  intro e; exact h (List.map_eq_nil_iff.mp e)

theorem hex_facts : ∀ c ∈ ['0', '1', '2', '3', '4', '5', '6', '7', '8', '9'] ++ ['a', 'b', 'c', 'd', 'e', 'f'] ++ ['A', 'B', 'C', 'D', 'E', 'F'],
    String.utf8EncodeChar c = [c.toNat.toUInt8] ∧ Hex c.toNat.toUInt8 ∧ Bytes.hexValue c.toNat.toUInt8 = hexDigit c := by decide +kernel

theorem hex_fact {c : Char} (h : isHex c = true) :
    String.utf8EncodeChar c = [c.toNat.toUInt8] ∧ Hex c.toNat.toUInt8 ∧ Bytes.hexValue c.toNat.toUInt8 = hexDigit c := by
  refine hex_facts c ?_
  rcases (hex_iff c).mp h with h | h | h
  · exact List.mem_append_left _ (List.mem_append_left _ h)
  · exact List.mem_append_left _ (List.mem_append_right _ h)
  · exact List.mem_append_right _ h

theorem hexs_bytes {n : Nat} {h : List Char} (hh : Hexs n h) :
    (bytesOf h).length = n ∧ (∀ b ∈ bytesOf h, Hex b) ∧ Bytes.value (bytesOf h) = hexVal h := by
  have key : ∀ (l : List Char), (∀ c ∈ l, isHex c = true) → (bytesOf l).length = l.length ∧ (∀ b ∈ bytesOf l, Hex b) ∧
      ∀ a, (bytesOf l).foldl (fun n b => 16 * n + Bytes.hexValue b) a = l.foldl (fun n c => 16 * n + hexDigit c) a := by
    intro l
    induction l with
    | nil => intro _; exact ⟨rfl, fun b hb => (by cases hb), fun _ => rfl⟩
    | cons c l ih =>
      intro hl
      obtain ⟨h1, h2, h3⟩ := ih (fun d hd => hl d (List.mem_cons_of_mem _ hd))
      obtain ⟨g1, g2, g3⟩ := hex_fact (hl c List.mem_cons_self)
      rw [bytesOf_cons, g1]
      refine ⟨by simp [h1], fun b hb => ?_, fun a => ?_⟩
      · rcases List.mem_cons.mp hb with rfl | hb
        · exact g2
        · exact h2 b hb
      · show List.foldl _ (16 * a + Bytes.hexValue _) (bytesOf l) = List.foldl _ (16 * a + hexDigit c) l
        rw [g3, h3]
  obtain ⟨h1, h2, h3⟩ := key h hh.2
  exact ⟨by rw [h1, hh.1], h2, h3 0⟩

/-! ## Strings -/

theorem escape_facts {x c : Char} (h : escape x = some c) :
    ∃ b v, String.utf8EncodeChar x = [b] ∧ Bytes.simple b = some v ∧ v.toNat = c.toNat := by
  unfold escape at h
  split at h <;> first
    | (cases h; exact ⟨_, _, rfl, rfl, rfl⟩)
    | cases h

theorem charText_spells {c : Char} {raw : List Char} (h : CharText c raw) : Spells c (bytesOf raw) := by
  cases h with
  | plain h1 h2 h3 =>
    rw [bytesOf_cons, bytesOf_nil, List.append_nil]
    exact .plain ⟨h2, h3, h1⟩
  | escape x h =>
    obtain ⟨b, v, h1, h2, h3⟩ := escape_facts h
    have : bytesOf ['\\', x] = [0x5c, b] := by
      rw [bytesOf_cons, bytesOf_cons, h1]; rfl
    rw [this]
    exact .escape h2 h3
  | unicode h hh hv =>
    obtain ⟨h1, h2, h3⟩ := hexs_bytes hh
    have : bytesOf ('\\' :: 'u' :: h) = Bytes.escaped (bytesOf h) := rfl
    rw [this]
    exact .code ⟨h1, h2⟩ (h3.trans hv)
  | pair h k hh hk hl ht hc =>
    obtain ⟨h1, h2, h3⟩ := hexs_bytes hh
    obtain ⟨g1, g2, g3⟩ := hexs_bytes hk
    have : bytesOf ('\\' :: 'u' :: h ++ '\\' :: 'u' :: k) = Bytes.escaped (bytesOf h) ++ Bytes.escaped (bytesOf k) := by
      rw [bytesOf_append]; rfl
    rw [this]
    refine .pair ⟨⟨h1, h2⟩, ?_⟩ ⟨⟨g1, g2⟩, ?_⟩ ?_
    · rw [h3]; exact hl
    · rw [g3]; exact ht
    · rw [h3, g3, hc]; rfl

theorem stringText_spells {s raw : List Char} (h : StringText s raw) : SpellsAll s (bytesOf raw) := by
  induction h with
  | nil => exact .nil
  | cons c s raw raws h _ ih =>
    rw [bytesOf_append]
    exact .cons (charText_spells h) ih

/-! ## Lexemes of tokens -/

/-- The byte may come after the token. -/
def Compat (k : Token) (b : UInt8) : Prop :=
  match k with
  | .whitespace _ => ¬ Space b
  | .null | .true | .false => ¬ InWord b
  | .number .. => ¬ Digit b ∧ ¬ Point b ∧ ¬ Exp b
  | _ => True

theorem space_facts : ∀ c ∈ [' ', '\n', '\r', '\t'], String.utf8EncodeChar c = [c.toNat.toUInt8] ∧ Space c.toNat.toUInt8 := by decide +kernel

theorem spaces_bytes {w : List Char} (h : ∀ c ∈ w, isSpace c = true) : (∀ b ∈ bytesOf w, Space b) ∧ (w ≠ [] → bytesOf w ≠ []) := by
  constructor
  · intro b hb
    obtain ⟨c, hc, hb⟩ := List.mem_flatMap.mp hb
    obtain ⟨h1, h2⟩ := space_facts c ((space_iff c).mp (h c hc))
    rw [h1] at hb
    rw [List.mem_singleton.mp hb]; exact h2
  · intro hw e
    cases w with
    | nil => exact hw rfl
    | cons c w =>
      rw [bytesOf_cons, (space_facts c ((space_iff c).mp (h c List.mem_cons_self))).1] at e
      cases e

theorem intText_digits {zero : Bool} {ds : List Char} (h : IntText zero ds) : Digits ds ∧ ds ≠ [] := by
  cases h with
  | zero => exact ⟨fun c hc => by rw [List.mem_singleton.mp hc]; decide, by simp⟩
  | digits c ds _ h => exact ⟨h, by simp⟩
  | leading _ _ h h' => exact ⟨h, h'⟩

theorem e_facts {c : Char} (h : isE c = true) : ∃ b, String.utf8EncodeChar c = [b] ∧ Exp b := by
  simp only [isE, Bool.or_eq_true, decide_eq_true_iff] at h
  rcases h with rfl | rfl
  · exact ⟨0x65, rfl, .inl rfl⟩
  · exact ⟨0x45, rfl, .inr rfl⟩

theorem number_lexeme {zero : Bool} {raw : List Char} {i f x : List UInt8} {s e : Sign} (h : JsonNumber false zero raw i f x s e) :
    ∃ l : Lexeme, l.bytes = bytesOf raw ∧ l.tokens = [asBytes (.number raw i f x s e)] ∧ ∀ b v, ¬ Digit b ∧ ¬ Point b ∧ ¬ Exp b → l.fits (b :: v) := by
  obtain ⟨sg, ds, ft, fs, xt, xs, rfl, hsg, hds, hft, hxt, rfl, rfl, rfl⟩ := h
  obtain ⟨hd, hd0⟩ := intText_digits hds
  obtain ⟨d1, d2⟩ := digits_bytes hd
  -- the sign
  obtain ⟨neg, n1, n2⟩ : ∃ neg : Bool, bytesOf sg = (if neg then [0x2d] else []) ∧ (if neg then Bytes.Sign.minus else .plus) = signAs s := by
    cases hsg with
    | none => exact ⟨false, rfl, rfl⟩
    | minus => exact ⟨true, rfl, rfl⟩
    | plus h => cases h
  -- the fraction
  obtain ⟨fo, f1, f2, f3⟩ : ∃ fo : Option (List UInt8), bytesOf ft = (match fo with | none => [] | some y => 0x2e :: y)
      ∧ (if fs.map digitVal = [] then none else some (digitBytes (fs.map digitVal))) = fo ∧ ∀ y, fo = some y → y ≠ [] ∧ ∀ b ∈ y, Digit b := by
    cases hft with
    | none => exact ⟨none, rfl, rfl, fun y hy => by cases hy⟩
    | some _ h h0 =>
      obtain ⟨g1, g2⟩ := digits_bytes h
      have hn : fs.map digitVal ≠ [] := by simpa using h0
      refine ⟨some (digitBytes (fs.map digitVal)), ?_, if_neg hn, fun y hy => ?_⟩
      · rw [bytesOf_cons, g1]; rfl
      · cases hy; exact ⟨digitBytes_ne hn, g2⟩
  -- the exponent
  obtain ⟨xo, x1, x2, x3⟩ : ∃ xo : Option (UInt8 × Option UInt8 × List UInt8),
      bytesOf xt = (match xo with | none => [] | some (c, s, y) => c :: (s.toList ++ y))
      ∧ (if xs.map digitVal = [] then none else some (signAs e, digitBytes (xs.map digitVal)))
        = xo.map (fun (_, s, y) => (if s = some 0x2d then Bytes.Sign.minus else .plus, y))
      ∧ ∀ c s y, xo = some (c, s, y) → Exp c ∧ (∀ b, s = some b → SignByte b) ∧ y ≠ [] ∧ ∀ b ∈ y, Digit b := by
    cases hxt with
    | none => exact ⟨none, rfl, rfl, fun c s y hy => by cases hy⟩
    | some c _ et _ hc he h h0 =>
      obtain ⟨g1, g2⟩ := digits_bytes h
      obtain ⟨cb, c1, c2⟩ := e_facts hc
      have hn : xs.map digitVal ≠ [] := by simpa using h0
      obtain ⟨so, s1, s2, s3⟩ : ∃ so : Option UInt8, bytesOf et = so.toList ∧ (if so = some 0x2d then Bytes.Sign.minus else .plus) = signAs e
          ∧ ∀ b, so = some b → SignByte b := by
        cases he with
        | none => exact ⟨none, rfl, rfl, fun b hb => by cases hb⟩
        | minus => exact ⟨some 0x2d, rfl, rfl, fun b hb => by cases hb; exact .inr rfl⟩
        | plus => exact ⟨some 0x2b, rfl, rfl, fun b hb => by cases hb; exact .inl rfl⟩
      refine ⟨some (cb, so, digitBytes (xs.map digitVal)), ?_, ?_, fun c s y hy => ?_⟩
      · rw [List.cons_append, bytesOf_cons, bytesOf_append, c1, s1, g1]; rfl
      · rw [if_neg hn, ← s2]; rfl
      · cases hy; exact ⟨c2, s3, digitBytes_ne hn, g2⟩
  have hd0' : ds.map digitVal ≠ [] := by simpa using hd0
  obtain ⟨n, hn, hw, -, hh, hs, hx⟩ := Bytes.jsonNumber_exists (neg := neg) ⟨digitBytes_ne hd0', d2⟩ f3 x3
  have hb : Bytes.jsonNumber neg (digitBytes (ds.map digitVal)) fo xo = bytesOf (sg ++ ds ++ ft ++ xt) := by
    rw [bytesOf_append, bytesOf_append, bytesOf_append, n1, d1, f1, x1]; rfl
  refine ⟨.number n, by rw [← hb, ← hn]; rfl, ?_, ?_⟩
  · simp only [Lexeme.tokens, hs, if_neg hh, hx, hb, asBytes, n2, f2, x2, List.nil_append]
  · intro b v hbv
    refine ⟨hw, b, v, rfl, ?_⟩
    have n0 : n.digits ≠ [] := fun h0 => hh (.inl h0)
    rintro (ht | ht)
    · exact hbv.1 ht
    · cases hne : n.exponent with
      | none =>
        rw [hne] at ht
        rcases ht with ht | ⟨-, ht | ⟨ht, -⟩⟩
        · exact hbv.2.2 ht
        · exact hbv.2.1 ht
        · exact n0 ht
      | some y =>
        obtain ⟨c, s, y⟩ := y
        rw [hne] at ht
        have : y = [] := ht.1
        subst this
        exact hh (.inr (.inr ⟨c, s, hne⟩))

/-- Every token is one lexeme of the other tokenizer, if a byte follows that may follow. -/
theorem token_lexeme {zero : Bool} {k : Token} (h : Written false zero k) :
    ∃ l : Lexeme, l.bytes = bytesOf (source k) ∧ l.tokens = [asBytes k] ∧ ∀ b v, Compat k b → l.fits (b :: v) := by
  cases k with
  | colon => exact ⟨.mark 0x3a .colon, rfl, rfl, fun _ _ _ => rfl⟩
  | comma => exact ⟨.mark 0x2c .comma, rfl, rfl, fun _ _ _ => rfl⟩
  | arrayOpen => exact ⟨.mark 0x5b .arrayOpen, rfl, rfl, fun _ _ _ => rfl⟩
  | arrayClose => exact ⟨.mark 0x5d .arrayClose, rfl, rfl, fun _ _ _ => rfl⟩
  | objectOpen => exact ⟨.mark 0x7b .objectOpen, rfl, rfl, fun _ _ _ => rfl⟩
  | objectClose => exact ⟨.mark 0x7d .objectClose, rfl, rfl, fun _ _ _ => rfl⟩
  | null => exact ⟨.word (Bytes.ascii ['n', 'u', 'l', 'l']), by decide +kernel, rfl, fun b v hb => ⟨⟨_, _, rfl, by decide, by decide⟩, b, v, rfl, hb⟩⟩
  | true => exact ⟨.word (Bytes.ascii ['t', 'r', 'u', 'e']), by decide +kernel, rfl, fun b v hb => ⟨⟨_, _, rfl, by decide, by decide⟩, b, v, rfl, hb⟩⟩
  | false => exact ⟨.word (Bytes.ascii ['f', 'a', 'l', 's', 'e']), by decide +kernel, rfl, fun b v hb => ⟨⟨_, _, rfl, by decide, by decide⟩, b, v, rfl, hb⟩⟩
  | whitespace w =>
    obtain ⟨h1, h2⟩ := spaces_bytes h.2
    exact ⟨.space (bytesOf w), rfl, rfl, fun b v hb => ⟨h2 h.1, h1, b, v, rfl, hb⟩⟩
  | number raw i f x s e => exact number_lexeme h
  | string raw s =>
    obtain ⟨ps, h1, h2, h3, h4, h5⟩ := Bytes.spellsAll_exists (stringText_spells h)
    have hb : (0x22 :: (Bytes.allBytes ps ++ [0x22]) : List UInt8) = bytesOf ('"' :: raw ++ ['"']) := by
      rw [h1, List.cons_append, bytesOf_cons, bytesOf_append]; rfl
    refine ⟨.string ps, hb, ?_, fun b v _ => h2 _⟩
    have ht := Bytes.told_eq [] ps (by simp) h5
    rw [List.nil_append] at ht
    simp only [Lexeme.tokens, h4, List.nil_append, ht, h3, Bytes.stringToken, hb]
    rw [if_pos ((Args.isUtf8_iff _).mpr ⟨s, rfl⟩)]
    rfl

/-! ## What follows a token -/

/-- What ends tokens. -/
def Apart : List Token → Prop
  | [] => True
  | k :: ks => (match k with
      | .whitespace _ => Ends isWhitespace (ks.flatMap source)
      | .null | .true | .false => Ends (! isBreak ·) (ks.flatMap source)
      | .number .. => Ends isDigit (ks.flatMap source)
      | _ => True) ∧ Apart ks

theorem numeral_digit {plus zero : Bool} {raw : List Char} {k : Token} {more : Char → Bool} {l : List Char} (h : Numeral plus zero raw k [] more)
    (he : Ends more l) : Ends isDigit l := by
  intro c l' hl
  have := he c l' hl
  generalize hx : ([] : List Err) = errs at h
  cases h with
  | integer => simp only [Bool.or_eq_false_iff] at this; exact this.1.1
  | fraction => simp only [Bool.or_eq_false_iff] at this; exact this.1
  | full => exact this
  | sign => exact this
  | point => exact this
  | exponent => simp only [Bool.or_eq_false_iff] at this; exact this.1.1
  | exponentSign => exact this

theorem lex_apart {plus zero : Bool} {text : List Char} {evs : List Ev} (h : Lex plus zero text evs) :
    ∀ toks : List Token, evs = toks.map .tok → Apart toks := by
  have step : ∀ {k : Token} {toks : List Token} {l : List Char} {evs : List Ev}, Ev.tok k :: evs = toks.map .tok → Lex plus zero l evs →
      (match k with
      | .whitespace _ => Ends isWhitespace l
      | .null | .true | .false => Ends (! isBreak ·) l
      | .number .. => Ends isDigit l
      | _ => True) →
      (∀ ts : List Token, evs = ts.map .tok → Apart ts) → Apart toks := by
    intro k toks l evs he hl hk ih
    obtain ⟨ts, rfl, h2⟩ := tok_inj he
    have hs : ts.flatMap source = l := lex_source hl ts h2
    refine ⟨?_, ih ts h2⟩
    rw [hs]
    exact hk
  induction h with
  | nil => intro toks h; cases toks with
    | nil => trivial
    | cons a b => cases h
  | punct c k l evs h hl ih =>
    intro toks he
    refine step he hl ?_ ih
    unfold punct at h
    split at h <;> cases h <;> trivial
  | equals l evs _ ih => intro toks he; exact absurd he err_absurd
  | stray l evs _ _ ih => intro toks he; exact absurd he err_absurd
  | space w l evs h1 h2 h3 hl ih =>
    intro toks he
    have hsp := strays_nil he
    obtain ⟨s1, s2⟩ := strays_spaces hsp
    rw [s1, s2] at he
    exact step he hl h3 ih
  | word c w l evs h1 h2 h3 hl ih =>
    intro toks he
    cases hw : word (c :: w) with
    | err x => rw [hw] at he; exact absurd he err_absurd
    | tok k =>
      rw [hw] at he
      refine step he hl ?_ ih
      unfold word at hw
      split at hw
      · cases hw; exact h3
      · split at hw
        · cases hw; exact h3
        · split at hw
          · cases hw; exact h3
          · cases hw
  | slash w l evs h1 h2 h3 _ ih => intro toks he; exact absurd he err_absurd
  | hash w l evs h1 h2 _ ih => intro toks he; exact absurd he err_absurd
  | slashes w l evs h1 h2 _ ih => intro toks he; exact absurd he err_absurd
  | number raw k errs more l evs h1 h2 hl ih =>
    intro toks he
    have := errs_nil he
    subst this
    obtain ⟨i, f, x, s, e, rfl, hj⟩ := numeral_json h1
    exact step he hl (numeral_digit h1 h2) ih
  | string text raw chars errs l evs h1 hl ih =>
    intro toks he
    have := errs_nil he
    subst this
    exact step he hl trivial ih
  | cut text errs h =>
    intro toks he
    have := errs_nil he
    subst this
    exact absurd he err_absurd

/-! ## The first byte of a token -/

def Firsts : List Char :=
  [' ', '\n', '\r', '\t', '"', '-', '0', '1', '2', '3', '4', '5', '6', '7', '8', '9', 'n', 't', 'f', ':', ',', '[', ']', '{', '}']

theorem first_facts : ∀ c ∈ Firsts, String.utf8EncodeChar c = [c.toNat.toUInt8]
    ∧ (isWhitespace c = false → ¬ Space c.toNat.toUInt8)
    ∧ (isBreak c = true → c ≠ '-' → ¬ InWord c.toNat.toUInt8)
    ∧ (isDigit c = false → ¬ Digit c.toNat.toUInt8 ∧ ¬ Point c.toNat.toUInt8 ∧ ¬ Exp c.toNat.toUInt8) := by decide +kernel

theorem spaces_first : ∀ c ∈ [' ', '\n', '\r', '\t'], c ∈ Firsts ∧ c ≠ '-' := by decide
theorem digits_first : ∀ c ∈ ['0', '1', '2', '3', '4', '5', '6', '7', '8', '9'], c ∈ Firsts ∧ c ≠ '-' := by decide

theorem first_char {zero : Bool} {k : Token} (h : Written false zero k) :
    ∃ c cs, source k = c :: cs ∧ c ∈ Firsts ∧ (c = '-' ↔ isNegative k = true) := by
  cases k with
  | whitespace w =>
    cases w with
    | nil => exact (h.1 rfl).elim
    | cons c w =>
      have := (space_iff c).mp (h.2 c List.mem_cons_self)
      obtain ⟨h1, h2⟩ := spaces_first c this
      exact ⟨c, w, rfl, h1, fun hx => (h2 hx).elim, fun hx => by cases hx⟩
  | number raw i f x s e =>
    obtain ⟨sg, ds, ft, fs, xt, xs, rfl, hsg, hds, -⟩ := h
    cases hsg with
    | minus => exact ⟨'-', _, rfl, by decide, by simp [isNegative]⟩
    | plus h => cases h
    | none =>
      obtain ⟨h1, h2⟩ := intText_digits hds
      cases ds with
      | nil => exact (h2 rfl).elim
      | cons c ds =>
        have hc := (digit_iff c).mp (h1 c List.mem_cons_self)
        obtain ⟨g1, g2⟩ := digits_first c hc
        exact ⟨c, _, rfl, g1, fun hx => (g2 hx).elim, fun hx => by cases hx⟩
  | string raw s => exact ⟨'"', _, rfl, by decide, by simp [isNegative]⟩
  | null => exact ⟨'n', _, rfl, by decide, by simp [isNegative]⟩
  | true => exact ⟨'t', _, rfl, by decide, by simp [isNegative]⟩
  | false => exact ⟨'f', _, rfl, by decide, by simp [isNegative]⟩
  | _ => exact ⟨_, _, rfl, by decide, by simp [isNegative]⟩

/-- A byte that is a token ends all others. -/
theorem mark_compat : ∀ b : UInt8, Bytes.mark b ≠ none → ¬ Space b ∧ ¬ InWord b ∧ ¬ Digit b ∧ ¬ Point b ∧ ¬ Exp b := by
  intro b h
  have : b = 0x3a ∨ b = 0x2c ∨ b = 0x5b ∨ b = 0x5d ∨ b = 0x7b ∨ b = 0x7d := by
    rw [Bytes.mark.eq_def] at h
    split at h
    · exact .inl rfl
    · exact .inr (.inl rfl)
    · exact .inr (.inr (.inl rfl))
    · exact .inr (.inr (.inr (.inl rfl)))
    · exact .inr (.inr (.inr (.inr (.inl rfl))))
    · exact .inr (.inr (.inr (.inr (.inr rfl))))
    · exact (h rfl).elim
  rcases this with rfl | rfl | rfl | rfl | rfl | rfl <;> decide

/-! ## Texts -/

theorem compat_next {zero : Bool} {k : Token} {ks : List Token} (ha : Apart (k :: ks)) (hw : ∀ n ∈ ks, Written false zero n)
    (hk : ∀ n, ks.head? = some n → ¬ (isKeyword k = true ∧ isNegative n = true)) {b : UInt8} (hb : Bytes.mark b ≠ none) (e : List UInt8) :
    ∃ b' v', bytesOf (ks.flatMap source) ++ b :: e = b' :: v' ∧ Compat k b' := by
  obtain ⟨m1, m2, m3, m4, m5⟩ := mark_compat b hb
  cases ks with
  | nil =>
    refine ⟨b, e, rfl, ?_⟩
    cases k <;> first | trivial | exact m1 | exact m2 | exact ⟨m3, m4, m5⟩
  | cons n ks =>
    obtain ⟨c, cs, h1, h2, h3⟩ := first_char (hw n List.mem_cons_self)
    obtain ⟨f1, f2, f3, f4⟩ := first_facts c h2
    have hs : (n :: ks).flatMap source = c :: (cs ++ ks.flatMap source) := by rw [List.flatMap_cons, h1]; rfl
    refine ⟨c.toNat.toUInt8, bytesOf (cs ++ ks.flatMap source) ++ b :: e, by rw [hs, bytesOf_cons, f1]; rfl, ?_⟩
    have ha := ha.1
    have key : ∀ (p : Char → Bool), Ends p ((n :: ks).flatMap source) → p c = false := fun p h => h c _ hs
    have hn : isKeyword k = true → c ≠ '-' := fun h hc => hk n rfl ⟨h, h3.mp hc⟩
    cases k with
    | whitespace w => exact f2 (key _ ha)
    | null => exact f3 (by simpa using key _ ha) (hn rfl)
    | true => exact f3 (by simpa using key _ ha) (hn rfl)
    | false => exact f3 (by simpa using key _ ha) (hn rfl)
    | number => exact f4 (key _ ha)
    | _ => trivial

theorem clash_cons {k : Token} {ks : List Token} (h : Clash ks) : Clash (k :: ks) := by
  obtain ⟨us, a, n, vs, rfl, h⟩ := h
  exact ⟨k :: us, a, n, vs, rfl, h⟩

theorem cut_tokens {zero : Bool} {b : UInt8} (hb : Bytes.mark b ≠ none) {e : List UInt8} {ls : List Lexeme} {t : Tail} (hc : Bytes.Cut (b :: e) ls t) :
    ∀ toks : List Token, Apart toks → (∀ k ∈ toks, Written false zero k) → ¬ Clash toks →
    ∃ ls', Bytes.Cut (bytesOf (toks.flatMap source) ++ b :: e) (ls' ++ ls) t ∧ ls'.flatMap Lexeme.tokens = toks.map asBytes
  | [], _, _, _ => ⟨[], hc, rfl⟩
  | k :: ks, ha, hw, hn => by
    obtain ⟨ls', h1, h2⟩ := cut_tokens hb hc ks ha.2 (fun n h => hw n (List.mem_cons_of_mem _ h)) (fun h => hn (clash_cons h))
    obtain ⟨l, l1, l2, l3⟩ := token_lexeme (hw k List.mem_cons_self)
    obtain ⟨b', v', hv, hcompat⟩ := compat_next ha (fun n h => hw n (List.mem_cons_of_mem _ h)) (by
      intro n hh hx
      cases ks with
      | nil => cases hh
      | cons m ks => cases hh; exact hn ⟨[], k, n, ks, rfl, hx⟩) hb e
    rw [hv] at h1
    refine ⟨l :: ls', ?_, ?_⟩
    · rw [List.flatMap_cons, bytesOf_append, List.append_assoc, hv, ← l1]
      exact .lexeme l (l3 b' v' hcompat) h1
    · rw [List.flatMap_cons, l2, h2]; rfl

/-- A word ends before the first byte that is not part of words. -/
theorem word_end : ∀ {u : List UInt8} {b : UInt8}, b ∈ u → ¬ InWord b → ∃ p b' v, u = p ++ b' :: v ∧ (∀ c ∈ p, InWord c) ∧ ¬ InWord b'
  | [], _, h, _ => by cases h
  | c :: u, b, h, hb => by
    by_cases hc : InWord c
    · have : b ∈ u := by
        rcases List.mem_cons.mp h with rfl | h
        · exact (hb hc).elim
        · exact h
      obtain ⟨p, b', v, rfl, h1, h2⟩ := word_end this hb
      refine ⟨c :: p, b', v, rfl, fun d hd => ?_, h2⟩
      rcases List.mem_cons.mp hd with rfl | hd
      · exact hc
      · exact h1 d hd
    · exact ⟨[], c, u, rfl, fun d hd => (by cases hd), hc⟩

theorem word_dash (w : List UInt8) (h : 0x2d ∈ w) : ∃ e, Bytes.wordToken w = .error e := by
  have h1 : w ≠ Bytes.ascii ['n', 'u', 'l', 'l'] := by rintro rfl; revert h; decide
  have h2 : w ≠ Bytes.ascii ['f', 'a', 'l', 's', 'e'] := by rintro rfl; revert h; decide
  have h3 : w ≠ Bytes.ascii ['t', 'r', 'u', 'e'] := by rintro rfl; revert h; decide
  unfold Bytes.wordToken
  rw [if_neg h1, if_neg h2, if_neg h3]
  split
  · exact ⟨_, rfl⟩
  · exact ⟨_, rfl⟩

theorem keyword_bytes {k : Token} (h : isKeyword k = true) : ∃ b l, bytesOf (source k) = b :: l ∧ StartsWord b ∧ ∀ c ∈ l, InWord c := by
  cases k with
  | null => exact ⟨0x6e, [0x75, 0x6c, 0x6c], by decide +kernel, by decide, by decide⟩
  | true => exact ⟨0x74, [0x72, 0x75, 0x65], by decide +kernel, by decide, by decide⟩
  | false => exact ⟨0x66, [0x61, 0x6c, 0x73, 0x65], by decide +kernel, by decide, by decide⟩
  | _ => cases h

theorem asBytes_ne_error (k : Token) (e : Bytes.Err) : asBytes k ≠ .error e := by cases k <;> simp [asBytes]

theorem clash_differs {zero : Bool} {b : UInt8} (hb : Bytes.mark b ≠ none) {e : List UInt8} :
    ∀ toks : List Token, Apart toks → (∀ k ∈ toks, Written false zero k) → Clash toks →
    ∀ (ls : List Lexeme) (t : Tail), Bytes.Cut (bytesOf (toks.flatMap source) ++ b :: e) ls t → ∀ xs, Bytes.tokens ls t ≠ toks.map asBytes ++ xs
  | [], _, _, h => by
    obtain ⟨us, _, _, _, h, _⟩ := h
    cases us <;> cases h
  | k :: ks, ha, hw, hn => by
    intro ls t hc xs
    by_cases hk : ∃ n, ks.head? = some n ∧ isKeyword k = true ∧ isNegative n = true
    · obtain ⟨n, h1, h2, h3⟩ := hk
      cases ks with
      | nil => cases h1
      | cons m ks =>
        cases h1
        obtain ⟨c, cs, hs, -, hm⟩ := first_char (hw n (List.mem_cons_of_mem _ List.mem_cons_self))
        have := hm.mpr h3
        subst this
        obtain ⟨b0, l, hkb, hkw, hin⟩ := keyword_bytes h2
        have hmem : b ∈ bytesOf (cs ++ ks.flatMap source) ++ b :: e := List.mem_append_right _ List.mem_cons_self
        obtain ⟨p, b', v, hu, hp, hb'⟩ := word_end hmem (mark_compat b hb).2.1
        obtain ⟨ls', t', hc'⟩ := Bytes.cut_total (b' :: v)
        have hfit : (Lexeme.word (b0 :: l ++ 0x2d :: p)).fits (b' :: v) := by
          refine ⟨⟨b0, l ++ 0x2d :: p, rfl, hkw, fun c hc => ?_⟩, b', v, rfl, hb'⟩
          rcases List.mem_append.mp hc with hc | hc
          · exact hin c hc
          · rcases List.mem_cons.mp hc with rfl | hc
            · decide
            · exact hp c hc
        have hcut := Bytes.Cut.lexeme _ hfit hc'
        have he : bytesOf ((k :: n :: ks).flatMap source) ++ b :: e = (Lexeme.word (b0 :: l ++ 0x2d :: p)).bytes ++ b' :: v := by
          rw [List.flatMap_cons, List.flatMap_cons, hs, bytesOf_append, hkb,
            show '-' :: cs ++ ks.flatMap source = '-' :: (cs ++ ks.flatMap source) from rfl, bytesOf_cons,
            show String.utf8EncodeChar '-' = [0x2d] by decide +kernel]
          simp only [Lexeme.bytes, List.append_assoc, List.cons_append, List.nil_append]
          rw [hu]
        rw [← he] at hcut
        obtain ⟨rfl, rfl⟩ := Bytes.cut_once _ _ _ _ _ hc hcut
        obtain ⟨er, her⟩ := word_dash (b0 :: l ++ 0x2d :: p) (List.mem_append_right _ List.mem_cons_self)
        intro hx
        simp only [Bytes.tokens, List.flatMap_cons, Lexeme.tokens] at hx
        rw [her] at hx
        exact asBytes_ne_error _ _ (List.cons.inj hx).1.symm
    · have hk : ∀ n, ks.head? = some n → ¬ (isKeyword k = true ∧ isNegative n = true) := fun n h1 h2 => hk ⟨n, h1, h2⟩
      obtain ⟨b', v', hv, hcompat⟩ := compat_next ha (fun n h => hw n (List.mem_cons_of_mem _ h)) hk hb e
      obtain ⟨l, l1, l2, l3⟩ := token_lexeme (hw k List.mem_cons_self)
      obtain ⟨ls', t', hc'⟩ := Bytes.cut_total (bytesOf (ks.flatMap source) ++ b :: e)
      have hcl : Clash ks := by
        obtain ⟨us, a, n, vs, h1, h2⟩ := hn
        cases us with
        | nil => cases h1; exact (hk n rfl h2).elim
        | cons u us => cases h1; exact ⟨us, a, n, vs, rfl, h2⟩
      have ih := clash_differs hb ks ha.2 (fun n h => hw n (List.mem_cons_of_mem _ h)) hcl _ _ hc'
      have hcut := Bytes.Cut.lexeme l (by rw [hv]; exact l3 b' v' hcompat) hc'
      rw [l1, ← List.append_assoc, ← bytesOf_append, ← List.flatMap_cons] at hcut
      obtain ⟨rfl, rfl⟩ := Bytes.cut_once _ _ _ _ _ hc hcut
      intro hx
      simp only [Bytes.tokens, List.flatMap_cons, l2, List.map_cons, List.cons_append, List.nil_append, List.cons.injEq, true_and] at hx
      exact ih xs hx

theorem separate_noclash : ∀ {toks : List Token}, Separate toks → ¬ Clash toks := by
  intro toks hs ⟨us, k, n, vs, he, hk, hn⟩
  induction us generalizing toks with
  | nil =>
    subst he
    refine hs.1 ⟨?_, ?_⟩
    · cases k <;> first | rfl | cases hk
    · cases n <;> first | rfl | cases hn
  | cons u us ih =>
    subst he
    cases us with
    | nil => exact ih hs.2.2 rfl
    | cons u' us => exact ih hs.2.2 rfl

theorem source_bytes (k : Token) : Bytes.source (asBytes k) = bytesOf (source k) := by
  cases k <;> first | rfl | decide +kernel

theorem mark_source {b : UInt8} {m : Bytes.Token} (h : Bytes.mark b = some m) : Bytes.source m = [b] := by
  rw [Bytes.mark.eq_def] at h
  split at h <;> first | (cases h; rfl) | cases h

theorem sources_bytes (toks : List Token) : (toks.map asBytes).flatMap Bytes.source = bytesOf (toks.flatMap source) := by
  induction toks with
  | nil => rfl
  | cons k ks ih => rw [List.map_cons, List.flatMap_cons, List.flatMap_cons, bytesOf_append, ih, source_bytes]

theorem digits_back (ds : List UInt8) : (digitBytes ds).map (· - 0x30) = ds := by
  rw [digitBytes, List.map_map]
  have : (fun b : UInt8 => b - 0x30) ∘ (fun b => b + 0x30) = id := by
    funext b
    show b + 0x30 - 0x30 = b
    exact UInt8.add_sub_cancel b 0x30
  rw [this, List.map_id]

end Verif.Json.Agree
