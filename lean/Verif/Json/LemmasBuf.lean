import Verif.Json.SpecBuf
import Verif.Json.PropsToken
/-! # Lemmas about the memory of the JSON tokenizer -/
namespace Verif.Json

/-! ## The tokenizer with capacities is the tokenizer -/

/-- Without the capacities. -/
def Run.strip (r : Run (Buffered × Option Char)) : Run (Tokenizer × Option Char) := ⟨r.evs, r.res.map fun x => (x.1.tok, x.2)⟩

@[simp] theorem strip_ret (x : Buffered × Option Char) : (Run.ret x).strip = .ret (x.1.tok, x.2) := rfl
@[simp] theorem strip_say (e : Ev) (r : Run (Buffered × Option Char)) : (Run.say e r).strip = .say e r.strip := rfl
@[simp] theorem strip_panic : (Run.panic : Run (Buffered × Option Char)).strip = .panic := rfl

namespace Buffered

@[simp] theorem tok_raw (t : Buffered) (c : Char) : (t.raw c).tok = t.tok.raw c := rfl
@[simp] theorem tok_str (t : Buffered) (c : Char) : (t.str c).tok = t.tok.str c := rfl
@[simp] theorem tok_to (t : Buffered) (s : State) : (t.to s).tok = { t.tok with state := s } := rfl
@[simp] theorem tok_prepare (t : Buffered) : t.prepare.tok = t.tok.prepare := rfl

@[simp] theorem strip_digit (t : Buffered) (v : Char) (s : State) : (t.digit v s).strip = t.tok.digit v s := by
  unfold digit num Tokenizer.digit Tokenizer.num
  cases toDigit 10 v with
  | none => rfl
  | some d =>
    simp only
    by_cases h : d < 256
    · rw [if_pos h, if_pos h]; rfl
    · rw [if_neg h, if_neg h]; rfl

@[simp] theorem strip_number (t : Buffered) (s : Sign) (n m : Nat) (e : Sign) (k : Run (Buffered × Option Char)) :
    (t.number s n m e k).strip = t.tok.number s n m e k.strip := by
  unfold number Tokenizer.number
  split <;> rfl

@[simp] theorem strip_endNumber (t : Buffered) (s : Sign) (n m : Nat) (e : Sign) (ch : Option Char) :
    (t.endNumber s n m e ch).strip = t.tok.endNumber s n m e ch := by
  simp [endNumber, Tokenizer.endNumber]

@[simp] theorem strip_endIncomplete (t : Buffered) (s : Sign) (n m : Nat) (e : Sign) (ch : Option Char) :
    (t.endIncomplete s n m e ch).strip = t.tok.endIncomplete s n m e ch := by
  simp [endIncomplete, Tokenizer.endIncomplete]

@[simp] theorem strip_keyword (t : Buffered) (ch : Option Char) : (t.advanceKeyword ch).strip = t.tok.advanceKeyword ch := by
  cases ch with
  | none => rfl
  | some v =>
    unfold advanceKeyword Tokenizer.advanceKeyword
    simp only
    split
    · rfl
    · split
      · rfl
      · split <;> rfl

theorem strip_ite {c : Prop} [Decidable c] (a b : Run (Buffered × Option Char)) : (if c then a else b).strip = if c then a.strip else b.strip := by
  split <;> rfl

theorem strip_misc (t : Buffered) (ch : Option Char) : (t.advanceMisc ch).strip = t.tok.advanceMisc ch := by
  rcases t with ⟨⟨fl, st, a, b, n⟩, c1, c2, c3⟩
  cases st <;> cases ch <;> simp only [advanceMisc, Tokenizer.advanceMisc, strip_ite, strip_say, strip_ret, strip_panic, strip_keyword, tok_raw, tok_to, tok_prepare]

theorem strip_num (t : Buffered) (ch : Option Char) : (t.advanceNumber ch).strip = t.tok.advanceNumber ch := by
  rcases t with ⟨⟨fl, st, a, b, n⟩, c1, c2, c3⟩
  cases st <;> cases ch <;> simp only [advanceNumber, Tokenizer.advanceNumber, strip_ite, strip_say, strip_ret, strip_panic, strip_digit, strip_endNumber,
    strip_endIncomplete, tok_raw, tok_to]

theorem strip_char (t : Buffered) (v : Char) : (t.advanceChar v).strip = t.tok.advanceChar v := by
  simp only [advanceChar, Tokenizer.advanceChar, strip_ite, strip_say, strip_ret, strip_panic, tok_raw, tok_str, tok_to, tok_prepare]

theorem strip_unicode (t : Buffered) (n : Nat) (x : BitVec 32) (v : Char) : (t.advanceUnicode n x v).strip = t.tok.advanceUnicode n x v := by
  unfold advanceUnicode Tokenizer.advanceUnicode
  cases toDigit 16 v with
  | none => rfl
  | some d =>
    simp only [strip_ite]
    cases fromU32 (x <<< 4 ||| BitVec.ofNat 32 d).toNat <;> rfl

theorem strip_trail (t : Buffered) (l : BitVec 32) (n : Nat) (x : BitVec 32) (v : Char) :
    (t.advanceTrail l n x v).strip = t.tok.advanceTrail l n x v := by
  unfold advanceTrail Tokenizer.advanceTrail
  cases toDigit 16 v with
  | none => rfl
  | some d =>
    simp only [strip_ite]
    cases fromU32 (x <<< 4 ||| BitVec.ofNat 32 d).toNat <;> cases Tokenizer.surrogates l (x <<< 4 ||| BitVec.ofNat 32 d) <;> rfl

theorem strip_string (t : Buffered) (ch : Option Char) : (t.advanceString ch).strip = t.tok.advanceString ch := by
  cases ch with
  | none => rfl
  | some v =>
    rcases t with ⟨⟨fl, st, a, b, n⟩, c1, c2, c3⟩
    cases st <;> simp only [advanceString, Tokenizer.advanceString, strip_ite, strip_say, strip_ret, strip_char, strip_unicode, strip_trail,
      tok_raw, tok_str, tok_to]

theorem strip_start (t : Buffered) (v : Char) : (t.start v).strip = t.tok.start v := by
  simp only [start, Tokenizer.start, strip_ite, strip_say, strip_ret, strip_digit, tok_raw, tok_to]

theorem strip_handle (t : Buffered) (ch : Option Char) : (t.handle ch).strip = t.tok.handle ch := by
  have h1 := strip_misc t ch
  have h2 := strip_num t ch
  have h3 := strip_string t ch
  rcases t with ⟨⟨fl, st, a, b, n⟩, c1, c2, c3⟩
  cases st <;> first | exact h1 | exact h2 | exact h3 | rfl

/-- The tokenizer with capacities does what the tokenizer does. -/
theorem advance_tok (t : Buffered) (ch : Option Char) :
    t.tok.advance ch = ⟨(t.advance ch).evs, (t.advance ch).res.map (·.tok)⟩ := by
  unfold advance Tokenizer.advance
  rw [← strip_handle]
  rcases h : t.handle ch with ⟨evs, _ | ⟨t', _ | v⟩⟩
  · rfl
  · rfl
  · simp only [Run.strip, Option.map_some]
    rw [← strip_start]
    simp only [Run.strip, Option.map_map]
    rfl

/-! ## Capacities -/

/-- The contents fit, and the capacity is the double of them at most, or 4096. -/
def Sized (cap len : Nat) : Prop := len ≤ cap ∧ cap ≤ max 4096 (2 * len)

theorem Sized.reserve {cap len : Nat} (h : Sized cap len) (add : Nat) : Sized (reserved cap len add) (len + add) := by
  unfold Sized at *
  unfold reserved
  split <;> omega

theorem Sized.shrink (cap : Nat) : Sized (shrunk cap 0 4096) 0 := by
  unfold Sized shrunk
  split <;> omega

theorem bytes_append (a b : List Char) : bytes (a ++ b) = bytes a + bytes b := by
  induction a with
  | nil => simp [bytes]
  | cons c a ih => simp [bytes, ih, Nat.add_assoc]

theorem bytes_one (c : Char) : bytes [c] = c.utf8Size := by simp [bytes]

def Good (t : Buffered) : Prop :=
  Sized t.capRaw (bytes t.tok.acc) ∧ Sized t.capStr (bytes t.tok.accStr) ∧ Sized t.capNum t.tok.accNum.length

theorem Good.raw {t : Buffered} (h : Good t) (c : Char) : Good (t.raw c) := by
  refine ⟨?_, h.2⟩
  show Sized (reserved t.capRaw (bytes t.tok.acc) c.utf8Size) (bytes (t.tok.acc ++ [c]))
  rw [bytes_append, bytes_one]
  exact h.1.reserve _

theorem Good.str {t : Buffered} (h : Good t) (c : Char) : Good (t.str c) := by
  refine ⟨h.1, ?_, h.2.2⟩
  show Sized (reserved t.capStr (bytes t.tok.accStr) c.utf8Size) (bytes (t.tok.accStr ++ [c]))
  rw [bytes_append, bytes_one]
  exact h.2.1.reserve _

theorem Good.to {t : Buffered} (h : Good t) (s : State) : Good (t.to s) := h

theorem good_prepare (t : Buffered) : Good t.prepare := ⟨.shrink _, .shrink _, .shrink _⟩

theorem good_new (fl : BitVec 32) : Good (.withFlags fl) := by
  refine ⟨?_, ?_, ?_⟩ <;> simp [Sized, withFlags, Tokenizer.withFlags, bytes]

theorem good_clone (t : Buffered) : Good t.clone := by
  refine ⟨⟨Nat.le_refl _, ?_⟩, ⟨Nat.le_refl _, ?_⟩, ⟨Nat.le_refl _, ?_⟩⟩ <;> (simp only [clone]; omega)

/-- What a function leaves behind if it returns. -/
def All (r : Run (Buffered × Option Char)) : Prop := ∀ x, r.res = some x → Good x.1

theorem all_ret {x : Buffered × Option Char} (h : Good x.1) : All (.ret x) := by
  intro y hy
  cases hy
  exact h
theorem all_say (e : Ev) {r : Run (Buffered × Option Char)} (h : All r) : All (.say e r) := h
theorem all_panic : All .panic := by intro y hy; cases hy
theorem all_ite {c : Prop} [Decidable c] {a b : Run (Buffered × Option Char)} (ha : All a) (hb : All b) : All (if c then a else b) := by
  split
  · exact ha
  · exact hb

theorem all_digit {t : Buffered} (h : Good t) (v : Char) (s : State) : All (t.digit v s) := by
  unfold digit num
  cases toDigit 10 v with
  | none => exact all_panic
  | some d =>
    refine all_ite (all_ret ?_) all_panic
    refine ⟨(h.raw v).1, h.2.1, ?_⟩
    show Sized (reserved t.capNum t.tok.accNum.length 1) (t.tok.accNum ++ [UInt8.ofNat d]).length
    rw [List.length_append]
    exact h.2.2.reserve 1

theorem all_number {t : Buffered} {s : Sign} {n m : Nat} {e : Sign} {k : Run (Buffered × Option Char)} (h : All k) : All (t.number s n m e k) := by
  unfold number Tokenizer.number
  exact all_ite (all_say _ h) all_panic

theorem all_endNumber (t : Buffered) (s : Sign) (n m : Nat) (e : Sign) (ch : Option Char) : All (t.endNumber s n m e ch) :=
  all_number (all_ret (good_prepare t))

theorem all_endIncomplete (t : Buffered) (s : Sign) (n m : Nat) (e : Sign) (ch : Option Char) : All (t.endIncomplete s n m e ch) :=
  all_say _ (all_number (all_ret (good_prepare t)))

theorem all_keyword {t : Buffered} (h : Good t) (ch : Option Char) : All (t.advanceKeyword ch) := by
  cases ch with
  | none => exact all_say _ (all_ret (good_prepare t))
  | some v =>
    have := all_say t.tok.keyword (all_ret (x := (t.prepare, some v)) (good_prepare t))
    exact all_ite this (all_ite this (all_ite this (all_ret (h.raw v))))

theorem all_misc {t : Buffered} (h : Good t) (ch : Option Char) : All (t.advanceMisc ch) := by
  rcases t with ⟨⟨fl, st, a, b, n⟩, c1, c2, c3⟩
  cases st <;> cases ch <;> simp only [advanceMisc] <;>
    first
    | exact all_panic
    | exact all_keyword h _
    | exact all_say _ (all_ret (good_prepare _))
    | exact all_ite (all_ret ((h.raw _).to _)) (all_keyword (h.to _) _)
    | exact all_ite (all_ret (h.raw _)) (all_ite (all_say _ (all_ret h)) (all_say _ (all_ret (good_prepare _))))
    | exact all_ite (all_say _ (all_ret (good_prepare _))) (all_ret (h.raw _))

theorem all_num {t : Buffered} (h : Good t) (ch : Option Char) : All (t.advanceNumber ch) := by
  rcases t with ⟨⟨fl, st, a, b, n⟩, c1, c2, c3⟩
  cases st <;> cases ch <;> simp only [advanceNumber] <;> repeat' with_reducible apply all_ite
  all_goals
    first
    | exact all_panic
    | exact all_digit h _ _
    | exact all_say _ (all_digit h _ _)
    | exact all_endNumber _ _ _ _ _ _
    | exact all_endIncomplete _ _ _ _ _ _
    | exact all_ret ((h.raw _).to _)

theorem all_char {t : Buffered} (h : Good t) (v : Char) : All (t.advanceChar v) :=
  all_ite all_panic (all_ite (all_say _ (all_ret (good_prepare _))) (all_ite (all_ret ((h.raw _).to _))
    (all_ite (all_say _ (all_ret ((h.raw _).str _))) (all_ret ((h.raw _).str _)))))

theorem all_unicode {t : Buffered} (h : Good t) (n : Nat) (x : BitVec 32) (v : Char) : All (t.advanceUnicode n x v) := by
  unfold advanceUnicode
  cases toDigit 16 v with
  | none => exact all_panic
  | some d =>
    refine all_ite (all_ret ((h.raw _).to _)) (all_ite (all_ret ((h.raw _).to _)) (all_ite (all_say _ (all_ret ((h.raw _).to _))) ?_))
    cases fromU32 (x <<< 4 ||| BitVec.ofNat 32 d).toNat with
    | none => exact all_panic
    | some c => exact all_ret (((h.raw _).str _).to _)

theorem all_trail {t : Buffered} (h : Good t) (l : BitVec 32) (n : Nat) (x : BitVec 32) (v : Char) : All (t.advanceTrail l n x v) := by
  unfold advanceTrail
  cases toDigit 16 v with
  | none => exact all_panic
  | some d =>
    refine all_ite (all_ret ((h.raw _).to _)) (all_ite (all_say _ (all_ret ((h.raw _).to _))) (all_ite ?_ ?_))
    · cases Tokenizer.surrogates l (x <<< 4 ||| BitVec.ofNat 32 d) with
      | none => exact all_panic
      | some c => exact all_ret (((h.raw _).str _).to _)
    · cases fromU32 (x <<< 4 ||| BitVec.ofNat 32 d).toNat with
      | none => exact all_panic
      | some c => exact all_say _ (all_ret ((h.raw _).to _))

theorem all_string {t : Buffered} (h : Good t) (ch : Option Char) : All (t.advanceString ch) := by
  cases ch with
  | none => exact all_say _ (all_ret (good_prepare _))
  | some v =>
    rcases t with ⟨⟨fl, st, a, b, n⟩, c1, c2, c3⟩
    cases st <;> simp only [advanceString] <;> repeat' with_reducible apply all_ite
    all_goals
      first
      | exact all_char h _
      | exact all_unicode h _ _ _
      | exact all_trail h _ _ _ _
      | exact all_say _ (all_char (h.to _) _)
      | exact all_ret ((h.raw _).to _)
      | exact all_ret (((h.raw _).str _).to _)
      | exact all_say _ (all_ret (((h.raw _).str _).to _))
      | exact all_say _ (all_say _ (all_ret (((h.raw _).str _).to _)))

theorem all_start {t : Buffered} (h : Good t) (v : Char) : All (t.start v) := by
  unfold start
  repeat' with_reducible apply all_ite
  all_goals
    first
    | exact all_ret ((h.raw _).to _)
    | exact all_ret (h.to _)
    | exact all_digit h _ _
    | exact all_say _ (all_ret h)
    | exact all_say _ (all_ret (h.to _))
    | exact all_say _ (all_say _ (all_ret h))

theorem all_handle {t : Buffered} (h : Good t) (ch : Option Char) : All (t.handle ch) := by
  have h1 := all_misc h ch
  have h2 := all_num h ch
  have h3 := all_string h ch
  have h4 : All (.ret (t, ch)) := all_ret h
  rcases t with ⟨⟨fl, st, a, b, n⟩, c1, c2, c3⟩
  cases st <;> first | exact h1 | exact h2 | exact h3 | exact h4

theorem good_advance {t t' : Buffered} {ch : Option Char} {evs : List Ev} (h : Good t) (ha : t.advance ch = ⟨evs, some t'⟩) : Good t' := by
  unfold advance at ha
  have hh := all_handle h ch
  rcases hr : t.handle ch with ⟨evs', _ | ⟨t1, _ | v⟩⟩
  · rw [hr] at ha; cases ha
  · rw [hr] at ha hh
    cases ha
    exact hh _ rfl
  · rw [hr] at ha hh
    have hs := all_start (hh _ rfl) v
    simp only [Run.mk.injEq] at ha
    rcases hs' : (t1.start v).res with _ | x
    · rw [hs'] at ha; cases ha.2
    · rw [hs'] at ha
      have : x.1 = t' := by simpa using ha.2
      subst this
      exact hs x hs'

end Buffered

/-! ## What is in the buffers -/

open Buffered (bytes_append bytes_one)

/-- How much of an escape sequence has been read. -/
def slack : State → Nat
  | .stringEscape => 1
  | .stringUnicode n _ => 2 + n
  | .stringSurrogate _ => 6
  | .stringSurrogateEscape _ => 7
  | .stringSurrogateUnicode _ n _ => 8 + n
  | _ => 0

/-- Nothing is in the buffers but what is in the text. -/
def Fits (w : List Char) (t : Tokenizer) : Prop :=
  bytes t.acc ≤ bytes w ∧ bytes t.accStr + slack t.state ≤ bytes t.acc ∧ t.accNum.length ≤ bytes t.acc

/-- What a function does with a character of the token. -/
def Within (w : List Char) (c : Char) (fl : BitVec 32) (evs : List Ev) (t' : Tokenizer) (rem : Option Char) : Prop :=
  (rem = none ∧ Fits (w ++ [c]) t' ∧ evs.any Ev.ends = false ∧ t'.state ≠ .none) ∨ (rem = none ∧ t' = .withFlags fl) ∨
    (rem = some c ∧ t' = .withFlags fl ∧ evs.any Ev.ends = true)

def Sat (Q : List Ev → Tokenizer → Option Char → Prop) (r : Run (Tokenizer × Option Char)) : Prop := ∀ x, r.res = some x → Q r.evs x.1 x.2

theorem sat_ret {Q : List Ev → Tokenizer → Option Char → Prop} {x : Tokenizer × Option Char} (h : Q [] x.1 x.2) : Sat Q (.ret x) := by
  intro y hy
  cases hy
  exact h
theorem sat_panic {Q : List Ev → Tokenizer → Option Char → Prop} : Sat Q .panic := by intro y hy; cases hy
theorem sat_ite {Q : List Ev → Tokenizer → Option Char → Prop} {c : Prop} [Decidable c] {a b : Run (Tokenizer × Option Char)}
    (ha : Sat Q a) (hb : Sat Q b) : Sat Q (if c then a else b) := by
  split
  · exact ha
  · exact hb

variable {w : List Char} {c : Char} {fl : BitVec 32} {t t' : Tokenizer} {evs : List Ev}

theorem Within.more {e : Ev} (he : e.ends = false) {rem : Option Char} (h : Within w c fl evs t' rem) : Within w c fl (e :: evs) t' rem := by
  rcases h with ⟨a, b, d, k⟩ | h | ⟨a, b, d⟩
  · exact .inl ⟨a, b, by rw [List.any_cons, he, d]; rfl, k⟩
  · exact .inr (.inl h)
  · exact .inr (.inr ⟨a, b, by rw [List.any_cons, d, Bool.or_true]⟩)

theorem within_say (e : Ev) (he : e.ends = false) {r : Run (Tokenizer × Option Char)} (h : Sat (Within w c fl) r) : Sat (Within w c fl) (.say e r) :=
  fun x hx => (h x hx).more he

theorem within_end (e : Ev) (he : e.ends = true) (t : Tokenizer) (hf : t.flags = fl) : Sat (Within w c fl) (.say e (.ret (t.prepare, some c))) := by
  intro x hx
  cases hx
  subst hf
  exact .inr (.inr ⟨rfl, rfl, by show [e].any Ev.ends = true; simp [he]⟩)

theorem within_last (e : Ev) (t : Tokenizer) (hf : t.flags = fl) : Sat (Within w c fl) (.say e (.ret (t.prepare, none))) := by
  intro x hx
  cases hx
  subst hf
  exact .inr (.inl ⟨rfl, rfl⟩)

theorem within_ret (h : Fits (w ++ [c]) t') (hs : t'.state ≠ .none) : Sat (Within w c fl) (.ret (t', none)) :=
  sat_ret (.inl ⟨rfl, h, rfl, hs⟩)

theorem keyword_ends (t : Tokenizer) : t.keyword.ends = true := by
  unfold Tokenizer.keyword
  repeat' split
  all_goals rfl

theorem size_pos (c : Char) : 1 ≤ c.utf8Size := Char.utf8Size_pos c

/-- A character of the token: the state may hold one more of an escape sequence. -/
theorem Fits.raw (h : Fits w t) (c : Char) (s : State) (hs : slack s ≤ slack t.state + 1) : Fits (w ++ [c]) { t.raw c with state := s } := by
  obtain ⟨h1, h2, h3⟩ := h
  have := size_pos c
  refine ⟨?_, ?_, ?_⟩
  · show bytes (t.acc ++ [c]) ≤ _
    rw [bytes_append, bytes_append]; omega
  · show bytes t.accStr + slack s ≤ bytes (t.acc ++ [c])
    rw [bytes_append, bytes_one]; omega
  · show t.accNum.length ≤ bytes (t.acc ++ [c])
    rw [bytes_append]; omega

/-- A character that ends an escape sequence or is one of the string. -/
theorem Fits.str (h : Fits w t) (c d : Char) (hd : d.utf8Size ≤ c.utf8Size + slack t.state) :
    Fits (w ++ [c]) { (t.raw c).str d with state := .string } := by
  obtain ⟨h1, h2, h3⟩ := h
  refine ⟨?_, ?_, ?_⟩
  · show bytes (t.acc ++ [c]) ≤ _
    rw [bytes_append, bytes_append]; omega
  · show bytes (t.accStr ++ [d]) + 0 ≤ bytes (t.acc ++ [c])
    rw [bytes_append, bytes_append, bytes_one, bytes_one]; omega
  · show t.accNum.length ≤ bytes (t.acc ++ [c])
    rw [bytes_append]; omega

theorem Fits.skip (h : Fits w t) (c : Char) : Fits (w ++ [c]) t :=
  ⟨by rw [bytes_append]; exact Nat.le_trans h.1 (Nat.le_add_right _ _), h.2⟩

theorem Fits.to (h : Fits w t) (s : State) (hs : slack s ≤ slack t.state) : Fits w { t with state := s } :=
  ⟨h.1, Nat.le_trans (Nat.add_le_add_left hs _) h.2.1, h.2.2⟩

theorem within_digit (h : Fits w t) (hs : slack t.state = 0) (c : Char) (s : State) (hs' : slack s = 0) (hn : s ≠ .none) :
    Sat (Within w c fl) (t.digit c s) := by
  unfold Tokenizer.digit Tokenizer.num
  cases toDigit 10 c with
  | none => exact sat_panic
  | some d =>
    refine sat_ite (within_ret ?_ hn) sat_panic
    obtain ⟨h1, h2, _⟩ := h.raw c s (by omega)
    refine ⟨h1, h2, ?_⟩
    show (t.accNum ++ [UInt8.ofNat d]).length ≤ bytes (t.acc ++ [c])
    rw [List.length_append, bytes_append, bytes_one]
    have := size_pos c
    have := h.2.2
    exact Nat.add_le_add ‹_› ‹_›

theorem within_number (hf : t.flags = fl) (s : Sign) (n m : Nat) (e : Sign) :
    Sat (Within w c fl) (t.number s n m e (.ret (t.prepare, some c))) := by
  unfold Tokenizer.number
  exact sat_ite (within_end _ rfl t hf) sat_panic

theorem within_keyword (h : Fits w t) (hf : t.flags = fl) (hn : t.state ≠ .none) (c : Char) :
    Sat (Within w c fl) (t.advanceKeyword (some c)) := by
  have hk := within_end (w := w) (c := c) t.keyword (keyword_ends t) t hf
  exact sat_ite hk (sat_ite hk (sat_ite hk (within_ret (h.raw c t.state (by omega)) hn)))

theorem within_misc (h : Fits w t) (hf : t.flags = fl) (c : Char) : Sat (Within w c fl) (t.advanceMisc (some c)) := by
  rcases t with ⟨fl', st, a, b, n⟩
  cases st <;> simp only [Tokenizer.advanceMisc]
  all_goals first | exact sat_panic | skip
  · exact sat_ite (within_ret (h.raw c _ (by simp [slack])) (by simp)) (within_keyword (h.to .keyword (by simp [slack])) hf (by simp) c)
  · exact within_keyword h hf (by simp) c
  · exact sat_ite (within_ret (h.raw c .whitespace (by simp [slack])) (fun h => by cases h))
      (sat_ite (within_say _ rfl (within_ret (h.skip c) (by simp))) (within_end _ rfl _ hf))
  · exact sat_ite (within_end _ rfl _ hf) (within_ret (h.raw c .commentLine (by simp [slack])) (fun h => by cases h))

theorem within_num (h : Fits w t) (hf : t.flags = fl) (c : Char) : Sat (Within w c fl) (t.advanceNumber (some c)) := by
  rcases t with ⟨fl', st, a, b, n⟩
  cases st <;> simp only [Tokenizer.advanceNumber] <;> repeat' with_reducible apply sat_ite
  all_goals
    first
    | exact sat_panic
    | exact within_digit h rfl c _ rfl (by simp)
    | exact within_digit h rfl c _ (by split <;> rfl) (by split <;> simp)
    | exact within_say _ rfl (within_digit h rfl c _ rfl (by simp))
    | exact within_number hf _ _ _ _
    | exact within_say _ rfl (within_number hf _ _ _ _)
    | exact within_ret (h.raw c _ (by simp [slack])) (by simp)

theorem within_char (h : Fits w t) (hf : t.flags = fl) (c : Char) : Sat (Within w c fl) (t.advanceChar c) := by
  unfold Tokenizer.advanceChar
  by_cases hs : t.state = .string
  · rw [if_neg (fun hn => hn hs)]
    have h' := h.str c c (Nat.le_add_right _ _)
    have e : { (t.raw c).str c with state := .string } = (t.raw c).str c := by rw [← hs]; rfl
    rw [e] at h'
    have hn : ((t.raw c).str c).state ≠ .none := by show t.state ≠ _; rw [hs]; simp
    refine sat_ite (within_last _ t hf) (sat_ite (within_ret (h.raw c _ (by simp [slack])) (by simp))
      (sat_ite (within_say _ rfl (within_ret h' hn)) (within_ret h' hn)))
  · rw [if_pos hs]
    exact sat_panic

theorem size_le (c : Char) : c.utf8Size ≤ 4 := Char.utf8Size_le_four c

theorem within_unicode (h : Fits w t) (n : Nat) (x : BitVec 32) (hs : slack t.state = 2 + n) (c : Char) :
    Sat (Within w c fl) (t.advanceUnicode n x c) := by
  unfold Tokenizer.advanceUnicode
  cases toDigit 16 c with
  | none => exact sat_panic
  | some d =>
    show Sat _ (if n < 3 then _ else _)
    by_cases hn : n < 3
    · rw [if_pos hn]
      exact within_ret (h.raw c _ (by rw [hs]; simp only [slack]; omega)) (by simp)
    · rw [if_neg hn]
      refine sat_ite (within_ret (h.raw c _ (by rw [hs]; simp only [slack]; omega)) (by simp))
        (sat_ite (within_say _ rfl (within_ret (h.raw c _ (by simp [slack])) (by simp))) ?_)
      cases fromU32 (x <<< 4 ||| BitVec.ofNat 32 d).toNat with
      | none => exact sat_panic
      | some y => exact within_ret (h.str c y (by have := size_le y; omega)) (by simp)

theorem within_trail (h : Fits w t) (l : BitVec 32) (n : Nat) (x : BitVec 32) (hs : slack t.state = 8 + n) (c : Char) :
    Sat (Within w c fl) (t.advanceTrail l n x c) := by
  unfold Tokenizer.advanceTrail
  cases toDigit 16 c with
  | none => exact sat_panic
  | some d =>
    refine sat_ite (within_ret (h.raw c _ (by rw [hs]; simp only [slack]; omega)) (by simp))
      (sat_ite (within_say _ rfl (within_ret (h.raw c _ (by simp [slack])) (by simp))) (sat_ite ?_ ?_))
    · cases Tokenizer.surrogates l (x <<< 4 ||| BitVec.ofNat 32 d) with
      | none => exact sat_panic
      | some y => exact within_ret (h.str c y (by have := size_le y; omega)) (by simp)
    · cases fromU32 (x <<< 4 ||| BitVec.ofNat 32 d).toNat with
      | none => exact sat_panic
      | some y => exact within_say _ rfl (within_ret (h.raw c _ (by simp [slack])) (by simp))

theorem simple_size (c : Char) : (Tokenizer.simple c).utf8Size ≤ c.utf8Size := by
  have := size_pos c
  unfold Tokenizer.simple
  repeat' split
  all_goals first | exact this | exact Nat.le_refl _

theorem within_string (h : Fits w t) (hf : t.flags = fl) (c : Char) : Sat (Within w c fl) (t.advanceString (some c)) := by
  have hc := size_pos c
  have hp := simple_size c
  rcases t with ⟨fl', st, a, b, n⟩
  cases st <;> simp only [Tokenizer.advanceString] <;> repeat' with_reducible apply sat_ite
  all_goals
    first
    | exact within_char h hf c
    | exact within_unicode h _ _ rfl c
    | exact within_trail h _ _ _ rfl c
    | exact within_say _ rfl (within_char (h.to .string (by simp [slack])) hf c)
    | exact within_ret (h.raw c _ (by simp [slack])) (by simp)
    | exact within_ret (h.str c _ (by omega)) (by simp)
    | exact within_say _ rfl (within_ret (h.str c _ (by omega)) (by simp))
    | exact within_say _ rfl (within_say _ rfl (within_ret (h.str c _ (by omega)) (by simp)))

theorem within_handle (h : Fits w t) (hf : t.flags = fl) (hs : t.state ≠ .none) (c : Char) : Sat (Within w c fl) (t.handle (some c)) := by
  have h1 := within_misc h hf c
  have h2 := within_num h hf c
  have h3 := within_string h hf c
  rcases t with ⟨fl', st, a, b, n⟩
  cases st <;> first | exact h1 | exact h2 | exact h3 | exact absurd rfl hs

theorem fits_new (fl : BitVec 32) (w : List Char) : Fits w (.withFlags fl) := by
  refine ⟨?_, ?_, ?_⟩ <;> simp [Tokenizer.withFlags, bytes, slack]

/-- A token begins, if it is one of more than a character. -/
theorem start_fits (fl : BitVec 32) (c : Char) :
    Sat (fun evs t' _ => Fits [c] t' ∧ (t'.state = .none ∨ evs.any Ev.ends = false)) ((Tokenizer.withFlags fl).start c) := by
  have h := fits_new fl []
  have h0 := h.skip c
  unfold Tokenizer.start
  repeat' with_reducible apply sat_ite
  all_goals
    first
    | exact sat_ret ⟨h.raw c _ (by simp [slack]), .inr rfl⟩
    | exact sat_ret ⟨h0.to _ (by simp [slack]), .inr rfl⟩
    | (intro x hx; cases hx; exact ⟨h0, .inl rfl⟩)
    | (intro x hx; cases hx; exact ⟨h0.to _ (by simp [slack]), .inr rfl⟩)
    | (intro x hx
       have := within_digit (fl := fl) h rfl c (if c = '0' then .integerZero .plus else .integerSome .plus 1) (by split <;> rfl) (by split <;> simp) x hx
       rcases this with ⟨_, a, b, _⟩ | ⟨_, a⟩ | ⟨a, _⟩
       · exact ⟨a, .inr b⟩
       · rw [a]; exact ⟨h0, .inl rfl⟩
       · exfalso
         revert hx
         unfold Tokenizer.digit Tokenizer.num
         repeat' split
         all_goals (intro hx; cases hx; try cases a))

/-- Characters belong to the token in progress, or end it. -/
theorem fits_advance (h : Fits w t) (hi : Idle t) (hw : t.state = .none → w = []) (hf : t.flags = fl) (hi' : Idle t') (hf' : t'.flags = fl)
    (ha : t.advance (some c) = ⟨evs, some t'⟩) : Fits (current w c evs t'.status) t' := by
  by_cases hs' : t'.state = .none
  · rw [hi' hs', hf']
    exact fits_new fl _
  have hb : t'.status ≠ .done := by
    unfold Tokenizer.status
    split
    · exact absurd ‹_› hs'
    · simp
  unfold current
  rw [if_neg hb]
  unfold Tokenizer.advance at ha
  by_cases hs : t.state = .none
  · have e := hi hs
    rw [hf] at e
    subst e
    have hss := start_fits fl c
    have ha' : (⟨((Tokenizer.withFlags fl).start c).evs, ((Tokenizer.withFlags fl).start c).res.map (·.1)⟩ : Run Tokenizer) = ⟨evs, some t'⟩ := ha
    simp only [Run.mk.injEq, Option.map_eq_some_iff] at ha'
    obtain ⟨he, x, hx, hxt⟩ := ha'
    obtain ⟨h1, h2⟩ := hss x hx
    rw [hxt] at h1 h2
    rw [hw rfl]
    rcases h2 with h2 | h2
    · exact absurd h2 hs'
    · rw [he] at h2
      rw [h2]
      exact h1
  · have hh := within_handle h hf hs c
    rcases hr : t.handle (some c) with ⟨evs', _ | ⟨t1, rem⟩⟩
    · rw [hr] at ha; cases ha
    · rw [hr] at ha hh
      rcases hh _ rfl with ⟨h1, h2, h3, _⟩ | ⟨h1, h2⟩ | ⟨h1, h2, h3⟩
      · simp only at h1 h2 h3
        subst h1
        cases ha
        rw [h3]
        exact h2
      · simp only at h1 h2
        subst h1
        cases ha
        rw [h2] at hs'
        exact absurd rfl hs'
      · simp only at h1 h2 h3
        subst h1 h2
        simp only [Run.mk.injEq, Option.map_eq_some_iff] at ha
        obtain ⟨he, x, hx, hxt⟩ := ha
        have h4 := (start_fits fl c x hx).1
        rw [hxt] at h4
        rw [← he, List.any_append, h3, Bool.true_or]
        exact h4

/-! ## Lives -/

open Buffered

theorem life_good {t : Buffered} (h : Life fl w t) : t.Good := by
  induction h with
  | new => exact good_new fl
  | push c _ ha ih => exact good_advance ih ha
  | eof _ ha ih => exact good_advance ih ha
  | stop ch a b n m _ _ ha hb hn _ _ =>
    refine ⟨?_, ?_, ?_⟩ <;> simp [Sized, Tokenizer.prepare, bytes] <;> assumption
  | reset _ _ => exact good_prepare _
  | clone _ _ => exact good_clone _

theorem advance_erased {t t' : Buffered} {ch : Option Char} (ha : t.advance ch = ⟨evs, some t'⟩) : t.tok.advance ch = ⟨evs, some t'.tok⟩ := by
  rw [advance_tok, ha]; rfl

theorem push_collect {t t' : Tokenizer} {ch : Option Char} (ha : t.advance ch = ⟨evs, some t'⟩) : (t.push collect [] ch).1 = t' := by
  have e : ∀ s, collect.all s evs = (s ++ evs, none) := by
    clear ha
    induction evs with
    | nil => intro s; simp [Report.all]
    | cons x l ih => intro s; simp [Report.all, collect]; exact (ih _).trans (by simp)
  unfold Tokenizer.push
  rw [ha]
  simp only [e]

theorem life_reachable {t : Buffered} (h : Life fl w t) : Reachable fl t.tok := by
  induction h with
  | new => exact .new
  | push c _ ha ih => exact push_collect (advance_erased ha) ▸ .push collect _ [] (some c) ih
  | eof _ ha ih => exact push_collect (advance_erased ha) ▸ .push collect _ [] none ih
  | stop ch a b n m _ _ _ _ _ _ ih => exact .reset _ ih
  | reset _ ih => exact .reset _ ih
  | clone _ ih => exact ih

theorem life_fits {t : Buffered} (h : Life fl w t) : Fits w t.tok ∧ (t.tok.state = .none → w = []) := by
  induction h with
  | new => exact ⟨fits_new fl _, fun _ => rfl⟩
  | push c h ha ih =>
    have hr := life_reachable h
    have hr' := life_reachable (.push c h ha)
    refine ⟨fits_advance ih.1 (reachable_idle hr) ih.2 (reachable_live hr).1 (reachable_idle hr') (reachable_live hr').1 (advance_erased ha), fun hs => ?_⟩
    unfold current
    rw [if_pos]
    unfold Tokenizer.status
    rw [hs]
  | eof h ha ih =>
    obtain ⟨e, t', ha', _, hn⟩ := live_advance (reachable_live (life_reachable h)) none
    have := advance_erased ha
    rw [ha'] at this
    cases this
    rw [hn rfl]
    exact ⟨fits_new fl _, fun _ => rfl⟩
  | stop ch a b n m h _ _ _ _ _ ih => exact ⟨fits_new _ _, fun _ => rfl⟩
  | reset h ih => exact ⟨fits_new _ _, fun _ => rfl⟩
  | clone h ih => exact ih

end Verif.Json
