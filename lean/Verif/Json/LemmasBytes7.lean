import Verif.Json.LemmasBytes6
/-! # The streaming JSON tokenizer on a text: single steps within strings -/
namespace Verif.Json.Bytes
open Verif.Io (usizeMax)

theorem isPlain_iff : ∀ b, isPlain b = true ↔ (b ≠ 0x22 ∧ b ≠ 0x5c ∧ 0x1f ≤ b) := byte_all (by decide +kernel)
theorem isControl_iff : ∀ b, isControl b = true ↔ b < 0x1f := byte_all (by decide +kernel)
theorem control_facts : ∀ b : UInt8, b < 0x1f → b ≠ 0x22 ∧ b ≠ 0x5c ∧ isPlain b = false := byte_all (by decide +kernel)
theorem escapeByte_eq : ∀ b, escapeByte b = simple b := byte_all (by decide +kernel)
theorem toDigit_eq : ∀ b, Hex b → toDigit16 b = some (hexValue b) := byte_all (by decide +kernel)
theorem hexValue_lt : ∀ b, Hex b → hexValue b < 16 := byte_all (by decide +kernel)

/-! ## Four digits -/

theorem hex4_cases {h : List UInt8} (hh : Hex4 h) : ∃ a b c d, h = [a, b, c, d] ∧ Hex a ∧ Hex b ∧ Hex c ∧ Hex d := by
  obtain ⟨h1, h2⟩ := hh
  match h, h1 with
  | [a, b, c, d], _ => exact ⟨a, b, c, d, rfl, h2 a (by simp), h2 b (by simp), h2 c (by simp), h2 d (by simp)⟩

theorem unicode_eq {w h r text : List UInt8} (hh : Hex4 h) (ht : text = w ++ (h ++ r)) {i : Nat} (hi : i = w.length) : unicodeFromHex text i = some (value h) := by
  obtain ⟨a, b, c, d, rfl, h1, h2, h3, h4⟩ := hex4_cases hh
  subst ht
  unfold unicodeFromHex
  have e0 : (w ++ ([a, b, c, d] ++ r))[i]? = some a := getElem_at hi
  have e1 : (w ++ ([a, b, c, d] ++ r))[i + 1]? = some b := by
    have : (w ++ ([a, b, c, d] ++ r)) = (w ++ [a]) ++ b :: (c :: d :: r) := by simp
    rw [this]; exact getElem_at (by simp [hi])
  have e2 : (w ++ ([a, b, c, d] ++ r))[i + 2]? = some c := by
    have : (w ++ ([a, b, c, d] ++ r)) = (w ++ [a, b]) ++ c :: (d :: r) := by simp
    rw [this]; exact getElem_at (by simp [hi])
  have e3 : (w ++ ([a, b, c, d] ++ r))[i + 3]? = some d := by
    have : (w ++ ([a, b, c, d] ++ r)) = (w ++ [a, b, c]) ++ d :: r := by simp
    rw [this]; exact getElem_at (by simp [hi])
  rw [e0, e1, e2, e3]
  simp only [Option.bind_eq_bind, Option.bind_some, toDigit_eq a h1, toDigit_eq b h2, toDigit_eq c h3, toDigit_eq d h4]
  unfold value
  simp only [List.foldl_cons, List.foldl_nil, Option.some.injEq]
  omega

theorem value_lt {h : List UInt8} (hh : Hex4 h) : value h < 65536 := by
  obtain ⟨a, b, c, d, rfl, h1, h2, h3, h4⟩ := hex4_cases hh
  have := hexValue_lt a h1
  have := hexValue_lt b h2
  have := hexValue_lt c h3
  have := hexValue_lt d h4
  unfold value
  simp only [List.foldl_cons, List.foldl_nil]
  omega

theorem char_eq {n : Nat} (h : n < 0xd800 ∨ (0xdfff < n ∧ n < 0x110000)) : charFromU32 n = some (Char.ofNat n) := by
  have hv : n.isValidChar := by
    rcases h with h | h
    · exact .inl h
    · exact .inr h
  unfold charFromU32 Char.ofNat
  rw [dif_pos hv, dif_pos hv]

theorem paired_eq {lead n : Nat} (h1 : 0xd800 ≤ lead) (h2 : lead ≤ 0xdbff) (h3 : 0xdc00 ≤ n) (h4 : n ≤ 0xdfff) :
    charFromU32 (0x10000 + (lead - 0xd800) * 0x400 + (n - 0xdc00)) = some (Char.ofNat (paired lead n)) := by
  have hv : 0xdfff < paired lead n ∧ paired lead n < 0x110000 := by unfold paired; omega
  exact char_eq (.inr hv)

/-! ## The contents so far -/

/-- What the contents are before the next escape. -/
def base (acc u : List UInt8) : List UInt8 := if acc.length = 0 then u else acc

theorem base_ne {acc u : List UInt8} (x : List UInt8) (hx : x ≠ []) : (base acc u ++ x).length ≠ 0 := by
  have := List.length_pos_iff.mpr hx
  simp only [List.length_append]; omega

theorem push_eq {d : Dec} {u r text : List UInt8} {idx back : Nat} {c : Char} (ht : text = u ++ r) (hi : idx = u.length + back) :
    pushChar d text idx back c = some { d with accStr := base d.accStr u ++ String.utf8EncodeChar c } := by
  unfold pushChar
  rw [strictSub_ok (by omega), show idx - back = u.length by omega, ht]
  show (upTo (u ++ r) u.length).bind _ = _
  rw [upTo_left]; rfl

/-- The accumulated contents after the backslash. -/
def accRun (acc run : List UInt8) : List UInt8 := if acc.length > 0 then acc ++ run else acc

theorem stringRaw_eq (s : State) (i : Nat) (dn : Option Nat) (acc run : List UInt8) :
    stringRaw ⟨s, i, dn, acc⟩ run = ⟨s, i, dn, accRun acc run⟩ := by
  unfold stringRaw accRun
  split <;> rfl

/-! ## Steps -/

section
variable {u r text : List UInt8}

theorem plain_step (s : State) (acc : List UInt8) (b : UInt8) (ht : text = u ++ b :: r) (hl : text.length ≤ isizeMax) {s0 : Nat} (hs : s = .string s0)
    (hb : b ≠ 0x22 ∧ b ≠ 0x5c ∧ 0x1f ≤ b) :
    inner text ⟨s, u.length, none, acc⟩ = inner text ⟨s, u.length + 1, none, acc⟩ := by
  have hu := isize_usize _ hl
  subst hs
  rw [inner_none rfl, inner_none rfl]
  have hlen : text.length = u.length + (r.length + 1) := by rw [ht]; simp
  have e1 : text.drop u.length = b :: r := by rw [ht, List.drop_left]
  have e2 : text.drop (u.length + 1) = r := by
    rw [show text = (u ++ [b]) ++ r by rw [ht]; simp, show u.length + 1 = (u ++ [b]).length by simp, List.drop_left]
  have e3 : scanTo (fun _ b => isPlain b) ((text.drop u.length).take (usizeMax - u.length)) u.length =
      scanTo (fun _ b => isPlain b) ((text.drop (u.length + 1)).take (usizeMax - (u.length + 1))) (u.length + 1) := by
    rw [e1, e2]
    obtain ⟨j, hj⟩ : ∃ j, usizeMax - u.length = j + 1 := ⟨usizeMax - u.length - 1, by omega⟩
    rw [hj, List.take_succ_cons, show usizeMax - (u.length + 1) = j by omega]
    show (if isPlain b = true then _ else _) = _
    rw [if_pos ((isPlain_iff b).mpr hb)]
  unfold pureStep
  simp only [request, Option.getD_none]
  rw [e3]

/-- A byte which is not plain. -/
theorem stop_plain (s0 : Nat) (acc : List UInt8) (b : UInt8) (ht : text = u ++ b :: r) (hl : text.length ≤ isizeMax) (hb : isPlain b = false) :
    inner text ⟨.string s0, u.length, none, acc⟩ = (text, fin ⟨.string s0, u.length, none, acc⟩ (advanceString ⟨.string s0, u.length, none, acc⟩ s0 text)) := by
  have hu := isize_usize _ hl
  have hlen : text.length = u.length + (r.length + 1) := by rw [ht]; simp
  rw [inner_none rfl]
  have := while_stop (u := u) (mid := []) (b := b) (rest := r) (d := ⟨.string s0, u.length, none, acc⟩) (max := none) (p := fun _ b => isPlain b) rfl rfl
    (by intro i h; exact absurd h (by simp)) hb (by simp only [Option.getD_none, List.length_nil]; omega)
  rw [List.nil_append, ← ht] at this
  rw [this]
  rfl

theorem string_waits (s0 : Nat) (acc : List UInt8) (hl : text.length ≤ isizeMax) :
    inner text ⟨.string s0, text.length, none, acc⟩ = (text, ⟨.string s0, text.length, none, acc⟩, .wait) := by
  have hu := isize_usize _ hl
  rw [inner_none rfl]
  have := while_end (u := text) (mid := []) (d := ⟨.string s0, text.length, none, acc⟩) (max := none) (p := fun _ b => isPlain b) rfl rfl
    (by intro i h; exact absurd h (by simp)) (by simp only [Option.getD_none, List.length_nil]; omega)
  rw [List.append_nil] at this
  rw [this]
  rfl

/-- A control character. -/
theorem control_step {u0 run : List UInt8} (acc : List UInt8) (b : UInt8) (hu0 : u = u0 ++ run) (ht : text = u ++ b :: r) (hl : text.length ≤ isizeMax) (hb : b < 0x1f) :
    inner text ⟨.string u0.length, u.length, none, acc⟩ =
      (text, ⟨.string u0.length, u.length + 1, none, accRun acc (run ++ [b])⟩, .tell (.error (.stringUnescaped b))) := by
  have hu := isize_usize _ hl
  obtain ⟨c1, c2, c3⟩ := control_facts b hb
  have hlen : text.length = u.length + (r.length + 1) := by rw [ht]; simp
  rw [stop_plain _ _ b ht hl c3]
  have e : advanceString ⟨.string u0.length, u.length, none, acc⟩ u0.length text =
      some (⟨.string u0.length, u.length + 1, none, accRun acc (run ++ [b])⟩, some (.error (.stringUnescaped b))) := by
    unfold advanceString
    simp only []
    rw [ht, getElem_at rfl, ← ht]
    simp only []
    rw [if_neg c1, if_neg c2, if_pos ((isControl_iff b).mpr hb), strictAdd_ok (by omega)]
    show (between text u0.length (u.length + 1)).bind _ = _
    rw [show text = u0 ++ ((run ++ [b]) ++ r) by rw [ht, hu0]; simp, between_mid rfl (by rw [hu0]; simp; omega)]
    show some (stringRaw _ _, _) = _
    rw [stringRaw_eq]
  rw [e]; rfl

/-- The backslash of an escape. -/
theorem escape_step {u0 run : List UInt8} (acc : List UInt8) (hu0 : u = u0 ++ run) (ht : text = u ++ 0x5c :: r) (hl : text.length ≤ isizeMax) :
    inner text ⟨.string u0.length, u.length, none, acc⟩ = (text, ⟨.stringEscape, u.length + 1, none, accRun acc run⟩, .quiet) := by
  have hu := isize_usize _ hl
  have hlen : text.length = u.length + (r.length + 1) := by rw [ht]; simp
  rw [stop_plain _ _ 0x5c ht hl (by decide)]
  have e : advanceString ⟨.string u0.length, u.length, none, acc⟩ u0.length text =
      some (⟨.stringEscape, u.length + 1, none, accRun acc run⟩, none) := by
    unfold advanceString
    simp only []
    rw [ht, getElem_at rfl, ← ht]
    simp only []
    rw [if_neg (by decide), if_pos trivial]
    rw [show text = u0 ++ (run ++ 0x5c :: r) by rw [ht, hu0]; simp, between_mid rfl (by rw [hu0]; simp)]
    show (strictAdd (stringRaw _ _).idx 1).bind _ = _
    rw [stringRaw_eq]
    show (strictAdd u.length 1).bind _ = _
    rw [strictAdd_ok (by omega)]
    rfl
  rw [e]; rfl

/-- The closing quote. -/
theorem quote_step {u0 run : List UInt8} (acc : List UInt8) (hu0 : u = u0 ++ run) (ht : text = u ++ 0x22 :: r) (hl : text.length ≤ isizeMax)
    (c : List UInt8) (hc : (if acc.length = 0 then u else acc ++ run) = 0x22 :: c) :
    ∃ acc', inner text ⟨.string u0.length, u.length, none, acc⟩ =
      (text, ⟨.string u0.length, u.length + 1, some (u.length + 1), acc'⟩, .tell (stringToken (u ++ [0x22]) c)) := by
  have hu := isize_usize _ hl
  have hlen : text.length = u.length + (r.length + 1) := by rw [ht]; simp
  refine ⟨accRun acc (run ++ [0x22]), ?_⟩
  rw [stop_plain _ _ 0x22 ht hl (by decide)]
  have e : advanceString ⟨.string u0.length, u.length, none, acc⟩ u0.length text =
      some (⟨.string u0.length, u.length + 1, some (u.length + 1), accRun acc (run ++ [0x22])⟩, some (stringToken (u ++ [0x22]) c)) := by
    unfold advanceString
    simp only []
    rw [ht, getElem_at rfl, ← ht]
    simp only []
    rw [if_pos trivial, strictAdd_ok (by omega)]
    show (between text u0.length (u.length + 1)).bind _ = _
    rw [show text = u0 ++ ((run ++ [0x22]) ++ r) by rw [ht, hu0]; simp, between_mid rfl (by rw [hu0]; simp; omega)]
    show (upTo _ (u.length + 1)).bind _ = _
    rw [show u0 ++ ((run ++ [0x22]) ++ r) = (u ++ [0x22]) ++ r by rw [hu0]; simp, upTo_len (by simp)]
    show (raiseString { stringRaw _ _ with done := some (u.length + 1) } (u ++ [0x22])).bind _ = _
    rw [stringRaw_eq]
    have e2 : (if (accRun acc (run ++ [0x22])).length > 0 then accRun acc (run ++ [0x22]) else u ++ [0x22]) = 0x22 :: (c ++ [0x22]) := by
      unfold accRun
      by_cases ha : acc.length = 0
      · rw [if_pos ha] at hc
        rw [if_neg (show ¬ acc.length > 0 by omega), if_neg (show ¬ acc.length > 0 by omega), hc]; rfl
      · rw [if_neg ha] at hc
        rw [if_pos (show acc.length > 0 by omega), if_pos (by simp only [List.length_append]; omega), ← List.append_assoc, hc]; rfl
    have e3 : raiseString ⟨.string u0.length, u.length + 1, some (u.length + 1), accRun acc (run ++ [0x22])⟩ (u ++ [0x22]) = some (stringToken (u ++ [0x22]) c) := by
      unfold raiseString
      simp only []
      rw [e2, strictSub_ok (by simp)]
      show (between ([0x22] ++ (c ++ [0x22])) 1 _).bind _ = _
      rw [between_mid (u := [0x22]) (m := c) (a := 1) (b := (0x22 :: (c ++ [0x22])).length - 1) rfl (by simp; omega)]
      rfl
    rw [e3]; rfl
  rw [e]; rfl

/-- After the backslash. -/
theorem after_escape (acc : List UInt8) (b : UInt8) (ht : text = u ++ 0x5c :: b :: r) (hl : text.length ≤ isizeMax) :
    inner text ⟨.stringEscape, u.length + 1, none, acc⟩ = (text, fin ⟨.stringEscape, u.length + 1, none, acc⟩
      (match simple b with
      | some v => some (⟨.string (u.length + 2), u.length + 2, none, base acc u ++ [v]⟩, none)
      | none =>
        if b = 0x75 then some (⟨.stringEscapeUnicode (u.length + 2), u.length + 2, none, acc⟩, none)
        else some (⟨.string (u.length + 2), u.length + 2, none, base acc u ++ [b]⟩, some (.error (.stringEscapeUnknown b))))) := by
  have hu := isize_usize _ hl
  have hlen : text.length = u.length + (r.length + 1 + 1) := by rw [ht]; simp
  rw [inner_none rfl]
  have e0 : request ⟨.stringEscape, u.length + 1, none, acc⟩ = some (.map (u.length + 1 + 1) none) := by
    show (strictAdd (u.length + 1) 1).map _ = _
    rw [strictAdd_ok (by omega)]; rfl
  unfold pureStep
  rw [e0]
  simp only []
  rw [if_pos (by omega)]
  show (text, fin _ (advanceEscape _ _)) = _
  unfold advanceEscape
  simp only []
  rw [strictAdd_ok (by omega)]
  have e1 : text[u.length + 1]? = some b := by
    rw [show text = (u ++ [0x5c]) ++ b :: r by rw [ht]; simp]
    exact getElem_at (by simp)
  rw [e1]
  simp only [Option.bind_eq_bind, Option.bind_some, escapeByte_eq]
  rw [strictSub_ok (by omega), show u.length + 1 + 1 - 2 = u.length by omega]
  simp only [Option.bind_some]
  rw [show upTo text u.length = some u by rw [ht]; exact upTo_left]
  simp only [Option.bind_some]
  rfl

theorem escape_waits (acc : List UInt8) (ht : text = u ++ [0x5c]) (hl : text.length ≤ isizeMax) :
    inner text ⟨.stringEscape, u.length + 1, none, acc⟩ = (text, ⟨.stringEscape, u.length + 1, none, acc⟩, .wait) := by
  have hu := isize_usize _ hl
  have hlen : text.length = u.length + 1 := by rw [ht]; simp
  rw [inner_none rfl]
  have e0 : request ⟨.stringEscape, u.length + 1, none, acc⟩ = some (.map (u.length + 1 + 1) none) := by
    show (strictAdd (u.length + 1) 1).map _ = _
    rw [strictAdd_ok (by omega)]; rfl
  unfold pureStep
  rw [e0]
  simp only []
  rw [if_neg (by omega)]

/-! ### Codes -/

theorem unicode_request (acc : List UInt8) (n i : Nat) (h : n + 4 ≤ usizeMax) : request ⟨.stringEscapeUnicode n, i, none, acc⟩ =
    some (.mapWhile (some (n + 4)) fun _ b => isHex b) := by
  show (strictAdd n 4).map _ = _
  rw [strictAdd_ok h]; rfl

theorem short_step (acc hs : List UInt8) (b : UInt8) (ht : text = u ++ (escaped hs ++ b :: r)) (hl : text.length ≤ isizeMax) (h4 : hs.length < 4)
    (hx : ∀ b ∈ hs, Hex b) (hb : ¬ Hex b) :
    inner text ⟨.stringEscapeUnicode (u.length + 2), u.length + 2, none, acc⟩ =
      (text, ⟨.string (u.length + 2 + hs.length), u.length + 2 + hs.length, none, base acc u ++ utf8 0xfffd⟩, .tell (.error .stringEscapeInvalid)) := by
  have hu := isize_usize _ hl
  have ht2 : text = (u ++ [0x5c, 0x75]) ++ (hs ++ b :: r) := by rw [ht]; simp [escaped]
  have hlen : text.length = u.length + 2 + (hs.length + (r.length + 1)) := by rw [ht2]; simp; omega
  have hul : (u ++ [0x5c, 0x75]).length = u.length + 2 := by simp
  rw [inner_none rfl]
  have := while_stop (u := u ++ [0x5c, 0x75]) (mid := hs) (b := b) (rest := r) (d := ⟨.stringEscapeUnicode (u.length + 2), u.length + 2, none, acc⟩)
    (unicode_request acc _ _ (by omega)) hul.symm (all_getElem fun b hb => (isHex_iff b).mpr (hx b hb)) ((not_true_iff (isHex_iff b)).mpr hb)
    (by simp only [Option.getD_some]; omega)
  rw [← ht2, hul] at this
  rw [this]
  have e : handle ⟨.stringEscapeUnicode (u.length + 2), u.length + 2 + hs.length, none, acc⟩ text =
      some (⟨.string (u.length + 2 + hs.length), u.length + 2 + hs.length, none, base acc u ++ utf8 0xfffd⟩, some (.error .stringEscapeInvalid)) := by
    show advanceUnicode _ _ _ = _
    unfold advanceUnicode
    rw [strictAdd_ok (by omega)]
    simp only [Option.bind_eq_bind, Option.bind_some]
    rw [if_pos (by omega), push_eq ht rfl]
    rfl
  rw [e]; rfl

theorem short_waits (acc hs : List UInt8) (ht : text = u ++ escaped hs) (hl : text.length ≤ isizeMax) (h4 : hs.length < 4)
    (hx : ∀ b ∈ hs, Hex b) :
    inner text ⟨.stringEscapeUnicode (u.length + 2), u.length + 2, none, acc⟩ =
      (text, ⟨.stringEscapeUnicode (u.length + 2), text.length, none, acc⟩, .wait) := by
  have hu := isize_usize _ hl
  have ht2 : text = (u ++ [0x5c, 0x75]) ++ hs := by rw [ht]; simp [escaped]
  have hlen : text.length = u.length + 2 + hs.length := by rw [ht2]; simp; omega
  have hul : (u ++ [0x5c, 0x75]).length = u.length + 2 := by simp
  rw [inner_none rfl]
  have := while_end (u := u ++ [0x5c, 0x75]) (mid := hs) (d := ⟨.stringEscapeUnicode (u.length + 2), u.length + 2, none, acc⟩)
    (unicode_request acc _ _ (by omega)) hul.symm (all_getElem fun b hb => (isHex_iff b).mpr (hx b hb)) (by simp only [Option.getD_some]; omega)
  rw [← ht2, hul] at this
  rw [this, hlen]

/-- The four digits of a code. -/
theorem code_step (acc h : List UInt8) (ht : text = u ++ (escaped h ++ r)) (hl : text.length ≤ isizeMax) (hh : Hex4 h) :
    inner text ⟨.stringEscapeUnicode (u.length + 2), u.length + 2, none, acc⟩ =
      (text, fin ⟨.stringEscapeUnicode (u.length + 2), u.length + 6, none, acc⟩
        (if 0xd800 ≤ value h ∧ value h ≤ 0xdbff then some (⟨.stringEscapeUnicodeTrail (u.length + 6) (value h), u.length + 6, none, acc⟩, none)
        else if 0xdc00 ≤ value h ∧ value h ≤ 0xdfff then
          some (⟨.string (u.length + 6), u.length + 6, none, base acc u ++ utf8 0xfffd⟩, some (.error (.stringEscapeUnpairedTrailSurrogate (value h))))
        else some (⟨.string (u.length + 6), u.length + 6, none, base acc u ++ utf8 (value h)⟩, none))) := by
  have hu := isize_usize _ hl
  have ht2 : text = (u ++ [0x5c, 0x75]) ++ (h ++ r) := by rw [ht]; simp [escaped]
  have h4 : h.length = 4 := hh.1
  have hlen : text.length = u.length + 2 + (h.length + r.length) := by rw [ht2]; simp; omega
  have hul : (u ++ [0x5c, 0x75]).length = u.length + 2 := by simp
  rw [inner_none rfl]
  have := while_max (u := u ++ [0x5c, 0x75]) (mid := h) (rest := r) (d := ⟨.stringEscapeUnicode (u.length + 2), u.length + 2, none, acc⟩)
    (by rw [hul, h4]; exact unicode_request acc _ _ (by omega)) hul.symm (all_getElem fun b hb => (isHex_iff b).mpr (hh.2 b hb))
  rw [← ht2, hul, h4] at this
  rw [this]
  have hv := value_lt hh
  have e : handle ⟨.stringEscapeUnicode (u.length + 2), u.length + 2 + 4, none, acc⟩ text =
      (if 0xd800 ≤ value h ∧ value h ≤ 0xdbff then some (⟨.stringEscapeUnicodeTrail (u.length + 6) (value h), u.length + 6, none, acc⟩, none)
        else if 0xdc00 ≤ value h ∧ value h ≤ 0xdfff then
          some (⟨.string (u.length + 6), u.length + 6, none, base acc u ++ utf8 0xfffd⟩, some (.error (.stringEscapeUnpairedTrailSurrogate (value h))))
        else some (⟨.string (u.length + 6), u.length + 6, none, base acc u ++ utf8 (value h)⟩, none)) := by
    show advanceUnicode _ _ _ = _
    unfold advanceUnicode
    rw [strictAdd_ok (by omega)]
    simp only [Option.bind_eq_bind, Option.bind_some]
    rw [if_neg (by simp), unicode_eq hh ht2 hul.symm]
    simp only [Option.bind_some]
    by_cases c1 : 0xd800 ≤ value h ∧ value h ≤ 0xdbff
    · rw [if_pos c1, if_pos c1]
    · rw [if_neg c1, if_neg c1]
      by_cases c2 : 0xdc00 ≤ value h ∧ value h ≤ 0xdfff
      · rw [if_pos c2, if_pos c2, push_eq ht (idx := u.length + 2 + 4) rfl]
        rfl
      · rw [if_neg c2, if_neg c2, char_eq (by omega)]
        simp only [Option.bind_some]
        rw [push_eq ht (idx := u.length + 2 + 4) rfl]
        rfl
  rw [e]

/-! ### After a lead surrogate -/

theorem trail_request (acc : List UInt8) (n i lead : Nat) (h : n + 6 ≤ usizeMax) (hi : n ≤ i) :
    request ⟨.stringEscapeUnicodeTrail n lead, i, none, acc⟩ = some (.mapWhile (some (n + 6)) fun i b => isTrailByte (i - n) b) := by
  show (if n ≤ i then (strictAdd n 6).map _ else none) = _
  rw [if_pos hi, strictAdd_ok h]; rfl

/-- The bytes match the beginning of an escaped code. -/
def Matches (m : List UInt8) : Prop := ∀ i (h : i < m.length), isTrailByte i m[i] = true

/-- What comes next matches, or does not. -/
theorem matches_cases : ∀ v : List UInt8, (v.length < 6 ∧ Matches v) ∨ (∃ m v', m.length = 6 ∧ Matches m ∧ v = m ++ v')
    ∨ ∃ m b v', m.length < 6 ∧ Matches m ∧ v = m ++ b :: v' ∧ isTrailByte m.length b = false := by
  have key : ∀ (n : Nat) (v : List UInt8), (v.length < n ∧ Matches v) ∨ (∃ m v', m.length = n ∧ Matches m ∧ v = m ++ v')
      ∨ ∃ m b v', m.length < n ∧ Matches m ∧ v = m ++ b :: v' ∧ isTrailByte m.length b = false := by
    intro n v
    induction n with
    | zero => exact .inr (.inl ⟨[], v, rfl, fun i h => absurd h (by simp), rfl⟩)
    | succ n ih =>
      rcases ih with ⟨h1, h2⟩ | ⟨m, v', h1, h2, h3⟩ | ⟨m, b, v', h1, h2, h3, h4⟩
      · exact .inl ⟨by omega, h2⟩
      · cases v' with
        | nil => exact .inl (by rw [h3, List.append_nil]; exact ⟨by omega, h2⟩)
        | cons b v' =>
          cases hb : isTrailByte m.length b with
          | false => exact .inr (.inr ⟨m, b, v', by omega, h2, h3, hb⟩)
          | true =>
            refine .inr (.inl ⟨m ++ [b], v', by simp [h1], ?_, by rw [h3]; simp⟩)
            intro i hi
            by_cases hm : i < m.length
            · rw [List.getElem_append_left hm]; exact h2 i hm
            · have : i = m.length := by simp at hi; omega
              subst this
              rw [List.getElem_append_right (Nat.le_refl _)]
              simpa using hb
      · exact .inr (.inr ⟨m, b, v', by omega, h2, h3, h4⟩)
  exact key 6

theorem matches_six {m : List UInt8} (hl : m.length = 6) (h : Matches m) : ∃ h4, Hex4 h4 ∧ m = escaped h4 := by
  match m, hl with
  | [x0, x1, x2, x3, x4, x5], _ =>
    have h0 := h 0 (by simp)
    have h1 := h 1 (by simp)
    have h2 := h 2 (by simp)
    have h3 := h 3 (by simp)
    have h4 := h 4 (by simp)
    have h5 := h 5 (by simp)
    simp only [isTrailByte, List.getElem_cons_zero, List.getElem_cons_succ, decide_eq_true_eq, isHex_iff] at h0 h1 h2 h3 h4 h5
    refine ⟨[x2, x3, x4, x5], ⟨rfl, ?_⟩, by rw [h0, h1]; rfl⟩
    intro b hb
    simp only [List.mem_cons, List.not_mem_nil, or_false] at hb
    rcases hb with rfl | rfl | rfl | rfl <;> assumption

theorem six_matches {h : List UInt8} (hh : Hex4 h) : Matches (escaped h) := by
  obtain ⟨a, b, c, d, rfl, h1, h2, h3, h4⟩ := hex4_cases hh
  intro i hi
  match i, hi with
  | 0, _ => rfl
  | 1, _ => rfl
  | 2, _ => exact (isHex_iff a).mpr h1
  | 3, _ => exact (isHex_iff b).mpr h2
  | 4, _ => exact (isHex_iff c).mpr h3
  | 5, _ => exact (isHex_iff d).mpr h4

theorem matches_take {m n : List UInt8} (h : Matches (m ++ n)) : Matches m := by
  intro i hi
  have := h i (by simp; omega)
  rwa [List.getElem_append_left hi] at this

theorem opens_matches {v : List UInt8} (h : Opens v) : v.length < 6 ∧ Matches v := by
  obtain ⟨w, h, hw, hh, he⟩ := h
  refine ⟨?_, matches_take (n := w) (by rw [he]; exact six_matches hh)⟩
  have := congrArg List.length he
  have := List.length_pos_iff.mpr hw
  have := hh.1
  simp only [List.length_append, escaped, List.length_cons] at *
  omega

/-- Short matches are beginnings. -/
theorem matches_opens {v : List UInt8} (hl : v.length < 6) (h : Matches v) : Opens v := by
  have fill : ∀ (k : Nat) (v : List UInt8), v.length + k = 6 → Matches v → ∃ w, w.length = k ∧ Matches (v ++ w) := by
    intro k
    induction k with
    | zero => intro v _ h; exact ⟨[], rfl, by rwa [List.append_nil]⟩
    | succ k ih =>
      intro v hv h
      have hx : ∃ b, isTrailByte v.length b = true := by
        match v.length, (show v.length < 6 by omega) with
        | 0, _ => exact ⟨0x5c, rfl⟩
        | 1, _ => exact ⟨0x75, rfl⟩
        | 2, _ => exact ⟨0x30, rfl⟩
        | 3, _ => exact ⟨0x30, rfl⟩
        | 4, _ => exact ⟨0x30, rfl⟩
        | 5, _ => exact ⟨0x30, rfl⟩
      obtain ⟨b, hb⟩ := hx
      obtain ⟨w, h1, h2⟩ := ih (v ++ [b]) (by simp; omega) (by
        intro i hi
        by_cases hm : i < v.length
        · rw [List.getElem_append_left hm]; exact h i hm
        · have : i = v.length := by simp at hi; omega
          subst this
          rw [List.getElem_append_right (Nat.le_refl _)]
          simpa using hb)
      exact ⟨b :: w, by simp [h1], by simpa using h2⟩
  obtain ⟨w, h1, h2⟩ := fill (6 - v.length) v (by omega) h
  obtain ⟨h4, h5, h6⟩ := matches_six (by simp; omega) h2
  exact ⟨w, h4, by intro hc; rw [hc] at h1; simp at h1; omega, h5, h6⟩

theorem trail_pred {w : List UInt8} {m : List UInt8} (h : Matches m) :
    ∀ i (hi : i < m.length), (fun i b => isTrailByte (i - w.length) b) (w.length + i) m[i] = true := by
  intro i hi
  simp only [Nat.add_sub_cancel_left]
  exact h i hi

theorem trail_mismatch (acc : List UInt8) (lead : Nat) (e m : List UInt8) (b : UInt8) (v : List UInt8) (he : e.length = 6)
    (ht : text = u ++ (e ++ (m ++ b :: v))) (hl : text.length ≤ isizeMax) (h6 : m.length < 6) (hm : Matches m) (hb : isTrailByte m.length b = false) :
    inner text ⟨.stringEscapeUnicodeTrail (u.length + 6) lead, u.length + 6, none, acc⟩ =
      (text, ⟨.string (u.length + 6), u.length + 6, none, base acc u ++ utf8 0xfffd⟩, .tell (.error (.stringEscapeUnpairedLeadSurrogate lead))) := by
  have hu := isize_usize _ hl
  have ht2 : text = (u ++ e) ++ (m ++ b :: v) := by rw [ht]; simp
  have hlen : text.length = u.length + 6 + (m.length + (v.length + 1)) := by rw [ht2]; simp [he]; omega
  have hul : (u ++ e).length = u.length + 6 := by simp [he]
  rw [inner_none rfl]
  have := while_stop (u := u ++ e) (mid := m) (b := b) (rest := v) (d := ⟨.stringEscapeUnicodeTrail (u.length + 6) lead, u.length + 6, none, acc⟩)
    (trail_request acc _ _ lead (by omega) (Nat.le_refl _)) hul.symm (by rw [← hul]; exact trail_pred hm)
    (by rw [hul, Nat.add_sub_cancel_left]; exact hb) (by simp only [Option.getD_some]; omega)
  rw [← ht2, hul] at this
  rw [this]
  have e : handle ⟨.stringEscapeUnicodeTrail (u.length + 6) lead, u.length + 6 + m.length, none, acc⟩ text =
      some (⟨.string (u.length + 6), u.length + 6, none, base acc u ++ utf8 0xfffd⟩, some (.error (.stringEscapeUnpairedLeadSurrogate lead))) := by
    show advanceTrail _ _ _ _ = _
    unfold advanceTrail
    rw [strictAdd_ok (by omega)]
    simp only [Option.bind_eq_bind, Option.bind_some]
    rw [if_pos (by omega), push_eq ht rfl]
    rfl
  rw [e]; rfl

theorem trail_waits (acc : List UInt8) (lead : Nat) (e m : List UInt8) (he : e.length = 6)
    (ht : text = u ++ (e ++ m)) (hl : text.length ≤ isizeMax) (h6 : m.length < 6) (hm : Matches m) :
    inner text ⟨.stringEscapeUnicodeTrail (u.length + 6) lead, u.length + 6, none, acc⟩ =
      (text, ⟨.stringEscapeUnicodeTrail (u.length + 6) lead, text.length, none, acc⟩, .wait) := by
  have hu := isize_usize _ hl
  have ht2 : text = (u ++ e) ++ m := by rw [ht]; simp
  have hlen : text.length = u.length + 6 + m.length := by rw [ht2]; simp [he]; omega
  have hul : (u ++ e).length = u.length + 6 := by simp [he]
  rw [inner_none rfl]
  have := while_end (u := u ++ e) (mid := m) (d := ⟨.stringEscapeUnicodeTrail (u.length + 6) lead, u.length + 6, none, acc⟩)
    (trail_request acc _ _ lead (by omega) (Nat.le_refl _)) hul.symm (by rw [← hul]; exact trail_pred hm)
    (by simp only [Option.getD_some]; omega)
  rw [← ht2, hul] at this
  rw [this, hlen]

theorem trail_step (acc : List UInt8) (lead : Nat) (e h : List UInt8) (he : e.length = 6) (hlead : 0xd800 ≤ lead ∧ lead ≤ 0xdbff)
    (ht : text = u ++ (e ++ (escaped h ++ r))) (hl : text.length ≤ isizeMax) (hh : Hex4 h) :
    inner text ⟨.stringEscapeUnicodeTrail (u.length + 6) lead, u.length + 6, none, acc⟩ =
      (text, fin ⟨.stringEscapeUnicodeTrail (u.length + 6) lead, u.length + 12, none, acc⟩
        (if 0xd800 ≤ value h ∧ value h ≤ 0xdbff then
          some (⟨.stringEscapeUnicodeTrail (u.length + 12) (value h), u.length + 12, none, base acc u ++ utf8 0xfffd⟩,
            some (.error (.stringEscapeUnpairedLeadSurrogate lead)))
        else if 0xdc00 ≤ value h ∧ value h ≤ 0xdfff then
          some (⟨.string (u.length + 12), u.length + 12, none, base acc u ++ utf8 (paired lead (value h))⟩, none)
        else some (⟨.string (u.length + 12), u.length + 12, none, base acc u ++ utf8 0xfffd ++ utf8 (value h)⟩,
            some (.error (.stringEscapeUnpairedLeadSurrogate lead))))) := by
  have hu := isize_usize _ hl
  have ht2 : text = (u ++ e) ++ (escaped h ++ r) := by rw [ht]; simp
  have ht3 : text = (u ++ e ++ [0x5c, 0x75]) ++ (h ++ r) := by rw [ht]; simp [escaped]
  have h4 : h.length = 4 := hh.1
  have h6 : (escaped h).length = 6 := by simp [escaped, h4]
  have hlen : text.length = u.length + 6 + (6 + r.length) := by rw [ht2, List.length_append, List.length_append, List.length_append, h6, he]
  have hul : (u ++ e).length = u.length + 6 := by simp [he]
  rw [inner_none rfl]
  have := while_max (u := u ++ e) (mid := escaped h) (rest := r) (d := ⟨.stringEscapeUnicodeTrail (u.length + 6) lead, u.length + 6, none, acc⟩)
    (by rw [hul, h6]; exact trail_request acc _ _ lead (by omega) (Nat.le_refl _)) hul.symm (by rw [← hul]; exact trail_pred (six_matches hh))
  rw [← ht2, hul, h6] at this
  rw [this]
  have hv := value_lt hh
  have e : handle ⟨.stringEscapeUnicodeTrail (u.length + 6) lead, u.length + 6 + 6, none, acc⟩ text =
      (if 0xd800 ≤ value h ∧ value h ≤ 0xdbff then
          some (⟨.stringEscapeUnicodeTrail (u.length + 12) (value h), u.length + 12, none, base acc u ++ utf8 0xfffd⟩,
            some (.error (.stringEscapeUnpairedLeadSurrogate lead)))
        else if 0xdc00 ≤ value h ∧ value h ≤ 0xdfff then
          some (⟨.string (u.length + 12), u.length + 12, none, base acc u ++ utf8 (paired lead (value h))⟩, none)
        else some (⟨.string (u.length + 12), u.length + 12, none, base acc u ++ utf8 0xfffd ++ utf8 (value h)⟩,
            some (.error (.stringEscapeUnpairedLeadSurrogate lead)))) := by
    show advanceTrail _ _ _ _ = _
    unfold advanceTrail
    rw [strictAdd_ok (by omega)]
    simp only [Option.bind_eq_bind, Option.bind_some]
    rw [if_neg (by simp), unicode_eq hh ht3 (by simp [he])]
    simp only [Option.bind_some]
    by_cases c1 : 0xd800 ≤ value h ∧ value h ≤ 0xdbff
    · rw [if_pos c1, if_pos c1, push_eq ht (idx := u.length + 6 + 6) rfl]
      rfl
    · rw [if_neg c1, if_neg c1]
      by_cases c2 : 0xdc00 ≤ value h ∧ value h ≤ 0xdfff
      · rw [if_pos c2, if_pos c2, strictSub_ok hlead.1, Option.bind_some, paired_eq hlead.1 hlead.2 c2.1 c2.2, Option.bind_some]
        generalize paired lead (value h) = n
        rw [push_eq ht (idx := u.length + 6 + 6) rfl]
        rfl
      · rw [if_neg c2, if_neg c2, push_eq ht (idx := u.length + 6 + 6) rfl]
        simp only [Option.bind_some]
        rw [char_eq (by omega)]
        simp only [Option.bind_some]
        rw [push_eq ht2 (by simp only [hul])]
        have hb : base (base acc u ++ String.utf8EncodeChar replacement) (u ++ e) = base acc u ++ utf8 0xfffd := by
          have : (base acc u ++ String.utf8EncodeChar replacement).length ≠ 0 := by
            have : 0 < (String.utf8EncodeChar replacement).length := by decide
            simp only [List.length_append]; omega
          show (if _ then _ else _) = _
          rw [if_neg this]; rfl
        simp only [Option.bind_some]
        rw [hb]
        rfl
  rw [e]

end

end Verif.Json.Bytes
