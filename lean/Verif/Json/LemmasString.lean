import Verif.Json.LemmasToken
/-! # Lemmas about the JSON tokenizer: strings -/
namespace Verif.Json

variable {fl : BitVec 32} {t t' : Tokenizer} {l : List Char} {e es evs : List Ev} {acc as : List Char}

/-! ## Hexadecimal digits -/

theorem hex_cases {c : Char} (h : isHex c = true) : (48 ≤ c.toNat ∧ c.toNat ≤ 57) ∨ (97 ≤ c.toNat ∧ c.toNat ≤ 102)
    ∨ (65 ≤ c.toNat ∧ c.toNat ≤ 70) := by
  simp only [isHex, isDigit, Bool.or_eq_true, decide_eq_true_eq] at h
  rcases h with (h | h) | h
  · exact .inl h
  · exact .inr (.inl h)
  · exact .inr (.inr h)

theorem toNat_consts : '0'.toNat = 48 ∧ '9'.toNat = 57 ∧ 'F'.toNat = 70 ∧ 'A'.toNat = 65 ∧ 'a'.toNat = 97 := by decide

theorem hexDigit_lt {c : Char} (h : isHex c = true) : hexDigit c < 16 := by
  obtain ⟨h0, h9, hF, hA, ha⟩ := toNat_consts
  unfold hexDigit
  rw [h0, h9, hF, hA, ha]
  have := hex_cases h
  split
  · omega
  · split <;> omega

theorem toDigit_hex {c : Char} (h : isHex c = true) : toDigit 16 c = some (hexDigit c) := by
  obtain ⟨h0, h9, hF, hA, ha⟩ := toNat_consts
  have hl := hexDigit_lt h
  unfold hexDigit at hl ⊢
  unfold toDigit
  rw [h0, h9, hF, hA, ha] at *
  rcases hex_cases h with h | h | h
  · rw [if_pos h, if_pos (by omega)]
    simp only; rw [if_pos (by omega)]
  · rw [if_neg (by omega), if_pos (by omega), if_neg (by omega), if_neg (by omega)]
    simp only; rw [if_pos (by omega)]
  · rw [if_neg (by omega), if_neg (by omega), if_pos (by omega), if_neg (by omega), if_pos (by omega)]
    simp only; rw [if_pos (by omega)]

theorem hexVal_snoc (h : List Char) (c : Char) : hexVal (h ++ [c]) = 16 * hexVal h + hexDigit c := by
  unfold hexVal
  rw [List.foldl_append]
  rfl

theorem hexVal_lt : ∀ {n : Nat} {h : List Char}, Hexs n h → hexVal h < 16 ^ n := by
  intro n
  induction n with
  | zero =>
    rintro h ⟨h1, _⟩
    rw [List.length_eq_zero_iff] at h1
    subst h1; decide
  | succ n ih =>
    rintro h ⟨h1, h2⟩
    have hn : h ≠ [] := by rintro rfl; cases h1
    obtain ⟨g, c, rfl⟩ : ∃ g c, h = g ++ [c] := ⟨h.dropLast, h.getLast hn, (List.dropLast_concat_getLast hn).symm⟩
    rw [hexVal_snoc]
    have := ih (h := g) ⟨by simp at h1; omega, fun d hd => h2 d (by simp [hd])⟩
    have := hexDigit_lt (h2 c (by simp))
    rw [Nat.pow_succ]
    omega

theorem shift_eq (v d : Nat) (hv : v < 4096) (hd : d < 16) :
    BitVec.ofNat 32 v <<< 4 ||| BitVec.ofNat 32 d = BitVec.ofNat 32 (16 * v + d) := by
  apply BitVec.eq_of_toNat_eq
  rw [BitVec.toNat_or, BitVec.toNat_shiftLeft, BitVec.toNat_ofNat, BitVec.toNat_ofNat, BitVec.toNat_ofNat,
    Nat.mod_eq_of_lt (by omega : v < 2 ^ 32), Nat.mod_eq_of_lt (by omega : d < 2 ^ 32)]
  have h1 : v <<< 4 = 16 * v := by rw [Nat.shiftLeft_eq]; omega
  rw [Nat.mod_eq_of_lt (by omega), Nat.mod_eq_of_lt (by omega), ← Nat.shiftLeft_add_eq_or_of_lt (by omega : d < 2 ^ 4), h1]

theorem fromU32_toNat (c : Char) : fromU32 c.toNat = some c := by
  have hv : c.toNat.isValidChar := c.valid
  unfold fromU32
  rw [dif_pos hv]
  rfl

theorem fromU32_some {n : Nat} (h : n < 0xd800 ∨ (0xdfff < n ∧ n < 0x110000)) : ∃ c : Char, fromU32 n = some c ∧ c.toNat = n := by
  have hv : n.isValidChar := h
  refine ⟨Char.ofNatAux n hv, ?_, ?_⟩
  · unfold fromU32; rw [dif_pos hv]
  · simp [Char.toNat, Char.ofNatAux]

/-! ## Steps -/

/-- A character that is not part of an escape sequence. -/
theorem char_handle (v : Char) : (⟨fl, .string, acc, as, []⟩ : Tokenizer).handle (some v)
    = Tokenizer.advanceChar ⟨fl, .string, acc, as, []⟩ v := rfl

/-- An error, and then the character as if there was no escape sequence. -/
theorem fallback {c : Char} {x : Ev} (h : t.handle (some c) = .say x (t'.handle (some c))) (hf : t'.flags = t.flags)
    (hr : Ran t' (c :: l) evs) : Ran t (c :: l) (x :: evs) := by
  cases hr with
  | more _ _ e t2 _ es h1 h2 h3 =>
    refine .more _ _ (x :: e) t2 _ es ?_ (h2.trans hf) h3
    unfold Tokenizer.advance at h1 ⊢
    rw [h]
    simp only [Run.say] at h1 ⊢
    split at h1
    · cases h1
    · cases h1; rfl
    · rename_i h4
      simp only [Run.mk.injEq] at h1 ⊢
      exact ⟨by rw [← h1.1]; rfl, h1.2⟩

theorem trail_short {lead trail : BitVec 32} {num d : Nat} {v : Char} (h : toDigit 16 v = some d) (hn : num < 3) :
    t.advanceTrail lead num trail v
      = .ret ({ t.raw v with state := .stringSurrogateUnicode lead (num + 1) (trail <<< 4 ||| BitVec.ofNat 32 d) }, none) := by
  unfold Tokenizer.advanceTrail
  rw [h]
  exact if_pos hn

theorem trail_handle (lead trail : BitVec 32) (num : Nat) (v : Char) :
    (⟨fl, .stringSurrogateUnicode lead num trail, acc, as, []⟩ : Tokenizer).handle (some v)
    = if isHex v then Tokenizer.advanceTrail ⟨fl, .stringSurrogateUnicode lead num trail, acc, as, []⟩ lead num trail v
      else .say (.err .stringEscapeIncomplete) <| Tokenizer.advanceChar ⟨fl, .string, acc, as, []⟩ v := rfl

theorem hex_loop : ∀ (h g acc : List Char), Hexs g.length g → Hexs h.length h → g.length + h.length < 4 →
    Ran ⟨fl, .stringUnicode (g.length + h.length) (BitVec.ofNat 32 (hexVal (g ++ h))), acc ++ h, as, []⟩ l evs →
    Ran ⟨fl, .stringUnicode g.length (BitVec.ofNat 32 (hexVal g)), acc, as, []⟩ (h ++ l) evs
  | [], g, acc, _, _, _, hr => by simpa using hr
  | c :: h, g, acc, hg, hh, hl, hr => by
    simp only [List.length_cons] at hl
    have hc := hh.2 c (by simp)
    have hv := hexVal_lt hg
    have : hexVal g < 4096 := Nat.lt_of_lt_of_le hv (by
      have := Nat.pow_le_pow_right (n := 16) (by decide) (show g.length ≤ 3 by omega); simpa using this)
    have ih := hex_loop h (g ++ [c]) (acc ++ [c]) ⟨rfl, fun d hd => by
        simp only [List.mem_append, List.mem_singleton] at hd
        rcases hd with hd | rfl
        · exact hg.2 d hd
        · exact hc⟩ ⟨rfl, fun d hd => hh.2 d (by simp [hd])⟩ (by simp; omega)
      (by simp only [List.append_assoc, List.singleton_append, List.length_append, List.length_cons] at hr ⊢
          rw [show g.length + ([].length + 1) + h.length = g.length + (h.length + 1) by simp; omega]; exact hr)
    refine Ran.step0 ?_ (by rfl) ih
    show (if isHex c = true then _ else _) = _
    rw [if_pos hc]
    unfold Tokenizer.advanceUnicode
    rw [toDigit_hex hc]
    simp only
    rw [if_pos (by omega), shift_eq _ _ this (hexDigit_lt hc), ← hexVal_snoc]
    simp [Tokenizer.raw]

theorem trail_loop (lead : BitVec 32) : ∀ (h g acc : List Char), Hexs g.length g → Hexs h.length h → g.length + h.length < 4 →
    Ran ⟨fl, .stringSurrogateUnicode lead (g.length + h.length) (BitVec.ofNat 32 (hexVal (g ++ h))), acc ++ h, as, []⟩ l evs →
    Ran ⟨fl, .stringSurrogateUnicode lead g.length (BitVec.ofNat 32 (hexVal g)), acc, as, []⟩ (h ++ l) evs
  | [], g, acc, _, _, _, hr => by simpa using hr
  | c :: h, g, acc, hg, hh, hl, hr => by
    simp only [List.length_cons] at hl
    have hc := hh.2 c (by simp)
    have hv := hexVal_lt hg
    have : hexVal g < 4096 := Nat.lt_of_lt_of_le hv (by
      have := Nat.pow_le_pow_right (n := 16) (by decide) (show g.length ≤ 3 by omega); simpa using this)
    have ih := trail_loop lead h (g ++ [c]) (acc ++ [c]) ⟨rfl, fun d hd => by
        simp only [List.mem_append, List.mem_singleton] at hd
        rcases hd with hd | rfl
        · exact hg.2 d hd
        · exact hc⟩ ⟨rfl, fun d hd => hh.2 d (by simp [hd])⟩ (by simp; omega)
      (by simp only [List.append_assoc, List.singleton_append, List.length_append, List.length_cons] at hr ⊢
          rw [show g.length + ([].length + 1) + h.length = g.length + (h.length + 1) by simp; omega]; exact hr)
    refine Ran.step0 ?_ (by rfl) ih
    rw [trail_handle, if_pos hc, trail_short (toDigit_hex hc) (by omega), shift_eq _ _ this (hexDigit_lt hc), ← hexVal_snoc]
    simp [Tokenizer.raw]

theorem split4 {h : List Char} (hh : Hexs 4 h) : ∃ g c, h = g ++ [c] ∧ g.length = 3 ∧ Hexs g.length g ∧ isHex c = true := by
  obtain ⟨h1, h2⟩ := hh
  have hn : h ≠ [] := by rintro rfl; cases h1
  refine ⟨h.dropLast, h.getLast hn, (List.dropLast_concat_getLast hn).symm, by simp; omega,
    ⟨rfl, fun d hd => h2 d (List.dropLast_subset _ hd)⟩, h2 _ (List.getLast_mem hn)⟩

/-- Less than four digits. -/
theorem unicode_short {n : Nat} {h : List Char} (hn : n < 4) (hh : Hexs n h)
    (hr : Ran ⟨fl, .stringUnicode n (BitVec.ofNat 32 (hexVal h)), acc ++ '\\' :: 'u' :: h, as, []⟩ l evs) :
    Ran ⟨fl, .string, acc, as, []⟩ ('\\' :: 'u' :: (h ++ l)) evs := by
  obtain ⟨rfl, h2⟩ := hh
  refine Ran.step0 (t' := ⟨fl, .stringEscape, acc ++ ['\\'], as, []⟩) rfl rfl ?_
  refine Ran.step0 (t' := ⟨fl, .stringUnicode 0 0, acc ++ ['\\'] ++ ['u'], as, []⟩) rfl rfl ?_
  exact hex_loop h [] (acc ++ ['\\'] ++ ['u']) ⟨rfl, fun _ h => by cases h⟩ ⟨rfl, h2⟩ (by simpa using hn) (by simpa using hr)

/-- The fourth digit. -/
theorem unicode_full {h : List Char} (hh : Hexs 4 h) (t2 : Tokenizer)
    (hs : ∀ g c, h = g ++ [c] → g.length = 3 → isHex c = true →
      (if (BitVec.ofNat 32 (hexVal h)).toNat ≥ 0xd800 ∧ (BitVec.ofNat 32 (hexVal h)).toNat ≤ 0xdbff then
        Run.ret (⟨fl, .stringSurrogate (BitVec.ofNat 32 (hexVal h)), acc ++ '\\' :: 'u' :: h, as, []⟩, none)
      else if (BitVec.ofNat 32 (hexVal h)).toNat ≥ 0xdc00 ∧ (BitVec.ofNat 32 (hexVal h)).toNat ≤ 0xdfff then
        .say (.err .stringSurrogateUnpaired) <| .ret (⟨fl, .string, acc ++ '\\' :: 'u' :: h, as, []⟩, none)
      else
        match fromU32 (BitVec.ofNat 32 (hexVal h)).toNat with
        | none => .panic
        | some c => .ret (⟨fl, .string, acc ++ '\\' :: 'u' :: h, as ++ [c], []⟩, none) : Run (Tokenizer × Option Char)) = ⟨e, some (t2, none)⟩)
    (hf : t2.flags = fl) (hr : Ran t2 l evs) :
    Ran ⟨fl, .string, acc, as, []⟩ ('\\' :: 'u' :: (h ++ l)) (e ++ evs) := by
  obtain ⟨g, c, rfl, hg3, hg, hc⟩ := split4 hh
  rw [List.append_assoc]
  have hv := hexVal_lt hg
  rw [hg3] at hv
  refine unicode_short (n := 3) (by decide) ⟨hg3, hg.2⟩ ?_
  refine Ran.step ?_ hf hr
  rw [← hs g c rfl hg3 hc]
  show (if isHex c = true then _ else _) = _
  rw [if_pos hc]
  unfold Tokenizer.advanceUnicode
  rw [toDigit_hex hc]
  simp only
  rw [if_neg (by decide), shift_eq _ _ hv (hexDigit_lt hc), ← hexVal_snoc]
  simp only [Tokenizer.raw, Tokenizer.str, List.append_assoc, List.cons_append]
  rfl

theorem toNat_hex {n : Nat} {h : List Char} (hn : n ≤ 4) (hh : Hexs n h) : (BitVec.ofNat 32 (hexVal h)).toNat = hexVal h := by
  have := hexVal_lt hh
  have h4 := Nat.pow_le_pow_right (n := 16) (by decide) hn
  rw [BitVec.toNat_ofNat, Nat.mod_eq_of_lt (by omega)]

theorem lead_ran {h : List Char} (hh : Hexs 4 h) (hl : isLead (hexVal h))
    (hr : Ran ⟨fl, .stringSurrogate (BitVec.ofNat 32 (hexVal h)), acc ++ '\\' :: 'u' :: h, as, []⟩ l evs) :
    Ran ⟨fl, .string, acc, as, []⟩ ('\\' :: 'u' :: (h ++ l)) evs := by
  have h4 := toNat_hex (Nat.le_refl _) hh
  refine unicode_full (e := []) hh _ (fun _ _ _ _ _ => ?_) (by rfl) hr
  rw [if_pos (by rw [h4]; exact ⟨hl.1, hl.2⟩)]
  rfl

theorem leadUnicode_short {n : Nat} {h k : List Char} (hh : Hexs 4 h) (hl : isLead (hexVal h)) (hn : n < 4) (hk : Hexs n k)
    (hr : Ran ⟨fl, .stringSurrogateUnicode (BitVec.ofNat 32 (hexVal h)) n (BitVec.ofNat 32 (hexVal k)),
      acc ++ ('\\' :: 'u' :: h ++ '\\' :: 'u' :: k), as, []⟩ l evs) :
    Ran ⟨fl, .string, acc, as, []⟩ ('\\' :: 'u' :: (h ++ '\\' :: 'u' :: (k ++ l))) evs := by
  obtain ⟨rfl, h2⟩ := hk
  refine lead_ran hh hl ?_
  refine Ran.step0 (t' := ⟨fl, .stringSurrogateEscape (BitVec.ofNat 32 (hexVal h)), acc ++ '\\' :: 'u' :: h ++ ['\\'], as, []⟩) rfl rfl ?_
  refine Ran.step0 (t' := ⟨fl, .stringSurrogateUnicode (BitVec.ofNat 32 (hexVal h)) 0 0, acc ++ '\\' :: 'u' :: h ++ ['\\'] ++ ['u'], as, []⟩)
    rfl rfl ?_
  exact trail_loop _ k [] _ ⟨rfl, fun _ h => by cases h⟩ ⟨rfl, h2⟩ (by simpa using hn) (by simpa using hr)

theorem surrogates_eq {h k : List Char} (hh : Hexs 4 h) (hl : isLead (hexVal h)) (hk : Hexs 4 k) (ht : isTrail (hexVal k)) :
    Tokenizer.surrogates (BitVec.ofNat 32 (hexVal h)) (BitVec.ofNat 32 (hexVal k))
      = fromU32 (0x10000 + (hexVal h - 0xd800) * 0x400 + (hexVal k - 0xdc00)) := by
  have h4 := toNat_hex (Nat.le_refl _) hh
  have k4 := toNat_hex (Nat.le_refl _) hk
  unfold Tokenizer.surrogates
  rw [h4, k4]
  obtain ⟨h1, h2⟩ := hl
  obtain ⟨t1, t2⟩ := ht
  have hsh : (BitVec.ofNat 32 (hexVal h - 0xd800) <<< 10).toNat = (hexVal h - 0xd800) * 0x400 := by
    rw [BitVec.toNat_shiftLeft, BitVec.toNat_ofNat, Nat.shiftLeft_eq]
    rw [Nat.mod_eq_of_lt (by omega : hexVal h - 0xd800 < 2 ^ 32), Nat.mod_eq_of_lt (by omega)]
  rw [hsh, if_neg (by omega)]
  generalize hexVal h = a at *
  generalize hexVal k = b at *
  exact if_pos (by omega)

/-- The fourth digit of the second escape. -/
theorem leadUnicode_full {h k : List Char} (hh : Hexs 4 h) (hl : isLead (hexVal h)) (hk : Hexs 4 k) (t2 : Tokenizer)
    (hs : (if hexVal k ≥ 0xd800 ∧ hexVal k ≤ 0xdbff then
        .say (.err .stringSurrogateUnpaired) <| .ret (⟨fl, .string, acc ++ ('\\' :: 'u' :: h ++ '\\' :: 'u' :: k), as, []⟩, none)
      else if hexVal k ≥ 0xdc00 ∧ hexVal k ≤ 0xdfff then
        match fromU32 (0x10000 + (hexVal h - 0xd800) * 0x400 + (hexVal k - 0xdc00)) with
        | none => .panic
        | some c => .ret (⟨fl, .string, acc ++ ('\\' :: 'u' :: h ++ '\\' :: 'u' :: k), as ++ [c], []⟩, none)
      else
        match fromU32 (hexVal k) with
        | none => .panic
        | some _ => .say (.err .stringSurrogateUnpaired) <|
          .ret (⟨fl, .string, acc ++ ('\\' :: 'u' :: h ++ '\\' :: 'u' :: k), as, []⟩, none) : Run (Tokenizer × Option Char))
        = ⟨e, some (t2, none)⟩)
    (hf : t2.flags = fl) (hr : Ran t2 l evs) :
    Ran ⟨fl, .string, acc, as, []⟩ ('\\' :: 'u' :: (h ++ '\\' :: 'u' :: (k ++ l))) (e ++ evs) := by
  have k4 := toNat_hex (Nat.le_refl _) hk
  obtain ⟨g, c, rfl, hg3, hg, hc⟩ := split4 hk
  rw [List.append_assoc]
  have hv := hexVal_lt hg
  rw [hg3] at hv
  refine leadUnicode_short (n := 3) hh hl (by decide) ⟨hg3, hg.2⟩ ?_
  refine Ran.step ?_ hf hr
  rw [← hs]
  rw [trail_handle, if_pos hc]
  unfold Tokenizer.advanceTrail
  rw [toDigit_hex hc]
  simp only
  rw [if_neg (by decide), shift_eq _ _ hv (hexDigit_lt hc), ← hexVal_snoc, k4]
  simp only [Tokenizer.raw, Tokenizer.str, List.append_assoc, List.cons_append]
  by_cases ht : hexVal (g ++ [c]) ≥ 0xdc00 ∧ hexVal (g ++ [c]) ≤ 0xdfff
  · rw [surrogates_eq hh hl hk ht]
    cases fromU32 (65536 + (hexVal h - 55296) * 1024 + (hexVal (g ++ [c]) - 56320)) <;> cases fromU32 (hexVal (g ++ [c])) <;> rfl
  · rw [if_neg ht, if_neg ht]
    cases fromU32 (hexVal (g ++ [c])) <;> rfl

theorem escape_simple {c d : Char} (h : escape c = some d) : Tokenizer.isSimple c = true ∧ Tokenizer.simple c = d ∧ c ≠ 'u' := by
  unfold escape at h
  split at h <;> cases h <;> decide

theorem escape_none {c : Char} (h : escape c = none) : Tokenizer.isSimple c = false := by
  cases hs : Tokenizer.isSimple c with
  | false => rfl
  | true =>
    simp only [Tokenizer.isSimple, Bool.or_eq_true, decide_eq_true_eq] at hs
    rcases hs with ((((((rfl | rfl) | rfl) | rfl) | rfl) | rfl) | rfl) | rfl <;> cases h

theorem item_ran {raw next chars : List Char} {errs : List Err} (hi : Item raw next chars errs)
    (hr : Ran ⟨fl, .string, acc ++ raw, as ++ chars, []⟩ next evs) :
    Ran ⟨fl, .string, acc, as, []⟩ (raw ++ next) (errs.map .err ++ evs) := by
  cases hi with
  | plain c _ h1 h2 h3 =>
    refine Ran.step0 ?_ (by rfl) hr
    rw [char_handle]
    unfold Tokenizer.advanceChar
    rw [if_neg (by simp), if_neg h2, if_neg h3, if_neg (by omega)]
    rfl
  | control c _ h =>
    have h2 : c ≠ '"' := char_ne (by have : '"'.toNat = 34 := by decide
                                     omega)
    have h3 : c ≠ '\\' := char_ne (by have : '\\'.toNat = 92 := by decide
                                      omega)
    refine Ran.step (e := [_]) ?_ (by rfl) hr
    rw [char_handle]
    unfold Tokenizer.advanceChar
    rw [if_neg (by simp), if_neg h2, if_neg h3, if_pos (by omega)]
    rfl
  | escape c d _ h =>
    obtain ⟨h1, h2, _⟩ := escape_simple h
    refine Ran.step0 (t' := ⟨fl, .stringEscape, acc ++ ['\\'], as, []⟩) rfl rfl ?_
    refine Ran.step0 ?_ (by rfl) hr
    show (if Tokenizer.isSimple c = true then _ else _) = _
    rw [if_pos h1, h2]
    simp [Tokenizer.raw, Tokenizer.str]
  | badEscape c _ h hu =>
    have h1 := escape_none h
    refine Ran.step0 (t' := ⟨fl, .stringEscape, acc ++ ['\\'], as, []⟩) rfl rfl ?_
    refine Ran.step (e := [_]) ?_ (by rfl) hr
    show (if Tokenizer.isSimple c = true then _ else if c = 'u' then _ else _) = _
    rw [if_neg (by rw [h1]; simp), if_neg hu]
    simp [Tokenizer.raw, Tokenizer.str, Run.say, Run.ret]
  | unicode h c _ hh hc =>
    have h4 := toNat_hex (Nat.le_refl _) hh
    have hv : c.toNat < 0xd800 ∨ (0xdfff < c.toNat ∧ c.toNat < 0x110000) := c.valid
    refine unicode_full (e := []) hh _ (fun _ _ _ _ _ => ?_) (by rfl) hr
    rw [h4, ← hc, if_neg (by omega), if_neg (by omega), fromU32_toNat]
    rfl
  | pair h k c _ hh hk hl ht hc =>
    have : '\\' :: 'u' :: h ++ '\\' :: 'u' :: k ++ next = '\\' :: 'u' :: (h ++ '\\' :: 'u' :: (k ++ next)) := by simp
    rw [this]
    obtain ⟨t1, t2⟩ := ht
    refine leadUnicode_full (e := []) hh hl hk _ ?_ (by rfl) hr
    rw [← hc, if_neg (by omega), if_pos ⟨t1, t2⟩, fromU32_toNat]
    rfl
  | short n h _ hn hh hne he =>
    match next, hne, he, hr with
    | c :: next, _, he, hr =>
      refine unicode_short hn hh ?_
      refine fallback ?_ (by rfl) hr
      show (if isHex c = true then _ else _) = _
      rw [if_neg (by rw [he c next rfl]; simp), List.append_nil]
      rfl
  | trail h _ hh ht =>
    have h4 := toNat_hex (Nat.le_refl _) hh
    obtain ⟨t1, t2⟩ := ht
    refine unicode_full (e := [_]) hh _ (fun _ _ _ _ _ => ?_) (by rfl) hr
    rw [h4, if_neg (by omega), if_pos ⟨t1, t2⟩]
    simp [Run.say, Run.ret]
  | lead h _ hh hl hne he =>
    match next, hne, he, hr with
    | c :: next, _, he, hr =>
      refine lead_ran hh hl ?_
      refine fallback ?_ (by rfl) hr
      show (if c = '\\' then _ else _) = _
      rw [if_neg (by simpa using he c next rfl), List.append_nil]
      rfl
  | leadEscape h c d _ hh hl hc =>
    obtain ⟨h1, h2, h3⟩ := escape_simple hc
    have : '\\' :: 'u' :: h ++ ['\\', c] ++ next = '\\' :: 'u' :: (h ++ '\\' :: c :: next) := by simp
    rw [this]
    refine lead_ran hh hl ?_
    refine Ran.step0 (t' := ⟨fl, .stringSurrogateEscape (BitVec.ofNat 32 (hexVal h)), acc ++ '\\' :: 'u' :: h ++ ['\\'], as, []⟩) rfl rfl ?_
    refine Ran.step (e := [_]) ?_ (by rfl) hr
    show (if c = 'u' then _ else if Tokenizer.isSimple c = true then _ else _) = _
    rw [if_neg h3, if_pos h1, h2]
    simp [Tokenizer.raw, Tokenizer.str, Run.say, Run.ret]
  | leadBadEscape h c _ hh hl hc hu =>
    have h1 := escape_none hc
    have : '\\' :: 'u' :: h ++ ['\\', c] ++ next = '\\' :: 'u' :: (h ++ '\\' :: c :: next) := by simp
    rw [this]
    refine lead_ran hh hl ?_
    refine Ran.step0 (t' := ⟨fl, .stringSurrogateEscape (BitVec.ofNat 32 (hexVal h)), acc ++ '\\' :: 'u' :: h ++ ['\\'], as, []⟩) rfl rfl ?_
    refine Ran.step (e := [_, _]) ?_ (by rfl) hr
    show (if c = 'u' then _ else if Tokenizer.isSimple c = true then _ else _) = _
    rw [if_neg hu, if_neg (by rw [h1]; simp)]
    simp [Tokenizer.raw, Tokenizer.str, Run.say, Run.ret]
  | leadShort n h k _ hh hl hn hk hne he =>
    have : '\\' :: 'u' :: h ++ '\\' :: 'u' :: k ++ next = '\\' :: 'u' :: (h ++ '\\' :: 'u' :: (k ++ next)) := by simp
    rw [this]
    match next, hne, he, hr with
    | c :: next, _, he, hr =>
      refine leadUnicode_short hh hl hn hk ?_
      refine fallback ?_ (by rfl) hr
      show (if isHex c = true then _ else _) = _
      rw [if_neg (by rw [he c next rfl]; simp), List.append_nil]
      rfl
  | leadOther h k _ hh hl hk ht =>
    have : '\\' :: 'u' :: h ++ '\\' :: 'u' :: k ++ next = '\\' :: 'u' :: (h ++ '\\' :: 'u' :: (k ++ next)) := by simp
    rw [this]
    have hk4 := hexVal_lt hk
    rw [List.append_nil] at hr
    refine leadUnicode_full (e := [_]) hh hl hk _ ?_ (by rfl) hr
    unfold isTrail at ht
    by_cases h1 : hexVal k ≥ 0xd800 ∧ hexVal k ≤ 0xdbff
    · rw [if_pos h1]; rfl
    · rw [if_neg h1, if_neg (by omega)]
      obtain ⟨c, hc, _⟩ := fromU32_some (n := hexVal k) (by omega)
      rw [hc]
      rfl

/-- The end of the text. -/
theorem cut_end (t : Tokenizer) (h : t.handle none = t.advanceString none) : Ran t [] [.err .stringIncomplete] := by
  refine .done _ _ ?_
  unfold Tokenizer.advance
  rw [h]
  rfl

theorem unfinished_ran {text : List Char} (h : Unfinished text) : Ran ⟨fl, .string, acc, as, []⟩ text [.err .stringIncomplete] := by
  cases h with
  | escape => exact Ran.step0 (t' := ⟨fl, .stringEscape, acc ++ ['\\'], as, []⟩) rfl rfl (cut_end _ rfl)
  | unicode n h hn hh =>
    have := unicode_short (fl := fl) (acc := acc) (as := as) (l := []) hn hh (cut_end _ rfl)
    simpa using this
  | lead h hh hl =>
    have := lead_ran (fl := fl) (acc := acc) (as := as) (l := []) hh hl (cut_end _ rfl)
    simpa using this
  | leadEscape h hh hl =>
    refine lead_ran (fl := fl) (acc := acc) (as := as) (l := ['\\']) hh hl ?_
    exact Ran.step0 (t' := ⟨fl, .stringSurrogateEscape (BitVec.ofNat 32 (hexVal h)), acc ++ '\\' :: 'u' :: h ++ ['\\'], as, []⟩) rfl rfl
      (cut_end _ rfl)
  | leadUnicode n h k hh hl hn hk =>
    have := leadUnicode_short (fl := fl) (acc := acc) (as := as) (l := []) hh hl hn hk (cut_end _ rfl)
    simpa using this

theorem cut_ran {text : List Char} {errs : List Err} (h : Cut text errs) : ∀ acc as,
    Ran ⟨fl, .string, acc, as, []⟩ text (errs.map .err ++ [.err .stringIncomplete]) := by
  induction h with
  | nil => intro acc as; exact cut_end _ rfl
  | unfinished text h => intro acc as; exact unfinished_ran h
  | item raw text chars errs errss hi _ ih =>
    intro acc as
    rw [List.map_append, List.append_assoc]
    exact item_ran hi (ih _ _)

theorem body_ran {text raw chars rest : List Char} {errs : List Err} (h : Body text raw chars errs rest)
    (hr : Ran (.withFlags fl) rest evs) : ∀ acc as,
    Ran ⟨fl, .string, acc, as, []⟩ text (errs.map .err ++ .tok (.string (acc ++ raw) (as ++ chars)) :: evs) := by
  induction h with
  | close rest =>
    intro acc as
    rw [List.append_nil, List.append_nil]
    exact Ran.step (e := [_]) (t' := .withFlags fl) rfl rfl hr
  | item raw text chars errs raws charss errss rest hi _ ih =>
    intro acc as
    rw [List.map_append, List.append_assoc, ← List.append_assoc acc, ← List.append_assoc as]
    exact item_ran hi (ih hr _ _)

theorem string_ran {text raw chars : List Char} {errs : List Err} (h : Body text raw chars errs l) (hr : Ran (.withFlags fl) l evs) :
    Ran (.withFlags fl) ('"' :: text) (errs.map .err ++ .tok (.string raw chars) :: evs) :=
  Ran.start0 (t' := ⟨fl, .string, [], [], []⟩) rfl rfl (body_ran h hr [] [])

theorem stringCut_ran {text : List Char} {errs : List Err} (h : Cut text errs) :
    Ran (.withFlags fl) ('"' :: text) (errs.map .err ++ [.err .stringIncomplete]) :=
  Ran.start0 (t' := ⟨fl, .string, [], [], []⟩) rfl rfl (cut_ran h [] [])

end Verif.Json
