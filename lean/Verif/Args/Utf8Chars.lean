import Verif.Args.Utf8
/-! # Valid UTF-8 is what characters are encoded as

`isUtf8` is written after the table of well-formed sequences. It holds exactly for the encodings of sequences of Unicode scalar values. -/
namespace Verif.Args

theorem toNat_ofNat_lt {n : Nat} (h : n < 256) : (UInt8.ofNat n).toNat = n := by
  rw [UInt8.toNat_ofNat']; exact Nat.mod_eq_of_lt h

theorem char_range (c : Char) : c.val.toNat < 0xd800 ∨ (0xdfff < c.val.toNat ∧ c.val.toNat < 0x110000) := c.valid

/-- The bytes of a character. -/
inductive Encodes (n : Nat) : Bytes → Prop
  | one (h : n ≤ 0x7f) : Encodes n [UInt8.ofNat n]
  | two (h1 : 0x7f < n) (h : n ≤ 0x7ff) : Encodes n [UInt8.ofNat (n / 64 + 0xc0), UInt8.ofNat (n % 64 + 0x80)]
  | three (h1 : 0x7ff < n) (h : n ≤ 0xffff) (hs : n < 0xd800 ∨ 0xdfff < n) :
      Encodes n [UInt8.ofNat (n / 4096 + 0xe0), UInt8.ofNat (n / 64 % 64 + 0x80), UInt8.ofNat (n % 64 + 0x80)]
  | four (h1 : 0xffff < n) (h : n < 0x110000) :
      Encodes n [UInt8.ofNat (n / 262144 + 0xf0), UInt8.ofNat (n / 4096 % 64 + 0x80), UInt8.ofNat (n / 64 % 64 + 0x80), UInt8.ofNat (n % 64 + 0x80)]

theorem encode_eq (c : Char) : Encodes c.val.toNat (String.utf8EncodeChar c) := by
  have hr := char_range c
  unfold String.utf8EncodeChar
  generalize c.val.toNat = n at hr
  simp only []
  by_cases h1 : n ≤ 0x7f
  · rw [if_pos h1]; exact .one h1
  · rw [if_neg h1]
    by_cases h2 : n ≤ 0x7ff
    · rw [if_pos h2, Nat.mod_eq_of_lt (show n / 64 < 32 by omega)]
      exact .two (by omega) h2
    · rw [if_neg h2]
      by_cases h3 : n ≤ 0xffff
      · rw [if_pos h3, Nat.mod_eq_of_lt (show n / 4096 < 16 by omega)]
        exact .three (by omega) h3 (by omega)
      · rw [if_neg h3, Nat.mod_eq_of_lt (show n / 262144 < 8 by omega)]
        exact .four (by omega) (by omega)

theorem isCont_iff (b : UInt8) : isCont b = true ↔ 128 ≤ b.toNat ∧ b.toNat ≤ 191 := by
  simp only [isCont, Bool.and_eq_true, decide_eq_true_eq, UInt8.le_iff_toNat_le]; exact Iff.rfl

theorem utf8Two_iff (a b : UInt8) : utf8Two a b = true ↔ (194 ≤ a.toNat ∧ a.toNat ≤ 223) ∧ 128 ≤ b.toNat ∧ b.toNat ≤ 191 := by
  simp only [utf8Two, Bool.and_eq_true, isCont_iff, decide_eq_true_eq, UInt8.le_iff_toNat_le]; exact Iff.rfl

theorem utf8Three_iff (a b c : UInt8) : utf8Three a b c = true ↔ (128 ≤ c.toNat ∧ c.toNat ≤ 191) ∧
    ((((a.toNat = 224 ∧ 160 ≤ b.toNat) ∧ b.toNat ≤ 191 ∨ (225 ≤ a.toNat ∧ a.toNat ≤ 236) ∧ 128 ≤ b.toNat ∧ b.toNat ≤ 191)
      ∨ (a.toNat = 237 ∧ 128 ≤ b.toNat) ∧ b.toNat ≤ 159) ∨ (238 ≤ a.toNat ∧ a.toNat ≤ 239) ∧ 128 ≤ b.toNat ∧ b.toNat ≤ 191) := by
  simp only [utf8Three, Bool.and_eq_true, Bool.or_eq_true, isCont_iff, decide_eq_true_eq, UInt8.le_iff_toNat_le, beq_iff_eq, ← UInt8.toNat_inj]; exact Iff.rfl

theorem utf8Four_iff (a b c d : UInt8) : utf8Four a b c d = true ↔ ((128 ≤ c.toNat ∧ c.toNat ≤ 191) ∧ 128 ≤ d.toNat ∧ d.toNat ≤ 191) ∧
    (((a.toNat = 240 ∧ 144 ≤ b.toNat) ∧ b.toNat ≤ 191 ∨ (241 ≤ a.toNat ∧ a.toNat ≤ 243) ∧ 128 ≤ b.toNat ∧ b.toNat ≤ 191)
      ∨ (a.toNat = 244 ∧ 128 ≤ b.toNat) ∧ b.toNat ≤ 143) := by
  simp only [utf8Four, Bool.and_eq_true, Bool.or_eq_true, isCont_iff, decide_eq_true_eq, UInt8.le_iff_toNat_le, beq_iff_eq, ← UInt8.toNat_inj]; exact Iff.rfl

theorem lt_iff (a : UInt8) : a < 0x80 ↔ a.toNat < 128 := by rw [UInt8.lt_iff_toNat_lt]; exact Iff.rfl

theorem validUpTo_encodes {n : Nat} {bs : Bytes} (h : Encodes n bs) (l : Bytes) : validUpTo (bs ++ l) = bs.length + validUpTo l := by
  cases h with
  | one h =>
    have e := toNat_ofNat_lt (n := n) (by omega)
    generalize UInt8.ofNat n = a at e
    show validUpTo (a :: l) = 1 + _
    rw [validUpTo.eq_def]; simp only []
    rw [if_pos ((lt_iff a).mpr (by omega))]
  | two h1 h =>
    have e := toNat_ofNat_lt (n := n / 64 + 0xc0) (by omega)
    have f := toNat_ofNat_lt (n := n % 64 + 0x80) (by omega)
    generalize UInt8.ofNat (n / 64 + 0xc0) = a at e
    generalize UInt8.ofNat (n % 64 + 0x80) = b at f
    show validUpTo (a :: b :: l) = 2 + _
    rw [validUpTo.eq_def]; simp only []
    rw [if_neg (fun hc => by have := (lt_iff a).mp hc; omega), if_pos ((utf8Two_iff a b).mpr (by omega))]
  | three h1 h hs =>
    have e := toNat_ofNat_lt (n := n / 4096 + 0xe0) (by omega)
    have f := toNat_ofNat_lt (n := n / 64 % 64 + 0x80) (by omega)
    have g := toNat_ofNat_lt (n := n % 64 + 0x80) (by omega)
    generalize UInt8.ofNat (n / 4096 + 0xe0) = a at e
    generalize UInt8.ofNat (n / 64 % 64 + 0x80) = b at f
    generalize UInt8.ofNat (n % 64 + 0x80) = c at g
    show validUpTo (a :: b :: c :: l) = 3 + _
    rw [validUpTo.eq_def]; simp only []
    rw [if_neg (fun hc => by have := (lt_iff a).mp hc; omega), if_neg (fun hc => by have := (utf8Two_iff a b).mp hc; omega),
      if_pos ((utf8Three_iff a b c).mpr (by omega))]
  | four h1 h =>
    have e := toNat_ofNat_lt (n := n / 262144 + 0xf0) (by omega)
    have f := toNat_ofNat_lt (n := n / 4096 % 64 + 0x80) (by omega)
    have g := toNat_ofNat_lt (n := n / 64 % 64 + 0x80) (by omega)
    have k := toNat_ofNat_lt (n := n % 64 + 0x80) (by omega)
    generalize UInt8.ofNat (n / 262144 + 0xf0) = a at e
    generalize UInt8.ofNat (n / 4096 % 64 + 0x80) = b at f
    generalize UInt8.ofNat (n / 64 % 64 + 0x80) = c at g
    generalize UInt8.ofNat (n % 64 + 0x80) = d at k
    show validUpTo (a :: b :: c :: d :: l) = 4 + _
    rw [validUpTo.eq_def]; simp only []
    rw [if_neg (fun hc => by have := (lt_iff a).mp hc; omega), if_neg (fun hc => by have := (utf8Two_iff a b).mp hc; omega),
      if_neg (fun hc => by have := (utf8Three_iff a b c).mp hc; omega), if_pos ((utf8Four_iff a b c d).mpr (by omega))]

theorem encodes_unique {n : Nat} {a b : Bytes} (h : Encodes n a) (h' : Encodes n b) : a = b := by
  cases h <;> cases h' <;> first | rfl | omega

/-- Whatever the table accepts is the encoding of a scalar value. -/
theorem encodes_char {n : Nat} {bs : Bytes} (h : Encodes n bs) : ∃ c : Char, bs = String.utf8EncodeChar c := by
  have hv : n.isValidChar := by
    cases h with
    | one h => left; omega
    | two h1 h => left; omega
    | three h1 h hs =>
      rcases hs with hs | hs
      · exact .inl hs
      · exact .inr ⟨hs, by omega⟩
    | four h1 h => exact .inr ⟨by omega, h⟩
  refine ⟨Char.ofNatAux n hv, encodes_unique h ?_⟩
  have := encode_eq (Char.ofNatAux n hv)
  rwa [show (Char.ofNatAux n hv).val.toNat = n from rfl] at this

theorem byte_eq {a : UInt8} {n : Nat} (h : a.toNat = n) : a = UInt8.ofNat n := by rw [← h, UInt8.ofNat_toNat]

theorem encodes_one {a : UInt8} (h : a < 0x80) : Encodes a.toNat [a] := by
  have := Encodes.one (n := a.toNat) (by have := (lt_iff a).mp h; omega)
  rwa [UInt8.ofNat_toNat] at this

theorem encodes_two {a b : UInt8} (h : utf8Two a b = true) : ∃ n, Encodes n [a, b] := by
  have h := (utf8Two_iff a b).mp h
  refine ⟨(a.toNat - 192) * 64 + (b.toNat - 128), ?_⟩
  have := Encodes.two (n := (a.toNat - 192) * 64 + (b.toNat - 128)) (by omega) (by omega)
  rwa [← byte_eq (a := a) (by omega), ← byte_eq (a := b) (by omega)] at this

theorem encodes_three {a b c : UInt8} (h : utf8Three a b c = true) : ∃ n, Encodes n [a, b, c] := by
  have h := (utf8Three_iff a b c).mp h
  refine ⟨(a.toNat - 224) * 4096 + (b.toNat - 128) * 64 + (c.toNat - 128), ?_⟩
  have := Encodes.three (n := (a.toNat - 224) * 4096 + (b.toNat - 128) * 64 + (c.toNat - 128)) (by omega) (by omega) (by omega)
  rwa [← byte_eq (a := a) (by omega), ← byte_eq (a := b) (by omega), ← byte_eq (a := c) (by omega)] at this

theorem encodes_four {a b c d : UInt8} (h : utf8Four a b c d = true) : ∃ n, Encodes n [a, b, c, d] := by
  have h := (utf8Four_iff a b c d).mp h
  refine ⟨(a.toNat - 240) * 262144 + (b.toNat - 128) * 4096 + (c.toNat - 128) * 64 + (d.toNat - 128), ?_⟩
  have := Encodes.four (n := (a.toNat - 240) * 262144 + (b.toNat - 128) * 4096 + (c.toNat - 128) * 64 + (d.toNat - 128)) (by omega) (by omega)
  rwa [← byte_eq (a := a) (by omega), ← byte_eq (a := b) (by omega), ← byte_eq (a := c) (by omega), ← byte_eq (a := d) (by omega)] at this

theorem validUpTo_char (c : Char) (l : Bytes) : validUpTo (String.utf8EncodeChar c ++ l) = (String.utf8EncodeChar c).length + validUpTo l :=
  validUpTo_encodes (encode_eq c) l

/-- The valid part of a text is the encoding of some characters. -/
theorem validUpTo_chars : ∀ (k : Nat) (l : Bytes), l.length ≤ k → ∃ cs : List Char, l.take (validUpTo l) = cs.flatMap String.utf8EncodeChar := by
  intro k
  induction k with
  | zero => intro l hl; obtain rfl := List.length_eq_zero_iff.mp (Nat.le_zero.mp hl); exact ⟨[], rfl⟩
  | succ k ih =>
    intro l hl
    have step : ∀ (u v : Bytes) (n : Nat), l = u ++ v → validUpTo l = u.length + validUpTo v → 0 < u.length → Encodes n u →
        ∃ cs : List Char, l.take (validUpTo l) = cs.flatMap String.utf8EncodeChar := by
      intro u v n h1 h2 h3 h4
      obtain ⟨c, hc⟩ := encodes_char h4
      obtain ⟨cs, hcs⟩ := ih v (by rw [h1, List.length_append] at hl; omega)
      refine ⟨c :: cs, ?_⟩
      rw [h2, h1, List.take_length_add_append, hcs, List.flatMap_cons, hc]
    match l, hl, step with
    | [], _, _ => exact ⟨[], rfl⟩
    | a :: l, hl, step =>
      by_cases h1 : a < 0x80
      · exact step [a] l _ rfl (by rw [validUpTo.eq_def]; simp only []; rw [if_pos h1]; rfl) (Nat.one_pos) (encodes_one h1)
      · match l, hl, step with
        | [], _, _ => exact ⟨[], by rw [validUpTo.eq_def]; simp only []; rw [if_neg h1]; rfl⟩
        | b :: l, hl, step =>
          by_cases h2 : utf8Two a b = true
          · obtain ⟨n, hn⟩ := encodes_two h2
            exact step [a, b] l n rfl (by rw [validUpTo.eq_def]; simp only []; rw [if_neg h1, if_pos h2]; rfl) (by simp) hn
          · match l, hl, step with
            | [], _, _ => exact ⟨[], by rw [validUpTo.eq_def]; simp only []; rw [if_neg h1, if_neg h2]; rfl⟩
            | c :: l, hl, step =>
              by_cases h3 : utf8Three a b c = true
              · obtain ⟨n, hn⟩ := encodes_three h3
                exact step [a, b, c] l n rfl (by rw [validUpTo.eq_def]; simp only []; rw [if_neg h1, if_neg h2, if_pos h3]; rfl) (by simp) hn
              · match l, hl, step with
                | [], _, _ => exact ⟨[], by rw [validUpTo.eq_def]; simp only []; rw [if_neg h1, if_neg h2, if_neg h3]; rfl⟩
                | d :: l, hl, step =>
                  by_cases h4 : utf8Four a b c d = true
                  · obtain ⟨n, hn⟩ := encodes_four h4
                    exact step [a, b, c, d] l n rfl (by rw [validUpTo.eq_def]; simp only []; rw [if_neg h1, if_neg h2, if_neg h3, if_pos h4]; rfl) (by simp) hn
                  · exact ⟨[], by rw [validUpTo.eq_def]; simp only []; rw [if_neg h1, if_neg h2, if_neg h3, if_neg h4]; rfl⟩

theorem validUpTo_flatMap (cs : List Char) (l : Bytes) :
    validUpTo (cs.flatMap String.utf8EncodeChar ++ l) = (cs.flatMap String.utf8EncodeChar).length + validUpTo l := by
  induction cs with
  | nil => simp
  | cons c cs ih => rw [List.flatMap_cons, List.append_assoc, validUpTo_char, ih, List.length_append]; omega

/-- A text is valid if and only if it is the encoding of some characters. -/
theorem isUtf8_iff (l : Bytes) : isUtf8 l = true ↔ ∃ cs : List Char, l = cs.flatMap String.utf8EncodeChar := by
  unfold isUtf8
  rw [beq_iff_eq]
  constructor
  · intro h
    obtain ⟨cs, hcs⟩ := validUpTo_chars l.length l (Nat.le_refl _)
    rw [h, List.take_length] at hcs
    exact ⟨cs, hcs⟩
  · rintro ⟨cs, rfl⟩
    have := validUpTo_flatMap cs []
    rw [List.append_nil] at this
    rw [this]; rfl

/-- `valid_up_to` is the length of the longest beginning that is valid. -/
theorem validUpTo_longest (l : Bytes) : isUtf8 (l.take (validUpTo l)) = true ∧ ∀ n ≤ l.length, isUtf8 (l.take n) = true → n ≤ validUpTo l := by
  refine ⟨(isUtf8_iff _).mpr (validUpTo_chars l.length l (Nat.le_refl _)), fun n hn h => ?_⟩
  obtain ⟨cs, hcs⟩ := (isUtf8_iff _).mp h
  have := validUpTo_flatMap cs (l.drop n)
  rw [← hcs, List.take_append_drop, List.length_take, Nat.min_eq_left hn] at this
  omega

end Verif.Args
