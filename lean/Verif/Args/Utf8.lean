/-! # UTF-8 validity of byte strings

`core::str::from_utf8` and `Utf8Error::valid_up_to` as used by `lib/osi/src/args/parse.rs` 412-422 and
`lib/osi/src/args/report.rs`. The core library documents them by the Unicode definition of well-formed
UTF-8 byte sequences (Unicode 15, table 3-7), which is what is written here. -/
namespace Verif.Args

abbrev Bytes := List UInt8

/-- Continuation byte. -/
def isCont (b : UInt8) : Bool := 0x80 ≤ b && b ≤ 0xbf

/-- Second and third row of table 3-7. -/
def utf8Two (a b : UInt8) : Bool := 0xc2 ≤ a && a ≤ 0xdf && isCont b

/-- Three-byte rows of table 3-7. -/
def utf8Three (a b c : UInt8) : Bool :=
  isCont c &&
    ((a == 0xe0 && 0xa0 ≤ b && b ≤ 0xbf) || (0xe1 ≤ a && a ≤ 0xec && isCont b)
      || (a == 0xed && 0x80 ≤ b && b ≤ 0x9f) || (0xee ≤ a && a ≤ 0xef && isCont b))

/-- Four-byte rows of table 3-7. -/
def utf8Four (a b c d : UInt8) : Bool :=
  isCont c && isCont d &&
    ((a == 0xf0 && 0x90 ≤ b && b ≤ 0xbf) || (0xf1 ≤ a && a ≤ 0xf3 && isCont b)
      || (a == 0xf4 && 0x80 ≤ b && b ≤ 0x8f))

/-- Number of leading bytes that form complete, valid UTF-8 (`Utf8Error::valid_up_to`, or the whole length). -/
def validUpTo : Bytes → Nat
  | [] => 0
  | a :: l =>
    if a < 0x80 then 1 + validUpTo l
    else match l with
      | [] => 0
      | b :: l =>
        if utf8Two a b then 2 + validUpTo l
        else match l with
          | [] => 0
          | c :: l =>
            if utf8Three a b c then 3 + validUpTo l
            else match l with
              | [] => 0
              | d :: l => if utf8Four a b c d then 4 + validUpTo l else 0

/-- `core::str::from_utf8(v).is_ok()`. -/
def isUtf8 (l : Bytes) : Bool := validUpTo l == l.length

/-- No byte of an ASCII character is part of a longer sequence, so an ASCII byte separates the text. -/
theorem validUpTo_append_ascii (s : UInt8) (hs : s < 0x80) (a b : Bytes) :
    validUpTo (a ++ s :: b) =
      if validUpTo a = a.length then a.length + 1 + validUpTo b else validUpTo a := by
  have hc : isCont s = false := by
    simp only [isCont, Bool.and_eq_false_iff, decide_eq_false_iff_not]
    left; exact UInt8.not_le.mpr hs
  have h2 : ∀ x, utf8Two x s = false := by simp [utf8Two, hc]
  have h3 : ∀ x y, utf8Three x y s = false := by simp [utf8Three, hc]
  have h3' : ∀ x y, utf8Three x s y = false := by
    intro x y
    have e1 : ¬ (0xa0 ≤ s) := by
      rw [UInt8.not_le]; exact UInt8.lt_trans hs (by decide)
    have e2 : ¬ (0x80 ≤ s) := by rw [UInt8.not_le]; exact hs
    simp [utf8Three, hc, e1, e2]
  have h4 : ∀ x y z, utf8Four x y z s = false := by simp [utf8Four, hc]
  have h4' : ∀ x y z, utf8Four x y s z = false := by simp [utf8Four, hc]
  have h4'' : ∀ x y z, utf8Four x s y z = false := by
    intro x y z
    have e1 : ¬ (0x90 ≤ s) := by
      rw [UInt8.not_le]; exact UInt8.lt_trans hs (by decide)
    have e2 : ¬ (0x80 ≤ s) := by rw [UInt8.not_le]; exact hs
    simp [utf8Four, hc, e1, e2]
  have v1 : ∀ (x : UInt8) l, x < 0x80 → validUpTo (x :: l) = 1 + validUpTo l := by
    intro x l hx; rw [validUpTo.eq_def]; simp only; rw [if_pos hx]
  have v2 : ∀ (x y : UInt8) l, ¬ x < 0x80 → utf8Two x y = true → validUpTo (x :: y :: l) = 2 + validUpTo l := by
    intro x y l hx hy; rw [validUpTo.eq_def]; simp only; rw [if_neg hx, if_pos hy]
  have v3 : ∀ (x y z : UInt8) l, ¬ x < 0x80 → ¬ utf8Two x y = true → utf8Three x y z = true →
      validUpTo (x :: y :: z :: l) = 3 + validUpTo l := by
    intro x y z l hx hy hz; rw [validUpTo.eq_def]; simp only; rw [if_neg hx, if_neg hy, if_pos hz]
  have v4 : ∀ (x y z w : UInt8) l, ¬ x < 0x80 → ¬ utf8Two x y = true → ¬ utf8Three x y z = true →
      validUpTo (x :: y :: z :: w :: l) = if utf8Four x y z w then 4 + validUpTo l else 0 := by
    intro x y z w l hx hy hz; rw [validUpTo.eq_def]; simp only; rw [if_neg hx, if_neg hy, if_neg hz]
  have z1 : ∀ x : UInt8, ¬ x < 0x80 → validUpTo [x] = 0 := by
    intro x hx; rw [validUpTo.eq_def]; simp only; rw [if_neg hx]
  have z2 : ∀ x y : UInt8, ¬ x < 0x80 → ¬ utf8Two x y = true → validUpTo [x, y] = 0 := by
    intro x y hx hy; rw [validUpTo.eq_def]; simp only; rw [if_neg hx, if_neg hy]
  have z3 : ∀ x y z : UInt8, ¬ x < 0x80 → ¬ utf8Two x y = true → ¬ utf8Three x y z = true →
      validUpTo [x, y, z] = 0 := by
    intro x y z hx hy hz; rw [validUpTo.eq_def]; simp only; rw [if_neg hx, if_neg hy, if_neg hz]
  induction a using validUpTo.induct with
  | case1 => simp only [List.nil_append, v1 s b hs]; simp [validUpTo]
  | case2 x l hx ih =>
    rw [List.cons_append, v1 _ _ hx, v1 _ _ hx, ih, List.length_cons]
    split <;> split <;> omega
  | case3 x hx =>
    rw [z1 x hx, if_neg (by simp)]
    match b with
    | [] => exact z2 x s hx (by simp [h2])
    | [b1] => exact z3 x s b1 hx (by simp [h2]) (by simp [h3'])
    | b1 :: b2 :: b => rw [List.singleton_append, v4 x s b1 b2 b hx (by simp [h2]) (by simp [h3']), h4'']; rfl
  | case4 x hx y l hy ih =>
    rw [List.cons_append, List.cons_append, v2 _ _ _ hx hy, v2 _ _ _ hx hy, ih]
    simp only [List.length_cons]
    split <;> split <;> omega
  | case5 x hx y hy =>
    rw [z2 x y hx hy, if_neg (by simp)]
    match b with
    | [] => exact z3 x y s hx hy (by simp [h3])
    | b1 :: b => 
      show validUpTo (x :: y :: s :: b1 :: b) = 0
      rw [v4 x y s b1 b hx hy (by simp [h3]), h4']; rfl
  | case6 x hx y hy z l hz ih =>
    rw [List.cons_append, List.cons_append, List.cons_append, v3 _ _ _ _ hx hy hz, v3 _ _ _ _ hx hy hz, ih]
    simp only [List.length_cons]
    split <;> split <;> omega
  | case7 x hx y hy z hz =>
    rw [z3 x y z hx hy hz, if_neg (by simp)]
    show validUpTo (x :: y :: z :: s :: b) = 0
    rw [v4 x y z s b hx hy hz, h4]; rfl
  | case8 x hx y hy z hz w l hw ih =>
    simp only [List.cons_append]
    rw [v4 _ _ _ _ _ hx hy hz, v4 _ _ _ _ _ hx hy hz, if_pos hw, if_pos hw, ih]
    simp only [List.length_cons]
    split <;> split <;> omega
  | case9 x hx y hy z hz w l hw =>
    simp only [List.cons_append]
    rw [v4 _ _ _ _ _ hx hy hz, v4 _ _ _ _ _ hx hy hz, if_neg hw, if_neg hw, if_neg (by simp)]

theorem validUpTo_le (a : Bytes) : validUpTo a ≤ a.length := by
  induction a using validUpTo.induct with
  | case1 => simp [validUpTo]
  | case2 x l hx ih => rw [validUpTo.eq_def]; simp only; rw [if_pos hx, List.length_cons]; omega
  | case3 x hx => rw [validUpTo.eq_def]; simp only; rw [if_neg hx]; omega
  | case4 x hx y l hy ih =>
    rw [validUpTo.eq_def]; simp only; rw [if_neg hx, if_pos hy]; simp only [List.length_cons]; omega
  | case5 x hx y hy => rw [validUpTo.eq_def]; simp only; rw [if_neg hx, if_neg hy]; omega
  | case6 x hx y hy z l hz ih =>
    rw [validUpTo.eq_def]; simp only; rw [if_neg hx, if_neg hy, if_pos hz]; simp only [List.length_cons]; omega
  | case7 x hx y hy z hz => rw [validUpTo.eq_def]; simp only; rw [if_neg hx, if_neg hy, if_neg hz]; omega
  | case8 x hx y hy z hz w l hw ih =>
    rw [validUpTo.eq_def]; simp only; rw [if_neg hx, if_neg hy, if_neg hz, if_pos hw]
    simp only [List.length_cons]; omega
  | case9 x hx y hy z hz w l hw =>
    rw [validUpTo.eq_def]; simp only; rw [if_neg hx, if_neg hy, if_neg hz, if_neg hw]; omega

theorem validUpTo_ascii_cons (s : UInt8) (hs : s < 0x80) (b : Bytes) :
    validUpTo (s :: b) = 1 + validUpTo b := by
  rw [validUpTo.eq_def]; simp only; rw [if_pos hs]

#guard isUtf8 "grüße ∀ 𝄞".toUTF8.toList
#guard !isUtf8 [0xc0, 0x80]
#guard !isUtf8 [0xed, 0xa0, 0x80]
#guard validUpTo [0x61, 0xff, 0x62] == 1

end Verif.Args
