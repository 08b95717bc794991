import Verif.Json.LemmasBytes4
/-! # The streaming JSON tokenizer on a text: numbers -/
namespace Verif.Json.Bytes
open Verif.Io (usizeMax)

/-- The state of the tokenizer after a numeral. -/
def Numeral.num (n : Numeral) : Num :=
  let a := n.signs.length
  let f := a + n.digits.length
  let g := f + (match n.fraction with | none => 0 | some f => f.length + 1)
  ⟨signOf n.signs, ⟨a, f⟩, (match n.fraction with | none => ⟨0, 0⟩ | some l => ⟨f + 1, f + 1 + l.length⟩),
    (match n.exponent with | none => .plus | some (_, s, _) => signOf s),
    (match n.exponent with | none => ⟨0, 0⟩ | some (_, s, e) => ⟨g + 1 + s.length, g + 1 + s.length + e.length⟩)⟩

/-- More digits at the end. -/
def Numeral.more (n : Numeral) (d : List UInt8) : Numeral :=
  match n.exponent with
  | some (c, s, e) => { n with exponent := some (c, s, e ++ d) }
  | none =>
    match n.fraction with
    | some f => { n with fraction := some (f ++ d) }
    | none => { n with digits := n.digits ++ d }

theorem more_bytes (n : Numeral) (d : List UInt8) : (n.more d).bytes = n.bytes ++ d := by
  obtain ⟨s, i, f, e⟩ := n
  rcases e with - | ⟨c, t, e⟩ <;> rcases f with - | f <;> simp [Numeral.more, Numeral.bytes]

theorem bytes_length (n : Numeral) : n.bytes.length = n.signs.length + n.digits.length
    + (match n.fraction with | none => 0 | some f => f.length + 1) + (match n.exponent with | none => 0 | some (_, s, e) => 1 + s.length + e.length) := by
  obtain ⟨s, i, f, e⟩ := n
  rcases e with - | ⟨c, t, e⟩ <;> rcases f with - | f <;> simp [Numeral.bytes] <;> omega

/-- The range that the numeral is in. -/
def Numeral.range (n : Numeral) : Range :=
  match n.exponent with
  | some _ => n.num.exponent
  | none =>
    match n.fraction with
    | some _ => n.num.fraction
    | none => n.num.integer

theorem grow_eq (n : Numeral) (d : List UInt8) : n.num.grow (n.bytes.length + d.length) = ((n.more d).num, (n.more d).range) := by
  rw [bytes_length]
  obtain ⟨s, i, f, e⟩ := n
  rcases e with - | ⟨c, t, e⟩
  · rcases f with - | f
    · unfold Num.grow
      rw [if_neg (by simp [Numeral.num]), if_neg (by simp [Numeral.num])]
      simp only [Numeral.num, Numeral.more, Numeral.range, List.length_append]
      simp only [Nat.add_zero, Nat.add_assoc]
    · unfold Num.grow
      rw [if_neg (by simp [Numeral.num]), if_pos (by simp [Numeral.num])]
      simp only [Numeral.num, Numeral.more, Numeral.range, List.length_append]
      have e : s.length + i.length + (f.length + 1) + 0 + d.length = s.length + i.length + 1 + (f.length + d.length) := by omega
      rw [e]
  · unfold Num.grow
    rw [if_pos (by simp [Numeral.num])]
    simp only [Numeral.num, Numeral.more, Numeral.range, List.length_append]
    rcases f with - | f
    · simp only []
      have h : s.length + i.length + 0 + (1 + t.length + e.length) + d.length = s.length + i.length + 0 + 1 + t.length + (e.length + d.length) := by omega
      rw [h]
    · simp only []
      have h : s.length + i.length + (f.length + 1) + (1 + t.length + e.length) + d.length =
        s.length + i.length + (f.length + 1) + 1 + t.length + (e.length + d.length) := by omega
      rw [h]

/-- One more byte, which is not a digit. -/
def Numeral.push (n : Numeral) (b : UInt8) : Numeral :=
  if b = 0x2b ∨ b = 0x2d then
    match n.exponent with
    | some (c, s, e) => { n with exponent := some (c, s ++ [b], e) }
    | none => { n with signs := n.signs ++ [b] }
  else if b = 0x2e then { n with fraction := some [] }
  else { n with exponent := some (b, [], []) }

/-- Whether the byte is a sign that is reported. -/
def Numeral.excess (n : Numeral) (b : UInt8) : Bool :=
  if b = 0x2b ∨ b = 0x2d then
    match n.exponent with
    | some (_, s, _) => !s.isEmpty
    | none => n.signs.length == 1
  else false

/-- The tokenizer within a numeral. -/
def Numeral.at (n : Numeral) : Dec := ⟨.number n.num, n.bytes.length, none, []⟩

theorem byte_sign : ∀ b, SignByte b → (b = 0x2b ∨ b = 0x2d) ∧ b ≠ 0x2e ∧ b ≠ 0x65 ∧ b ≠ 0x45 := byte_all (by decide +kernel)
theorem byte_point : ∀ b, Point b → ¬ (b = 0x2b ∨ b = 0x2d) ∧ b = 0x2e ∧ b ≠ 0x65 ∧ b ≠ 0x45 := byte_all (by decide +kernel)
theorem byte_exp : ∀ b, Exp b → ¬ (b = 0x2b ∨ b = 0x2d) ∧ b ≠ 0x2e ∧ (b = 0x65 ∨ b = 0x45) := byte_all (by decide +kernel)

theorem signOf_last (l : List UInt8) (b : UInt8) (h : b = 0x2b ∨ b = 0x2d) : signOf (l ++ [b]) = if b = 0x2b then .plus else .minus := by
  unfold signOf
  rw [List.getLast?_concat]
  rcases h with rfl | rfl <;> rfl

theorem getElem_at {u v : List UInt8} {b : UInt8} {n : Nat} (h : n = u.length) : (u ++ b :: v)[n]? = some b := by
  rw [h, List.getElem?_append_right (Nat.le_refl _), Nat.sub_self]; rfl

/-- A byte the numeral goes on with. -/
theorem push_step (n : Numeral) (b : UInt8) (r : List UInt8) (hne : n.signs ≠ [] ∨ n.digits ≠ []) (hd : ¬ Digit b) (ht : n.Takes b)
    (hlen : n.bytes.length + 16 ≤ usizeMax) (text : List UInt8) (htext : text = n.bytes ++ b :: r) :
    (match text[n.bytes.length]? with
    | none => none
    | some b =>
      if b = 0x2b ∨ b = 0x2d then numberSign n.at n.num n.range b text
      else if b = 0x2e then numberPoint n.at n.num n.range text
      else if b = 0x65 ∨ b = 0x45 then numberExponent n.at n.num n.range text
      else finishNumber n.at text)
    = some ((n.push b).at, if n.excess b then some (.error .numberMultipleSigns) else none) := by
  rw [htext, getElem_at rfl, ← htext]
  simp only []
  have hpos : 0 < n.signs.length + n.digits.length := by
    rcases hne with h | h
    · have := List.length_pos_iff.mpr h; omega
    · have := List.length_pos_iff.mpr h; omega
  have hbl := bytes_length n
  obtain ⟨sg, dg, fr, ex⟩ := n
  unfold Numeral.Takes at ht
  rcases ex with - | ⟨c, s, e⟩
  · simp only [hd, false_or] at ht hbl hpos
    rcases ht with ht | ⟨hf, ht | ⟨hdg, ht⟩⟩
    · -- exponent
      obtain ⟨h1, h2, h3⟩ := byte_exp b ht
      rw [if_neg h1, if_neg h2, if_pos h3]
      unfold numberExponent
      rw [if_pos, strictAdd_ok (by show _ + 1 ≤ _; simp only [Numeral.at]; omega)]
      · simp only [Option.map_some, Numeral.push, h1, h2, if_false, Numeral.excess, Bool.false_eq_true, Numeral.at, Numeral.num, hbl,
          bytes_length]
        rcases fr with - | f <;> simp [show signOf [] = Sign.plus from rfl]
      · rcases fr with - | f <;> simp [Numeral.range, Numeral.num]
        intro h1 h2
        simp [h1, h2] at hpos
    · obtain ⟨h1, h2, h3, h4⟩ := byte_point b ht
      rw [if_neg h1, if_pos h2]
      unfold numberPoint
      rw [if_pos, strictAdd_ok (by show _ + 1 ≤ _; simp only [Numeral.at]; omega)]
      · cases hf
        simp [Numeral.push, h1, h2, Numeral.excess, Numeral.at, Numeral.num, hbl, bytes_length]
      · cases hf
        simp [Numeral.range]
    · obtain ⟨h1, h2, h3, h4⟩ := byte_sign b ht
      cases hf
      cases hdg
      rw [if_pos h1]
      unfold numberSign
      simp only []
      rw [if_pos ⟨rfl, by simp [Numeral.num]⟩, strictAdd_ok (by show _ + 1 ≤ _; simp only [Numeral.at]; omega)]
      simp only [List.length_nil, Nat.add_zero] at hbl hpos
      simp only [Option.map_some, Numeral.push, h1, if_true, Numeral.excess, true_and, Numeral.at, Numeral.num, hbl, bytes_length, signOf_last _ _ h1,
        List.length_append, List.length_singleton, List.length_nil, Nat.add_zero]
      congr 3
      refine propext ⟨fun h => ?_, fun h => ?_⟩
      · rw [beq_iff_eq]; omega
      · rw [beq_iff_eq] at h; omega
  · simp only [hd, false_or] at ht hbl hpos
    obtain ⟨he, ht⟩ := ht
    subst he
    obtain ⟨h1, h2, h3, h4⟩ := byte_sign b ht
    rw [if_pos h1]
    unfold numberSign
    simp only []
    rw [if_neg, if_pos]
    · rw [strictAdd_ok (by show _ + 1 ≤ _; simp only [Numeral.at]; omega), strictAdd_ok, strictAdd_ok]
      · show some _ = some _
        simp only [Numeral.push, h1, if_true, Numeral.excess, true_and, Numeral.at, Numeral.num, hbl, bytes_length, signOf_last _ _ h1,
          List.length_append, List.length_singleton, List.length_nil, Nat.add_zero]
        congr 1
        refine Prod.ext ?_ ?_
        · simp only [Dec.mk.injEq, State.number.injEq, Num.mk.injEq, Range.mk.injEq, true_and, and_true]
          omega
        · simp only []
          by_cases h : s = []
          · subst h
            rcases fr with - | f
            · rw [if_neg (by simp)]; simp
            · rw [if_neg (by simp; omega)]; simp
          · have := List.length_pos_iff.mpr h
            rcases fr with - | f
            · rw [if_pos (by simp only []; omega)]; simp [h]
            · rw [if_pos (by simp only []; omega)]; simp [h]
      · simp only [Numeral.num]; omega
      · simp only [Numeral.num]
        rcases fr with - | f
        · simp [usizeMax]
        · simp only []; simp only [] at hbl; omega
    · refine ⟨rfl, ?_⟩
      simp [Numeral.num]
    · rintro ⟨h, -⟩
      simp only [Numeral.range, Numeral.num, Range.mk.injEq] at h
      omega

/-- A byte the numeral does not go on with. -/
theorem stop_step (n : Numeral) (b : UInt8) (r : List UInt8) (hne : n.signs ≠ [] ∨ n.digits ≠ []) (ht : ¬ n.Takes b)
    (text : List UInt8) (htext : text = n.bytes ++ b :: r) :
    (match text[n.bytes.length]? with
    | none => none
    | some b =>
      if b = 0x2b ∨ b = 0x2d then numberSign n.at n.num n.range b text
      else if b = 0x2e then numberPoint n.at n.num n.range text
      else if b = 0x65 ∨ b = 0x45 then numberExponent n.at n.num n.range text
      else finishNumber n.at text)
    = finishNumber n.at text := by
  rw [htext, getElem_at rfl, ← htext]
  simp only []
  have hpos : 0 < n.signs.length + n.digits.length := by
    rcases hne with h | h
    · have := List.length_pos_iff.mpr h; omega
    · have := List.length_pos_iff.mpr h; omega
  obtain ⟨sg, dg, fr, ex⟩ := n
  unfold Numeral.Takes at ht
  simp only [not_or] at ht
  obtain ⟨hd, ht⟩ := ht
  by_cases h1 : b = 0x2b ∨ b = 0x2d
  · rw [if_pos h1]
    have hs : SignByte b := h1
    unfold numberSign
    simp only []
    rcases ex with - | ⟨c, s, e⟩
    · simp only [not_or, not_and] at ht
      rw [if_neg, if_neg]
      · rintro ⟨h, -⟩
        rcases fr with - | f
        · simp only [Numeral.range, Numeral.num, Range.mk.injEq] at h hpos
          omega
        · simp only [Numeral.range, Numeral.num, Range.mk.injEq] at h
          omega
      · rintro ⟨h, h'⟩
        rcases fr with - | f
        · simp only [Numeral.num, ge_iff_le] at h'
          exact (ht.2 rfl).2 (List.length_eq_zero_iff.mp (by omega)) hs
        · simp [Numeral.range, Numeral.num] at h
          omega
    · simp only [not_and] at ht
      rw [if_neg, if_neg]
      · rintro ⟨-, h'⟩
        simp only [Numeral.num, ge_iff_le] at h'
        exact ht (List.length_eq_zero_iff.mp (by omega)) hs
      · rintro ⟨h, -⟩
        simp only [Numeral.range, Numeral.num, Range.mk.injEq] at h
        rcases fr with - | f <;> simp at h <;> omega
  · rw [if_neg h1]
    by_cases h2 : b = 0x2e
    · rw [if_pos h2]
      have hp : Point b := h2
      unfold numberPoint
      rw [if_neg]
      intro h
      rcases ex with - | ⟨c, s, e⟩
      · simp only [not_or, not_and] at ht
        rcases fr with - | f
        · exact (ht.2 rfl).1 hp
        · simp [Numeral.range, Numeral.num] at h
          omega
      · simp only [Numeral.range, Numeral.num, Range.mk.injEq] at h
        rcases fr with - | f <;> simp at h <;> omega
    · rw [if_neg h2]
      by_cases h3 : b = 0x65 ∨ b = 0x45
      · rw [if_pos h3]
        have hp : Exp b := h3
        unfold numberExponent
        rcases ex with - | ⟨c, s, e⟩
        · simp only [not_or] at ht
          exact (ht.1 hp).elim
        · rw [if_neg]
          simp [Numeral.range]
      · rw [if_neg h3]

end Verif.Json.Bytes
