import Verif.Text.ModelLossy
import Verif.Text.SpecLossy
import Verif.Args.Utf8Chars
/-! # Lemmas: replacing what is not UTF-8 -/
namespace Verif.Text
open Verif.Args

theorem any_byte {p : UInt8 → Prop} (h : ∀ n : Fin 256, p (UInt8.ofNat n.val)) (b : UInt8) : p b := by
  have := h ⟨b.toNat, b.toNat_lt⟩
  rwa [UInt8.ofNat_toNat] at this

/-- The test for continuation bytes. -/
theorem cont_test (x : UInt8) : (x &&& 192 != 128) = !isCont x := any_byte (p := fun x => (x &&& 192 != 128) = !isCont x) (by decide +kernel) x

/-- The rounds of the loop, with the predicates of the table. -/
theorem turn_eq (s : Bytes) : turn s =
    if safe_get s 0 < 0x80 then (1, true)
    else match char_width (safe_get s 0) with
      | 2 => if isCont (safe_get s 1) then (2, true) else (1, false)
      | 3 =>
        if second_of_three (safe_get s 0) (safe_get s 1) then
          if isCont (safe_get s 2) then (3, true) else (2, false)
        else (1, false)
      | 4 =>
        if second_of_four (safe_get s 0) (safe_get s 1) then
          if isCont (safe_get s 2) then
            if isCont (safe_get s 3) then (4, true) else (3, false)
          else (2, false)
        else (1, false)
      | _ => (1, false) := by
  unfold turn
  simp only [cont_test]
  cases isCont (safe_get s 1) <;> cases isCont (safe_get s 2) <;> cases isCont (safe_get s 3) <;> rfl

theorem three_eq (a b c : UInt8) : utf8Three a b c = (second_of_three a b && isCont c) := by
  unfold utf8Three second_of_three isCont
  rw [Bool.and_comm]
  simp only [Bool.and_assoc]

theorem four_eq (a b c d : UInt8) : utf8Four a b c d = (second_of_four a b && isCont c && isCont d) := by
  unfold utf8Four second_of_four isCont
  rw [Bool.and_comm]
  simp only [Bool.and_assoc]

theorem width_iff (a : UInt8) : (char_width a = 2 ↔ 194 ≤ a.toNat ∧ a.toNat ≤ 223) ∧ (char_width a = 3 ↔ 224 ≤ a.toNat ∧ a.toNat ≤ 239)
    ∧ (char_width a = 4 ↔ 240 ≤ a.toNat ∧ a.toNat ≤ 244) :=
  any_byte (p := fun a => (char_width a = 2 ↔ 194 ≤ a.toNat ∧ a.toNat ≤ 223) ∧ (char_width a = 3 ↔ 224 ≤ a.toNat ∧ a.toNat ≤ 239)
    ∧ (char_width a = 4 ↔ 240 ≤ a.toNat ∧ a.toNat ≤ 244)) (by decide +kernel) a

theorem two_eq (a b : UInt8) : utf8Two a b = (char_width a == 2 && isCont b) := by
  rw [Bool.eq_iff_iff, utf8Two_iff, Bool.and_eq_true, beq_iff_eq, (width_iff a).1, isCont_iff]

theorem second_three_iff (a b : UInt8) : second_of_three a b = true ↔
    ((((a.toNat = 224 ∧ 160 ≤ b.toNat) ∧ b.toNat ≤ 191 ∨ (225 ≤ a.toNat ∧ a.toNat ≤ 236) ∧ 128 ≤ b.toNat ∧ b.toNat ≤ 191)
      ∨ (a.toNat = 237 ∧ 128 ≤ b.toNat) ∧ b.toNat ≤ 159) ∨ (238 ≤ a.toNat ∧ a.toNat ≤ 239) ∧ 128 ≤ b.toNat ∧ b.toNat ≤ 191) := by
  have h := utf8Three_iff a b 0x80
  rw [three_eq] at h
  simp only [show isCont 0x80 = true from rfl, Bool.and_true] at h
  rw [h]
  exact ⟨fun x => x.2, fun x => ⟨by decide, x⟩⟩

theorem second_four_iff (a b : UInt8) : second_of_four a b = true ↔
    (((a.toNat = 240 ∧ 144 ≤ b.toNat) ∧ b.toNat ≤ 191 ∨ (241 ≤ a.toNat ∧ a.toNat ≤ 243) ∧ 128 ≤ b.toNat ∧ b.toNat ≤ 191)
      ∨ (a.toNat = 244 ∧ 128 ≤ b.toNat) ∧ b.toNat ≤ 143) := by
  have h := utf8Four_iff a b 0x80 0x80
  rw [four_eq] at h
  simp only [show isCont 0x80 = true from rfl, Bool.and_true] at h
  rw [h]
  exact ⟨fun x => x.2, fun x => ⟨by decide, x⟩⟩

/-- The widths exclude each other. -/
theorem lead_three {a b : UInt8} (h : second_of_three a b = true) : char_width a = 3 ∧ ¬ a < 0x80 := by
  have := (second_three_iff a b).mp h
  exact ⟨(width_iff a).2.1.mpr (by omega), fun h => by have := (lt_iff a).mp h; omega⟩

theorem lead_four {a b : UInt8} (h : second_of_four a b = true) : char_width a = 4 ∧ ¬ a < 0x80 := by
  have := (second_four_iff a b).mp h
  exact ⟨(width_iff a).2.2.mpr (by omega), fun h => by have := (lt_iff a).mp h; omega⟩

theorem lead_two {a : UInt8} (h : char_width a = 2) : ¬ a < 0x80 := by
  have := (width_iff a).1.mp h
  exact fun h => by have := (lt_iff a).mp h; omega

/-! ### Rounds -/

theorem turn_one {a : UInt8} (h : a < 0x80) (l : Bytes) : turn (a :: l) = (1, true) := by
  rw [turn_eq]; exact if_pos h

theorem turn_two {a b : UInt8} (h : utf8Two a b = true) (l : Bytes) : turn (a :: b :: l) = (2, true) := by
  rw [two_eq, Bool.and_eq_true, beq_iff_eq] at h
  simp only [turn_eq, safe_get, List.getD_cons_zero, List.getD_cons_succ, if_neg (lead_two h.1), h.1, h.2, if_true]

theorem turn_three {a b c : UInt8} (h : utf8Three a b c = true) (l : Bytes) : turn (a :: b :: c :: l) = (3, true) := by
  rw [three_eq, Bool.and_eq_true] at h
  obtain ⟨w, n⟩ := lead_three h.1
  simp only [turn_eq, safe_get, List.getD_cons_zero, List.getD_cons_succ, if_neg n, w, h.1, h.2, if_true]

theorem turn_four {a b c d : UInt8} (h : utf8Four a b c d = true) (l : Bytes) : turn (a :: b :: c :: d :: l) = (4, true) := by
  rw [four_eq, Bool.and_eq_true, Bool.and_eq_true] at h
  obtain ⟨w, n⟩ := lead_four h.1.1
  simp only [turn_eq, safe_get, List.getD_cons_zero, List.getD_cons_succ, if_neg n, w, h.1.1, h.1.2, h.2, if_true]

/-- The encodings of characters are the rows of the table. -/
inductive Row : Bytes → Prop
  | one {a : UInt8} : a < 0x80 → Row [a]
  | two {a b : UInt8} : utf8Two a b = true → Row [a, b]
  | three {a b c : UInt8} : utf8Three a b c = true → Row [a, b, c]
  | four {a b c d : UInt8} : utf8Four a b c d = true → Row [a, b, c, d]

theorem row_of {n : Nat} {bs : Bytes} (h : Encodes n bs) : Row bs := by
  cases h with
  | one h => exact .one ((lt_iff _).mpr (by rw [toNat_ofNat_lt (by omega)]; omega))
  | two h1 h =>
    refine .two ((utf8Two_iff _ _).mpr ?_)
    rw [toNat_ofNat_lt (by omega), toNat_ofNat_lt (by omega)]; omega
  | three h1 h hs =>
    refine .three ((utf8Three_iff _ _ _).mpr ?_)
    rw [toNat_ofNat_lt (by omega), toNat_ofNat_lt (by omega), toNat_ofNat_lt (by omega)]; omega
  | four h1 h =>
    refine .four ((utf8Four_iff _ _ _ _).mpr ?_)
    rw [toNat_ofNat_lt (by omega), toNat_ofNat_lt (by omega), toNat_ofNat_lt (by omega), toNat_ofNat_lt (by omega)]; omega

theorem row_char (c : Char) : Row (String.utf8EncodeChar c) := row_of (encode_eq c)

theorem char_row {bs : Bytes} (h : Row bs) : ∃ c : Char, bs = String.utf8EncodeChar c := by
  cases h with
  | one h => exact encodes_char (encodes_one h)
  | two h => exact encodes_char (encodes_two h).choose_spec
  | three h => exact encodes_char (encodes_three h).choose_spec
  | four h => exact encodes_char (encodes_four h).choose_spec

theorem turn_char (c : Char) (l : Bytes) : turn (String.utf8EncodeChar c ++ l) = ((String.utf8EncodeChar c).length, true) := by
  have h := row_char c
  generalize String.utf8EncodeChar c = bs at h
  cases h with
  | one h => exact turn_one h l
  | two h => exact turn_two h l
  | three h => exact turn_three h l
  | four h => exact turn_four h l

/-! ### What characters begin with -/

/-- `Begins`, by the table. -/
def begun : Bytes → Bool
  | [] => true
  | [a] => char_width a != 0
  | [a, b] => utf8Two a b || second_of_three a b || second_of_four a b
  | [a, b, c] => utf8Three a b c || (second_of_four a b && isCont c)
  | [a, b, c, d] => utf8Four a b c d
  | _ => false

theorem width_one {a : UInt8} (h : a < 0x80) : char_width a = 1 := if_pos h

theorem begun_of {s : Bytes} (h : Begins s) : begun s = true := by
  obtain ⟨c, h⟩ := h
  have hr := row_char c
  generalize String.utf8EncodeChar c = bs at h hr
  have hs := List.prefix_iff_eq_take.mp h
  have hl := h.length_le
  generalize s.length = k at hs hl
  clear h
  subst hs
  cases hr with
  | one h =>
    match k, hl with
    | 0, _ => rfl
    | 1, _ => show (char_width _ != 0) = true; rw [width_one h]; rfl
  | two h =>
    match k, hl with
    | 0, _ => rfl
    | 1, _ =>
      rw [two_eq, Bool.and_eq_true, beq_iff_eq] at h
      show (char_width _ != 0) = true; rw [h.1]; rfl
    | 2, _ => show (utf8Two _ _ || _ || _) = true; rw [h]; rfl
  | three h =>
    match k, hl with
    | 0, _ => rfl
    | 1, _ =>
      rw [three_eq, Bool.and_eq_true] at h
      show (char_width _ != 0) = true; rw [(lead_three h.1).1]; rfl
    | 2, _ =>
      rw [three_eq, Bool.and_eq_true] at h
      show (_ || second_of_three _ _ || _) = true; rw [h.1]; simp
    | 3, _ => show (utf8Three _ _ _ || _) = true; rw [h]; rfl
  | four h =>
    match k, hl with
    | 0, _ => rfl
    | 1, _ =>
      rw [four_eq, Bool.and_eq_true, Bool.and_eq_true] at h
      show (char_width _ != 0) = true; rw [(lead_four h.1.1).1]; rfl
    | 2, _ =>
      rw [four_eq, Bool.and_eq_true, Bool.and_eq_true] at h
      show (_ || _ || second_of_four _ _) = true; rw [h.1.1]; simp
    | 3, _ =>
      rw [four_eq, Bool.and_eq_true, Bool.and_eq_true] at h
      show (_ || (second_of_four _ _ && isCont _)) = true; rw [h.1.1, h.1.2]; simp
    | 4, _ => exact h

theorem begins_row {bs s : Bytes} (h : Row bs) (hs : s <+: bs) : Begins s := by
  obtain ⟨c, rfl⟩ := char_row h
  exact ⟨c, hs⟩

/-- What the rounds of the loop pass without completing a character. -/
theorem begins_three {a b : UInt8} (h : second_of_three a b = true) : Begins [a, b] :=
  begins_row (bs := [a, b, 0x80]) (.three (by rw [three_eq, h]; rfl)) ⟨[0x80], rfl⟩

theorem begins_four {a b : UInt8} (h : second_of_four a b = true) : Begins [a, b] :=
  begins_row (bs := [a, b, 0x80, 0x80]) (.four (by rw [four_eq, h]; rfl)) ⟨[0x80, 0x80], rfl⟩

theorem begins_four' {a b c : UInt8} (h : second_of_four a b = true) (hc : isCont c = true) : Begins [a, b, c] :=
  begins_row (bs := [a, b, c, 0x80]) (.four (by rw [four_eq, h, hc]; rfl)) ⟨[0x80], rfl⟩

theorem begun_two {a b : UInt8} {r : Bytes} (h : begun (a :: b :: r) = true) :
    (char_width a = 2 ∧ isCont b = true ∧ r = []) ∨ second_of_three a b = true ∨ second_of_four a b = true := by
  match r, h with
  | [], h =>
    simp only [begun, two_eq, Bool.or_eq_true, Bool.and_eq_true, beq_iff_eq] at h
    rcases h with (h | h) | h
    · exact .inl ⟨h.1, h.2, rfl⟩
    · exact .inr (.inl h)
    · exact .inr (.inr h)
  | [c], h =>
    simp only [begun, three_eq, Bool.or_eq_true, Bool.and_eq_true] at h
    rcases h with h | h
    · exact .inr (.inl h.1)
    · exact .inr (.inr h.1)
  | [c, d], h =>
    simp only [begun, four_eq, Bool.and_eq_true] at h
    exact .inr (.inr h.1.1)
  | _ :: _ :: _ :: _, h => cases h

theorem begun_three {a b c : UInt8} {r : Bytes} (h : begun (a :: b :: c :: r) = true) :
    (second_of_three a b = true ∧ isCont c = true ∧ r = []) ∨ (second_of_four a b = true ∧ isCont c = true) := by
  match r, h with
  | [], h =>
    simp only [begun, three_eq, Bool.or_eq_true, Bool.and_eq_true] at h
    rcases h with h | h
    · exact .inl ⟨h.1, h.2, rfl⟩
    · exact .inr h
  | [d], h =>
    simp only [begun, four_eq, Bool.and_eq_true] at h
    exact .inr h.1
  | _ :: _ :: _, h => cases h

theorem begun_four {a b c d : UInt8} {r : Bytes} (h : begun (a :: b :: c :: d :: r) = true) : isCont d = true := by
  match r, h with
  | [], h =>
    simp only [begun, four_eq, Bool.and_eq_true] at h
    exact h.2
  | _ :: _, h => cases h

theorem cont_zero : isCont 0 = false := rfl
theorem three_zero (a : UInt8) : second_of_three a 0 = false := by
  apply Bool.eq_false_iff.mpr
  intro h
  have := (second_three_iff a 0).mp h
  have e : (0 : UInt8).toNat = 0 := rfl
  omega
theorem four_zero (a : UInt8) : second_of_four a 0 = false := by
  apply Bool.eq_false_iff.mpr
  intro h
  have := (second_four_iff a 0).mp h
  have e : (0 : UInt8).toNat = 0 := rfl
  omega

/-- What a round has done. -/
structure Turned (s : Bytes) (n : Nat) (ok : Bool) : Prop where
  le : n ≤ s.length
  small : n ≤ 3 ∨ ok = true
  whole : ok = true → Row (s.take n)
  part : ok = false → n = 1 ∨ Begins (s.take n)
  most : ok = false → ∀ m, n < m → m ≤ s.length → begun (s.take m) = false

theorem turned_one {a : UInt8} {l : Bytes} (h : ∀ b r, l = b :: r → begun (a :: b :: r) = false ∧ ∀ k, begun (a :: b :: r.take k) = false) :
    Turned (a :: l) 1 false where
  le := by simp
  small := .inl (by decide)
  whole := fun h => by cases h
  part := fun _ => .inl rfl
  most := fun _ m h1 h2 => by
    match l, m with
    | [], m => simp only [List.length_singleton] at h2; omega
    | b :: r, k + 2 => exact (h b r rfl).2 k

theorem turn_spec (s : Bytes) (hs : s ≠ []) : Turned s (turn s).1 (turn s).2 := by
  match s, hs with
  | a :: l, _ =>
    rw [turn_eq]
    simp only [safe_get, List.getD_cons_zero, List.getD_cons_succ]
    by_cases h1 : a < 0x80
    · rw [if_pos h1]
      exact ⟨by simp, .inr rfl, fun _ => .one h1, fun h => (by cases h), fun h => by cases h⟩
    · rw [if_neg h1]
      have bad2 : ∀ b r, begun (a :: b :: r) = true → char_width a = 2 ∨ char_width a = 3 ∨ char_width a = 4 := by
        intro b r h
        rcases begun_two h with h | h | h
        · exact .inl h.1
        · exact .inr (.inl (lead_three h).1)
        · exact .inr (.inr (lead_four h).1)
      split
      · -- two bytes
        rename_i hw
        cases l with
        | nil => 
          simp only [List.getD_nil, cont_zero, Bool.false_eq_true, if_false]
          exact turned_one fun b r h => by cases h
        | cons b l =>
          simp only [List.getD_cons_zero]
          cases hb : isCont b
          · simp only [Bool.false_eq_true, if_false]
            refine turned_one fun b' r h => ?_
            cases h
            have key : ∀ r, begun (a :: b :: r) = false := fun r => Bool.eq_false_iff.mpr fun h => by
              rcases begun_two h with h | h | h
              · rw [hb] at h; cases h.2.1
              · rw [(lead_three h).1] at hw; cases hw
              · rw [(lead_four h).1] at hw; cases hw
            exact ⟨key _, fun k => key _⟩
          · simp only [if_true]
            exact ⟨by simp, .inr rfl, fun _ => .two (by rw [two_eq, hw, hb]; rfl), fun h => (by cases h), fun h => by cases h⟩
      · -- three bytes
        rename_i hw
        cases l with
        | nil =>
          simp only [List.getD_nil, three_zero, Bool.false_eq_true, if_false]
          exact turned_one fun b r h => by cases h
        | cons b l =>
          simp only [List.getD_cons_zero, List.getD_cons_succ]
          cases hb : second_of_three a b
          · simp only [Bool.false_eq_true, if_false]
            refine turned_one fun b' r h => ?_
            cases h
            have key : ∀ r, begun (a :: b :: r) = false := fun r => Bool.eq_false_iff.mpr fun h => by
              rcases begun_two h with h | h | h
              · rw [h.1] at hw; cases hw
              · rw [hb] at h; cases h
              · rw [(lead_four h).1] at hw; cases hw
            exact ⟨key _, fun k => key _⟩
          · simp only [if_true]
            cases l with
            | nil =>
              simp only [List.getD_nil, cont_zero, Bool.false_eq_true, if_false]
              exact ⟨by simp, .inl (by decide), fun h => (by cases h), fun _ => .inr (begins_three hb),
                fun _ m h1 h2 => (by simp only [List.length_cons, List.length_nil] at h2; omega)⟩
            | cons c l =>
              simp only [List.getD_cons_zero]
              cases hc : isCont c
              · simp only [Bool.false_eq_true, if_false]
                refine ⟨by simp, .inl (by decide), fun h => (by cases h), fun _ => .inr (begins_three hb), fun _ m h1 h2 => ?_⟩
                match m with
                | k + 3 =>
                  refine Bool.eq_false_iff.mpr fun h => ?_
                  rcases begun_three h with h | h
                  · rw [hc] at h; cases h.2.1
                  · rw [hc] at h; cases h.2
              · simp only [if_true]
                exact ⟨by simp, .inr rfl, fun _ => .three (by rw [three_eq, hb, hc]; rfl), fun h => (by cases h), fun h => by cases h⟩
      · -- four bytes
        rename_i hw
        cases l with
        | nil =>
          simp only [List.getD_nil, four_zero, Bool.false_eq_true, if_false]
          exact turned_one fun b r h => by cases h
        | cons b l =>
          simp only [List.getD_cons_zero, List.getD_cons_succ]
          cases hb : second_of_four a b
          · simp only [Bool.false_eq_true, if_false]
            refine turned_one fun b' r h => ?_
            cases h
            have key : ∀ r, begun (a :: b :: r) = false := fun r => Bool.eq_false_iff.mpr fun h => by
              rcases begun_two h with h | h | h
              · rw [h.1] at hw; cases hw
              · rw [(lead_three h).1] at hw; cases hw
              · rw [hb] at h; cases h
            exact ⟨key _, fun k => key _⟩
          · simp only [if_true]
            cases l with
            | nil =>
              simp only [List.getD_nil, cont_zero, Bool.false_eq_true, if_false]
              exact ⟨by simp, .inl (by decide), fun h => (by cases h), fun _ => .inr (begins_four hb),
                fun _ m h1 h2 => (by simp only [List.length_cons, List.length_nil] at h2; omega)⟩
            | cons c l =>
              simp only [List.getD_cons_zero, List.getD_cons_succ]
              cases hc : isCont c
              · simp only [Bool.false_eq_true, if_false]
                refine ⟨by simp, .inl (by decide), fun h => (by cases h), fun _ => .inr (begins_four hb), fun _ m h1 h2 => ?_⟩
                match m with
                | k + 3 =>
                  refine Bool.eq_false_iff.mpr fun h => ?_
                  rcases begun_three h with h | h
                  · rw [hc] at h; cases h.2.1
                  · rw [hc] at h; cases h.2
              · simp only [if_true]
                cases l with
                | nil =>
                  simp only [List.getD_nil, cont_zero, Bool.false_eq_true, if_false]
                  exact ⟨by simp, .inl (by decide), fun h => (by cases h), fun _ => .inr (begins_four' hb hc),
                    fun _ m h1 h2 => (by simp only [List.length_cons, List.length_nil] at h2; omega)⟩
                | cons d l =>
                  simp only [List.getD_cons_zero]
                  cases hd : isCont d
                  · simp only [Bool.false_eq_true, if_false]
                    refine ⟨by simp, .inl (by decide), fun h => (by cases h), fun _ => .inr (begins_four' hb hc), fun _ m h1 h2 => ?_⟩
                    match m with
                    | k + 4 =>
                      refine Bool.eq_false_iff.mpr fun h => ?_
                      have := begun_four h
                      rw [hd] at this; cases this
                  · simp only [if_true]
                    exact ⟨by simp, .inr rfl, fun _ => .four (by rw [four_eq, hb, hc, hd]; rfl), fun h => (by cases h), fun h => by cases h⟩
      · -- no first byte
        rename_i h2 h3 h4
        refine turned_one fun b r _ => ?_
        have key : ∀ r, begun (a :: b :: r) = false := fun r => Bool.eq_false_iff.mpr fun h => by
          rcases bad2 b r h with h | h | h
          · exact h2 h
          · exact h3 h
          · exact h4 h
        exact ⟨key _, fun k => key _⟩

/-! ### All of the text -/

/-- The text, round by round. -/
def lossyBytes (s : Bytes) : Bytes :=
  if h : s = [] then []
  else if (turn s).2 then s.take (turn s).1 ++ lossyBytes (s.drop (turn s).1)
  else replacement ++ lossyBytes (s.drop (turn s).1)
termination_by s.length
decreasing_by
  all_goals
    have := turn_pos s
    have := List.length_pos_iff.mpr h
    rw [List.length_drop]
    omega

theorem drop_shorter {s : Bytes} (h : s ≠ []) : (s.drop (turn s).1).length < s.length := by
  have := turn_pos s
  have := List.length_pos_iff.mpr h
  rw [List.length_drop]
  omega

/-- What is made of a chunk. -/
def chunkText (c : Bytes × Bytes) : Bytes := if c.2 = [] then c.1 else c.1 ++ replacement

theorem scan_le (s : Bytes) : (scan s).1 ≤ (scan s).2 ∧ (scan s).2 ≤ s.length := by
  generalize hn : s.length = n
  induction n using Nat.strongRecOn generalizing s with
  | ind n ih =>
    subst hn
    by_cases h : s = []
    · subst h; rw [scan]; exact ⟨Nat.le_refl _, Nat.le_refl _⟩
    · have hd := drop_shorter h
      have ht := turn_spec s h
      rw [scan, dif_neg h]
      simp only []
      split
      · obtain ⟨h1, h2⟩ := ih _ hd (s.drop (turn s).1) rfl
        rw [List.length_drop] at h2
        have := ht.le
        simp only []
        omega
      · exact ⟨Nat.zero_le _, ht.le⟩

theorem chunks_text (s : Bytes) : ((chunks s).map chunkText).flatten = lossyBytes s := by
  generalize hn : s.length = n
  induction n using Nat.strongRecOn generalizing s with
  | ind n ih =>
    subst hn
    by_cases h : s = []
    · subst h; rw [chunks, lossyBytes]; rfl
    · have hd := drop_shorter h
      have hp := turn_pos s
      have ht := turn_spec s h
      have hc := ih _ hd (s.drop (turn s).1) rfl
      have hle := scan_le s
      rw [chunks, dif_neg h, lossyBytes, dif_neg h]
      simp only [List.map_cons, List.flatten_cons]
      rw [scan, dif_neg h]
      simp only []
      cases hok : (turn s).2
      · simp only [Bool.false_eq_true, if_false, List.take_zero, List.drop_zero]
        rw [hc]
        congr 1
        have : s.take (turn s).1 ≠ [] := by
          have := List.length_pos_iff.mpr h
          rw [Ne, ← List.length_eq_zero_iff, List.length_take]
          omega
        unfold chunkText
        rw [if_neg this]
        rfl
      · simp only [if_true]
        rw [← hc]
        by_cases hr : s.drop (turn s).1 = []
        · have hs : scan (s.drop (turn s).1) = (0, 0) := by rw [scan, dif_pos hr]
          have hce : chunks ((s.drop (turn s).1)) = [] := by rw [chunks, dif_pos hr]
          rw [hs, Nat.add_zero, hce]
          simp [chunkText, List.take_take]
        · have hle' := scan_le (s.drop (turn s).1)
          rw [chunks.eq_def (s.drop (turn s).1), dif_neg hr]
          simp only [List.map_cons, List.flatten_cons]
          generalize scan (s.drop (turn s).1) = r at hle' ⊢
          have e1 : (s.take ((turn s).1 + r.2)).take ((turn s).1 + r.1) = s.take (turn s).1 ++ ((s.drop (turn s).1).take r.2).take r.1 := by
            rw [List.take_take, Nat.min_eq_left (by omega), List.take_take, Nat.min_eq_left hle'.1, List.take_add]
          have e2 : (s.take ((turn s).1 + r.2)).drop ((turn s).1 + r.1) = ((s.drop (turn s).1).take r.2).drop r.1 := by
            rw [List.take_add, List.drop_append]
            have : (s.take (turn s).1).length = (turn s).1 := by rw [List.length_take]; exact Nat.min_eq_left ht.le
            rw [this, List.drop_eq_nil_of_le (by omega), List.nil_append]
            congr 1
            omega
          rw [e1, e2, ← List.drop_drop]
          rw [← List.append_assoc]
          congr 1
          unfold chunkText
          simp only []
          split
          · rfl
          · rw [List.append_assoc]

theorem fold_text (l : List (Bytes × Bytes)) (r : Bytes) :
    l.foldl (fun res chunk => if chunk.2 = [] then res ++ chunk.1 else res ++ chunk.1 ++ replacement) r = r ++ (l.map chunkText).flatten := by
  induction l generalizing r with
  | nil => simp
  | cons c l ih =>
    rw [List.foldl_cons, ih, List.map_cons, List.flatten_cons, ← List.append_assoc]
    congr 1
    unfold chunkText
    split
    · rfl
    · rw [List.append_assoc]

/-- What comes first in each chunk is whole characters, and ends only at the end or with something else. -/
theorem scan_rest (s : Bytes) (h : s ≠ []) (hr : (scan s).1 = (scan s).2) : (scan s).2 = s.length := by
  generalize hn : s.length = n
  induction n using Nat.strongRecOn generalizing s with
  | ind n ih =>
    subst hn
    have hd := drop_shorter h
    have ht := turn_spec s h
    rw [scan, dif_neg h] at hr ⊢
    simp only [] at hr ⊢
    split at hr
    · rename_i hok
      rw [if_pos hok]
      simp only [] at hr ⊢
      have hl := ht.le
      by_cases hx : s.drop (turn s).1 = []
      · have := congrArg List.length hx
        rw [List.length_drop, List.length_nil] at this
        have hs : scan (s.drop (turn s).1) = (0, 0) := by rw [scan, dif_pos hx]
        rw [hs]
        simp only []
        omega
      · have := ih _ hd _ hx (by omega) rfl
        rw [List.length_drop] at this
        omega
    · have := turn_pos s
      simp only [] at hr
      omega

theorem lossy_text (v : Bytes) : (from_utf8_lossy v).text = lossyBytes v := by
  rw [← chunks_text]
  unfold from_utf8_lossy
  cases v with
  | nil => rw [chunks]; rfl
  | cons a l =>
    have hne : a :: l ≠ [] := by simp
    have hr := scan_rest (a :: l) hne
    have hle := scan_le (a :: l)
    rw [chunks, dif_neg hne]
    simp only []
    generalize scan (a :: l) = r at hr hle ⊢
    split
    · rename_i he
      have : r.2 - r.1 = 0 := by
        have := congrArg List.length he
        rw [List.length_drop, List.length_take, List.length_nil] at this
        omega
      have hall := hr (by omega)
      have hnil : chunks ((a :: l).drop r.2) = [] := by
        rw [chunks, dif_pos (List.drop_eq_nil_of_le (by omega))]
      rw [hnil]
      simp only [Cow.text, List.map_cons, List.map_nil, List.flatten_cons, List.flatten_nil, chunkText, List.append_nil]
      rw [if_pos he]
    · rename_i he
      simp only [Cow.text]
      rw [fold_text, List.map_cons, List.flatten_cons]
      congr 1
      unfold chunkText
      rw [if_neg he]

end Verif.Text
