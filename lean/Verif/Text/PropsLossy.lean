import Verif.Text.LemmasLossy
/-! # Property theorems: the lossy text of OS strings (C119) -/
namespace Verif.Text
open Verif.Args

/-! ### Lemmas -/

theorem replacement_char : String.utf8EncodeChar '�' = replacement := by decide

theorem lossy_step (s : Bytes) (h : s ≠ []) : lossyBytes s =
    (if (turn s).2 then s.take (turn s).1 else replacement) ++ lossyBytes (s.drop (turn s).1) := by
  rw [lossyBytes, dif_neg h]
  split <;> rfl

theorem lossy_exists (s : Bytes) : ∃ t, Lossy s t := by
  generalize hn : s.length = n
  induction n using Nat.strongRecOn generalizing s with
  | ind n ih =>
    subst hn
    by_cases h : s = []
    · subst h; exact ⟨[], .done⟩
    · obtain ⟨t, ht⟩ := ih _ (drop_shorter h) _ rfl
      have hs := turn_spec s h
      have hp := turn_pos s
      have hsplit := List.take_append_drop (turn s).1 s
      cases hok : (turn s).2
      · refine ⟨'�' :: t, ?_⟩
        rw [← hsplit]
        have hlen : (s.take (turn s).1).length = (turn s).1 := by rw [List.length_take]; exact Nat.min_eq_left hs.le
        refine .broken _ ?_ ?_ ?_ ?_ ht
        · intro he
          rw [he, List.length_nil] at hlen
          omega
        · rw [hsplit]
          rintro c ⟨l, hc⟩
          rw [← hc, turn_char] at hok
          cases hok
        · rw [hlen]
          exact hs.part hok
        · rw [hsplit, hlen]
          intro m h1 h2 hb
          have := hs.most hok m h1 h2
          rw [begun_of hb] at this
          cases this
      · obtain ⟨c, hc⟩ := char_row (hs.whole hok)
        refine ⟨c :: t, ?_⟩
        rw [← hsplit, hc]
        exact .char c ht

theorem lossy_is {s : Bytes} {t : List Char} (h : Lossy s t) : lossyBytes s = t.flatMap String.utf8EncodeChar := by
  induction h with
  | done => rw [lossyBytes]; rfl
  | @char b t c _ ih =>
    have hne : String.utf8EncodeChar c ++ b ≠ [] := by simp [String.utf8EncodeChar_ne_nil]
    rw [lossy_step _ hne, turn_char, List.flatMap_cons, ← ih]
    simp only [if_true, List.take_left', List.drop_left']
  | @broken b t s h1 h2 h3 h4 _ ih =>
    have hne : s ++ b ≠ [] := by simp [h1]
    have hs := turn_spec (s ++ b) hne
    have hp := turn_pos (s ++ b)
    have hpos := List.length_pos_iff.mpr h1
    cases hok : (turn (s ++ b)).2
    · have hlen : (turn (s ++ b)).1 = s.length := by
        rcases Nat.lt_trichotomy (turn (s ++ b)).1 s.length with hlt | he | hgt
        · rcases h3 with h3 | ⟨c, h3⟩
          · omega
          · have := hs.most hok s.length hlt (by simp)
            rw [List.take_left' rfl, begun_of ⟨c, h3⟩] at this
            cases this
        · exact he
        · rcases hs.part hok with h | h
          · omega
          · exact absurd h (h4 _ hgt hs.le)
      rw [lossy_step _ hne, hlen, hok, List.flatMap_cons, ← ih, List.drop_left' rfl, replacement_char]
      rfl
    · obtain ⟨c, hc⟩ := char_row (hs.whole hok)
      refine absurd ?_ (h2 c)
      rw [← hc]
      exact List.take_prefix _ _

theorem lossy_valid (s : Bytes) (h : isUtf8 s = true) : lossyBytes s = s := by
  obtain ⟨cs, rfl⟩ := (isUtf8_iff s).mp h
  have : ∀ cs : List Char, Lossy (cs.flatMap String.utf8EncodeChar) cs := by
    intro cs
    induction cs with
    | nil => exact .done
    | cons c cs ih => rw [List.flatMap_cons]; exact .char c ih
  exact lossy_is (this cs)

/-- ASCII does not continue anything, like the end. -/
theorem turn_before_ascii (a : Bytes) (s : UInt8) (b : Bytes) (ha : a ≠ []) (hs : s < 0x80) : turn (a ++ s :: b) = turn a := by
  have hc : isCont s = false := by
    simp only [isCont, Bool.and_eq_false_iff, decide_eq_false_iff_not]
    left; exact UInt8.not_le.mpr hs
  have h3 : ∀ x, second_of_three x s = false := by
    intro x
    apply Bool.eq_false_iff.mpr
    intro h
    have := (second_three_iff x s).mp h
    have := (lt_iff s).mp hs
    omega
  have h4 : ∀ x, second_of_four x s = false := by
    intro x
    apply Bool.eq_false_iff.mpr
    intro h
    have := (second_four_iff x s).mp h
    have := (lt_iff s).mp hs
    omega
  rw [turn_eq, turn_eq]
  match a, ha with
  | [x], _ =>
    simp only [List.cons_append, List.nil_append, safe_get, List.getD_cons_zero, List.getD_cons_succ, List.getD_nil, hc, cont_zero, h3, three_zero, h4, four_zero,
      Bool.false_eq_true, if_false]
  | [x, y], _ =>
    simp only [List.cons_append, List.nil_append, safe_get, List.getD_cons_zero, List.getD_cons_succ, List.getD_nil, hc, cont_zero,
      Bool.false_eq_true, if_false]
  | [x, y, z], _ =>
    simp only [List.cons_append, List.nil_append, safe_get, List.getD_cons_zero, List.getD_cons_succ, List.getD_nil, hc, cont_zero,
      Bool.false_eq_true, if_false]
  | x :: y :: z :: w :: r, _ =>
    simp only [List.cons_append, safe_get, List.getD_cons_zero, List.getD_cons_succ]

/-! ### C119 -/

/-- C119: the lossy text of an OS string is the text that Unicode recommends: all characters that are in it, with one U+FFFD for each
maximal part of a character, or single byte, that belongs to none. There is always such a text, and only one. -/
theorem lossy_spec (o : OsStr) : (∃ t, Lossy o.inner t) ∧ ∀ t, Lossy o.inner t → o.to_string_lossy.text = t.flatMap String.utf8EncodeChar :=
  ⟨lossy_exists _, fun _ h => (lossy_text _).trans (lossy_is h)⟩

/-- C119: it is always text. -/
theorem lossy_is_text (o : OsStr) : isUtf8 o.to_string_lossy.text = true := by
  obtain ⟨⟨t, h⟩, hs⟩ := lossy_spec o
  exact (isUtf8_iff _).mpr ⟨t, hs t h⟩

/-- C119: nothing is changed, and nothing allocated, exactly if the OS string is valid. -/
theorem lossy_borrowed_iff (o : OsStr) : (o.to_string_lossy = .borrowed o.inner ↔ isUtf8 o.inner = true)
    ∧ (o.to_string_lossy.text = o.inner ↔ isUtf8 o.inner = true) ∧ ∀ v, o.to_string_lossy = .borrowed v → v = o.inner := by
  have ht := lossy_text o.inner
  have key : ∀ v, o.to_string_lossy = .borrowed v → v = o.inner := by
    intro v h
    obtain ⟨s⟩ := o
    change from_utf8_lossy s = _ at h
    unfold from_utf8_lossy at h
    cases s with
    | nil => rw [chunks] at h; cases h; rfl
    | cons a l =>
      have hne : a :: l ≠ [] := by simp
      have hr := scan_rest (a :: l) hne
      have hle := scan_le (a :: l)
      rw [chunks, dif_neg hne] at h
      simp only [] at h
      generalize scan (a :: l) = r at hr hle h
      split at h
      · rename_i he
        cases h
        have : r.2 - r.1 = 0 := by
          have := congrArg List.length he
          rw [List.length_drop, List.length_take, List.length_nil] at this
          omega
        have hall := hr (by omega)
        rw [List.take_take, Nat.min_eq_left hle.1, List.take_of_length_le (by omega)]
      · cases h
  have same : o.to_string_lossy.text = o.inner ↔ isUtf8 o.inner = true :=
    ⟨fun h => h ▸ lossy_is_text o, fun h => ht.trans (lossy_valid _ h)⟩
  refine ⟨⟨fun h => same.mp (by rw [h]; rfl), fun h => ?_⟩, same, key⟩
  -- the first chunk is everything
  obtain ⟨s⟩ := o
  have hall : ∀ s : Bytes, isUtf8 s = true → scan s = (s.length, s.length) := by
    intro s h
    obtain ⟨cs, rfl⟩ := (isUtf8_iff s).mp h
    clear h ht key same
    induction cs with
    | nil => rw [scan]; rfl
    | cons c cs ih =>
      rw [List.flatMap_cons]
      have hne : String.utf8EncodeChar c ++ cs.flatMap String.utf8EncodeChar ≠ [] := by simp [String.utf8EncodeChar_ne_nil]
      rw [scan, dif_neg hne, turn_char]
      simp only [if_true, List.drop_left' rfl, ih, List.length_append]
  show from_utf8_lossy s = .borrowed s
  unfold from_utf8_lossy
  cases s with
  | nil => rw [chunks]; rfl
  | cons a l =>
    have hne : a :: l ≠ [] := by simp
    rw [chunks, dif_neg hne, hall _ h]
    simp only [List.take_length, List.drop_length, if_true]

/-- C119: ASCII characters are kept wherever they are, and separate the text: what is between them can be converted on its own. -/
theorem lossy_at_ascii (a b : Bytes) (s : UInt8) (hs : s < 0x80) :
    (OsStr.mk (a ++ s :: b)).to_string_lossy.text = (OsStr.mk a).to_string_lossy.text ++ s :: (OsStr.mk b).to_string_lossy.text := by
  show (from_utf8_lossy _).text = (from_utf8_lossy _).text ++ s :: (from_utf8_lossy _).text
  simp only [lossy_text, OsStr.as_encoded_bytes]
  generalize hn : a.length = n
  induction n using Nat.strongRecOn generalizing a with
  | ind n ih =>
    subst hn
    by_cases h : a = []
    · subst h
      rw [List.nil_append, lossy_step (s :: b) (by simp), turn_one hs]
      rw [show lossyBytes [] = [] by rw [lossyBytes]; rfl]
      rfl
    · have hl := (turn_spec a h).le
      rw [lossy_step (a ++ s :: b) (by simp), turn_before_ascii a s b h hs, List.take_append_of_le_length hl, List.drop_append_of_le_length hl,
        ih _ (drop_shorter h) _ rfl, ← List.append_assoc, ← lossy_step a h]

/-- C119: the text does not get shorter, and at most three times as long. -/
theorem lossy_length (o : OsStr) : o.inner.length ≤ o.to_string_lossy.text.length ∧ o.to_string_lossy.text.length ≤ 3 * o.inner.length := by
  obtain ⟨s⟩ := o
  show s.length ≤ (from_utf8_lossy s).text.length ∧ (from_utf8_lossy s).text.length ≤ 3 * s.length
  rw [lossy_text]
  generalize hn : s.length = n
  induction n using Nat.strongRecOn generalizing s with
  | ind n ih =>
    subst hn
    by_cases h : s = []
    · subst h; rw [lossyBytes]; simp
    · obtain ⟨h1, h2⟩ := ih _ (drop_shorter h) _ rfl
      have hs := turn_spec s h
      have hp := turn_pos s
      have hl := hs.le
      have hm := hs.small
      rw [lossy_step s h, List.length_append]
      rw [List.length_drop] at h1 h2
      cases hok : (turn s).2
      · simp only [Bool.false_eq_true, if_false]
        rw [show replacement.length = 3 from rfl]
        rcases hm with hm | hm
        · omega
        · rw [hok] at hm; cases hm
      · simp only [if_true]
        rw [List.length_take, Nat.min_eq_left hl]
        omega

/-- C119: converting again changes nothing. -/
theorem lossy_again (o : OsStr) : (OsStr.mk o.to_string_lossy.text).to_string_lossy = .borrowed o.to_string_lossy.text :=
  (lossy_borrowed_iff ⟨_⟩).1.mpr (lossy_is_text o)

/-- C119: a surrogate in the OS strings of Windows (three bytes that are no UTF-8) becomes three replacement characters. (The standard
library's own conversion of its OS strings makes one of it.) -/
theorem lossy_surrogate (x y : UInt8) (l : Bytes) (hx : 0xa0 ≤ x ∧ x ≤ 0xbf) (hy : isCont y = true) :
    (OsStr.mk (0xed :: x :: y :: l)).to_string_lossy.text = replacement ++ replacement ++ replacement ++ (OsStr.mk l).to_string_lossy.text := by
  show (from_utf8_lossy _).text = replacement ++ replacement ++ replacement ++ (from_utf8_lossy _).text
  simp only [lossy_text, OsStr.as_encoded_bytes]
  have hx' : isCont x = true := by
    have h1 := UInt8.le_iff_toNat_le.mp hx.1
    have h2 := UInt8.le_iff_toNat_le.mp hx.2
    exact (isCont_iff x).mpr ⟨Nat.le_trans (by decide) h1, h2⟩
  have hno : second_of_three 0xed x = false := by
    apply Bool.eq_false_iff.mpr
    intro h
    have := (second_three_iff 0xed x).mp h
    have h1 := UInt8.le_iff_toNat_le.mp hx.1
    have e : (0xed : UInt8).toNat = 237 := rfl
    have e' : (0xa0 : UInt8).toNat = 160 := rfl
    omega
  have t1 : ∀ l, turn (0xed :: x :: l) = (1, false) := by
    intro l
    rw [turn_eq]
    simp only [safe_get, List.getD_cons_zero, List.getD_cons_succ, hno]
    rfl
  have t2 : ∀ z l, isCont z = true → turn (z :: l) = (1, false) := by
    intro z l hz
    have := (isCont_iff z).mp hz
    rw [turn_eq]
    simp only [safe_get, List.getD_cons_zero]
    rw [if_neg (fun h => by have := (lt_iff z).mp h; omega)]
    have w := width_iff z
    split
    · rename_i h; have := w.1.mp h; omega
    · rename_i h; have := w.2.1.mp h; omega
    · rename_i h; have := w.2.2.mp h; omega
    · rfl
  rw [lossy_step (0xed :: x :: y :: l) (by simp), t1]
  simp only [List.drop_succ_cons, List.drop_zero, Bool.false_eq_true, if_false]
  rw [lossy_step (x :: y :: l) (by simp), t2 x _ hx']
  simp only [List.drop_succ_cons, List.drop_zero, Bool.false_eq_true, if_false]
  rw [lossy_step (y :: l) (by simp), t2 y _ hy]
  simp only [List.drop_succ_cons, List.drop_zero, Bool.false_eq_true, if_false, List.append_assoc]

/-! ## Examples -/

-- lossy_spec: "a", a euro sign without its last byte, "b", a byte that begins nothing, a clef.
#guard (OsStr.mk [0x61, 0xe2, 0x82, 0x62, 0xff, 0xf0, 0x9d, 0x84, 0x9e]).to_string_lossy
  = .owned ([0x61] ++ replacement ++ [0x62] ++ replacement ++ [0xf0, 0x9d, 0x84, 0x9e])
-- The example of Unicode (table 3-8): 61 F1 80 80 E1 80 C2 62 80 63 80 BF 64.
#guard (OsStr.mk [0x61, 0xf1, 0x80, 0x80, 0xe1, 0x80, 0xc2, 0x62, 0x80, 0x63, 0x80, 0xbf, 0x64]).to_string_lossy.text
  = [0x61] ++ replacement ++ replacement ++ replacement ++ [0x62] ++ replacement ++ [0x63] ++ replacement ++ replacement ++ [0x64]
-- lossy_borrowed_iff: text that is valid, and none.
#guard (OsStr.mk [0x61, 0xc3, 0xbc]).to_string_lossy = .borrowed [0x61, 0xc3, 0xbc]
#guard (OsStr.mk []).to_string_lossy = .borrowed []
-- lossy_at_ascii, lossy_length: bytes on both sides of an equals sign.
#guard (OsStr.mk [0xe2, 0x82, 0x3d, 0x82]).to_string_lossy.text = replacement ++ [0x3d] ++ replacement
-- lossy_surrogate: U+D83D alone.
#guard (OsStr.mk [0xed, 0xa0, 0xbd, 0x21]).to_string_lossy.text = replacement ++ replacement ++ replacement ++ [0x21]
/-- lossy_spec: the only text of a broken euro sign in front of a letter. -/
example : Lossy [0xe2, 0x82, 0x62] ['�', 'b'] := by
  refine .broken [0xe2, 0x82] (b := [0x62]) (by simp) ?_ (.inr ⟨'€', by decide⟩) ?_ (.char 'b' .done)
  · rintro c ⟨l, hc⟩
    have := turn_char c l
    rw [hc] at this
    exact absurd (show (turn [0xe2, 0x82, 0x62]).2 = true from congrArg Prod.snd this) (by decide)
  · intro n h1 h2 hb
    have : n = 3 := by simp only [List.length_cons, List.length_nil, List.length_append] at h1 h2; omega
    subst this
    exact absurd (begun_of hb) (by decide)

end Verif.Text
