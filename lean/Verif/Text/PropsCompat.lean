import Verif.Text.ModelCompat
import Verif.Args.Utf8Chars
/-! # Property theorems: compatibility types (C72) -/
namespace Verif.Text
open Verif.Args

/-- **C72** (a). Conversions from and to the types of the standard library keep the bytes. -/
theorem osstr_roundtrip (v : Bytes) (o : OsStr) (s : Str) :
    (OsStr.from_osstr v).as_osstr = v ∧ OsStr.from_osstr o.as_osstr = o ∧
    (OsStr.from_str s).as_encoded_bytes = s.bytes ∧ (OsStr.from_str s).to_str = .ok s := by
  refine ⟨rfl, rfl, rfl, ?_⟩
  show from_utf8 s.bytes = _
  rw [from_utf8, dif_pos s.valid]

/-- **C72** (b). `from_utf8` accepts exactly the encodings of characters, and then holds these bytes; otherwise the error gives the length of the
longest valid beginning. -/
theorem osstr_from_utf8 (v : Bytes) :
    ((∃ cs : List Char, v = cs.flatMap String.utf8EncodeChar) ↔ OsStr.from_utf8 v = .ok ⟨v⟩) ∧
    (∀ o, OsStr.from_utf8 v = .ok o → o.as_encoded_bytes = v) ∧
    (∀ e, OsStr.from_utf8 v = .error e → isUtf8 (v.take e.valid_up_to) = true ∧ ∀ n ≤ v.length, isUtf8 (v.take n) = true → n ≤ e.valid_up_to) := by
  rw [← isUtf8_iff]
  unfold OsStr.from_utf8 from_utf8
  by_cases h : isUtf8 v = true
  · rw [dif_pos h]
    refine ⟨⟨fun _ => rfl, fun _ => h⟩, ?_, ?_⟩
    · intro o ho; cases ho; rfl
    · intro e he; cases he
  · rw [dif_neg h]
    refine ⟨⟨fun h' => absurd h' h, fun h' => (by cases h')⟩, ?_, ?_⟩
    · intro o ho; cases ho
    · intro e he; cases he; exact validUpTo_longest v

/-- **C72** (c). `to_str` succeeds exactly for the encodings of characters, and yields those bytes. -/
theorem osstr_to_str (o : OsStr) :
    ((∃ cs : List Char, o.as_encoded_bytes = cs.flatMap String.utf8EncodeChar) ↔ ∃ s, o.to_str = .ok s) ∧
    ∀ s, o.to_str = .ok s → OsStr.from_str s = o := by
  rw [← isUtf8_iff]
  unfold OsStr.to_str from_utf8
  by_cases h : isUtf8 o.as_encoded_bytes = true
  · rw [dif_pos h]
    exact ⟨⟨fun _ => ⟨_, rfl⟩, fun _ => h⟩, fun s hs => (by cases hs; rfl)⟩
  · rw [dif_neg h]
    exact ⟨⟨fun h' => absurd h' h, fun ⟨_, h'⟩ => (by cases h')⟩, fun s hs => (by cases hs)⟩

/-- What was taken so far, of all that is to be written. -/
theorem write_all_spec (t : Bytes) (l : List Call) (b : Bytes) :
    (∀ x, write_all t l b = .ok x → x = t ++ b) ∧
    (∀ x, write_all t l b = .error x → ∃ y z, y ++ z = b ∧ z ≠ [] ∧ x = t ++ y) ∧
    (∀ x, write_all t l b = .waiting x → ∃ y z, y ++ z = b ∧ z ≠ [] ∧ x = t ++ y) := by
  induction l generalizing t b with
  | nil =>
    unfold write_all
    by_cases h : b = []
    · rw [if_pos h]; subst h
      refine ⟨fun x e => (by cases e; simp), fun x e => (by cases e), fun x e => (by cases e)⟩
    · rw [if_neg h]
      refine ⟨fun x e => (by cases e), fun x e => (by cases e), fun x e => (by cases e; exact ⟨[], b, rfl, h, by simp⟩)⟩
  | cons c l ih =>
    unfold write_all
    by_cases h : b = []
    · rw [if_pos h]; subst h
      refine ⟨fun x e => (by cases e; simp), fun x e => (by cases e), fun x e => (by cases e)⟩
    · rw [if_neg h]
      have here : ∃ y z, y ++ z = b ∧ z ≠ [] ∧ t = t ++ y := ⟨[], b, rfl, h, by simp⟩
      cases c with
      | interrupted => exact ih t b
      | failed => exact ⟨fun x e => (by cases e), fun x e => (by cases e; exact here), fun x e => (by cases e)⟩
      | took n =>
        by_cases h0 : n = 0
        · simp only [if_pos h0]
          exact ⟨fun x e => (by cases e), fun x e => (by cases e; exact here), fun x e => (by cases e)⟩
        · simp only [if_neg h0]
          by_cases hn : b.length < n
          · simp only [if_pos hn]
            exact ⟨fun x e => (by cases e), fun x e => (by cases e), fun x e => (by cases e)⟩
          · simp only [if_neg hn]
            obtain ⟨i1, i2, i3⟩ := ih (t ++ b.take n) (b.drop n)
            refine ⟨fun x e => ?_, fun x e => ?_, fun x e => ?_⟩
            · rw [i1 x e, List.append_assoc, List.take_append_drop]
            · obtain ⟨y, z, hy, hz, hx⟩ := i2 x e
              exact ⟨b.take n ++ y, z, by rw [List.append_assoc, hy, List.take_append_drop], hz, by rw [hx, List.append_assoc]⟩
            · obtain ⟨y, z, hy, hz, hx⟩ := i3 x e
              exact ⟨b.take n ++ y, z, by rw [List.append_assoc, hy, List.take_append_drop], hz, by rw [hx, List.append_assoc]⟩

/-- **C72** (d). `write_str` succeeds only if the writer took all bytes of the text, in order; if it fails, or has not returned, a proper beginning
of it was taken. -/
theorem write_str_complete (l : List Call) (v : Str) :
    (∀ x, write_str l v = .ok x → x = v.bytes) ∧
    (∀ x, write_str l v = .error x ∨ write_str l v = .waiting x → ∃ z, x ++ z = v.bytes ∧ z ≠ []) := by
  obtain ⟨h1, h2, h3⟩ := write_all_spec [] l v.bytes
  refine ⟨fun x e => by simpa using h1 x e, fun x e => ?_⟩
  rcases e with e | e
  · obtain ⟨y, z, hy, hz, hx⟩ := h2 x e; exact ⟨z, by rw [hx]; simpa using hy, hz⟩
  · obtain ⟨y, z, hy, hz, hx⟩ := h3 x e; exact ⟨z, by rw [hx]; simpa using hy, hz⟩

/-- **C72** (f). A writer that takes nothing, or fails, makes `write_str` fail at once, whatever it would do later, after the bytes taken before. -/
theorem write_str_stops (l : List Call) (v : Str) (hv : v.bytes ≠ []) :
    write_str (.took 0 :: l) v = .error [] ∧ write_str (.failed :: l) v = .error [] ∧
    ∀ n, 1 ≤ n → n < v.bytes.length → write_str (.took n :: .took 0 :: l) v = .error (v.bytes.take n) := by
  refine ⟨?_, ?_, fun n h1 h2 => ?_⟩
  · simp [write_str, write_all, hv]
  · simp [write_str, write_all, hv]
  · have hd : v.bytes.drop n ≠ [] := by
      intro h; have := congrArg List.length h; simp at this; omega
    unfold write_str write_all
    rw [if_neg hv]
    simp only [if_neg (show n ≠ 0 by omega), if_neg (show ¬ v.bytes.length < n by omega)]
    unfold write_all
    rw [if_neg hd]
    simp

/-- A writer that behaves: it never fails, and takes between one and all of the bytes it is given. -/
def Good (l : List Call) (b : Bytes) : Prop :=
  match l with
  | [] => True
  | .took n :: l => b = [] ∨ (1 ≤ n ∧ n ≤ b.length ∧ Good l (b.drop n))
  | .interrupted :: l => Good l b
  | .failed :: _ => b = []

/-- **C72** (e). If the writer behaves, `write_str` never fails nor panics, and has returned once there were as many calls that were not interrupted
as the text has bytes. -/
theorem write_str_returns (l : List Call) (v : Str) (hg : Good l v.bytes) (hn : v.bytes.length ≤ (l.filter (· ≠ .interrupted)).length) :
    write_str l v = .ok v.bytes := by
  suffices h : ∀ (t : Bytes) (l : List Call) (b : Bytes), Good l b → b.length ≤ (l.filter (· ≠ .interrupted)).length → write_all t l b = .ok (t ++ b) by
    have := h [] l v.bytes hg hn
    rw [List.nil_append] at this; exact this
  clear hg hn
  intro t l
  induction l generalizing t with
  | nil =>
    intro b _ hb
    have : b = [] := List.length_eq_zero_iff.mp (by simpa using hb)
    subst this; simp [write_all]
  | cons c l ih =>
    intro b hg hb
    unfold write_all
    by_cases h : b = []
    · rw [if_pos h]; subst h; simp
    · rw [if_neg h]
      cases c with
      | interrupted => exact ih t b hg (by simpa using hb)
      | failed => exact absurd hg h
      | took n =>
        rcases hg with h' | ⟨h1, h2, h3⟩
        · exact absurd h' h
        · simp only [if_neg (show n ≠ 0 by omega), if_neg (show ¬ b.length < n by omega)]
          rw [ih _ _ h3 (by simp at hb ⊢; omega), List.append_assoc, List.take_append_drop]

/-- Two bytes, taken one by one, with an interruption. -/
example : write_str [.took 1, .interrupted, .took 1] ⟨[0xc3, 0xa4], by decide⟩ = .ok [0xc3, 0xa4] ∧
    write_str [.took 1, .failed] ⟨[0xc3, 0xa4], by decide⟩ = .error [0xc3] ∧
    Good [.took 1, .interrupted, .took 1] [0xc3, 0xa4] := by
  refine ⟨by decide, by decide, ?_⟩
  simp [Good]
example : OsStr.from_utf8 [0x61, 0xff] = .error ⟨1⟩ ∧ OsStr.from_utf8 [0xc3, 0xa4] = .ok ⟨[0xc3, 0xa4]⟩ := by
  exact ⟨rfl, rfl⟩

end Verif.Text
