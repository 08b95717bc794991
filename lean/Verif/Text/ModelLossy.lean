import Verif.Text.ModelCompat
/-! # Model of `OsStr::to_string_lossy`, `lib/osi/src/compat.rs` 109-114

It calls `String::from_utf8_lossy` of the standard library, which is modelled after its implementation (`Utf8Chunks::next` and
`String::from_utf8_lossy`); the allocation of the result is left out. -/
namespace Verif.Text
open Verif.Args

/-- `Cow<str>`: the bytes of the text, and whether it is that of the argument or has been allocated. -/
inductive Cow
  | borrowed (v : Bytes)
  | owned (v : Bytes)
deriving DecidableEq, Repr

/-- `Cow::deref`. -/
def Cow.text : Cow → Bytes
  | .borrowed v => v
  | .owned v => v

/-- `safe_get` of `Utf8Chunks::next`: 0 behind the end. -/
def safe_get (s : Bytes) (i : Nat) : UInt8 := s.getD i 0

/-- `utf8_char_width` of the standard library. -/
def char_width (a : UInt8) : Nat :=
  if a < 0x80 then 1 else if a < 0xc2 then 0 else if a < 0xe0 then 2 else if a < 0xf0 then 3 else if a < 0xf5 then 4 else 0

/-- The second byte of sequences of three, as matched by `Utf8Chunks::next`. -/
def second_of_three (a b : UInt8) : Bool :=
  (a == 0xe0 && 0xa0 ≤ b && b ≤ 0xbf) || (0xe1 ≤ a && a ≤ 0xec && 0x80 ≤ b && b ≤ 0xbf)
    || (a == 0xed && 0x80 ≤ b && b ≤ 0x9f) || (0xee ≤ a && a ≤ 0xef && 0x80 ≤ b && b ≤ 0xbf)

/-- The second byte of sequences of four. -/
def second_of_four (a b : UInt8) : Bool :=
  (a == 0xf0 && 0x90 ≤ b && b ≤ 0xbf) || (0xf1 ≤ a && a ≤ 0xf3 && 0x80 ≤ b && b ≤ 0xbf) || (a == 0xf4 && 0x80 ≤ b && b ≤ 0x8f)

/-- One round of the loop of `Utf8Chunks::next`, on what is left of the source: how far it gets, and whether it ends there with a
complete character (or else leaves the loop). -/
def turn (s : Bytes) : Nat × Bool :=
  let a := safe_get s 0
  if a < 0x80 then (1, true)
  else match char_width a with
    | 2 => if safe_get s 1 &&& 192 != 128 then (1, false) else (2, true)
    | 3 =>
      if second_of_three a (safe_get s 1) then
        if safe_get s 2 &&& 192 != 128 then (2, false) else (3, true)
      else (1, false)
    | 4 =>
      if second_of_four a (safe_get s 1) then
        if safe_get s 2 &&& 192 != 128 then (2, false)
        else if safe_get s 3 &&& 192 != 128 then (3, false) else (4, true)
      else (1, false)
    | _ => (1, false)

theorem turn_pos (s : Bytes) : 1 ≤ (turn s).1 := by
  unfold turn
  simp only []
  split
  · exact Nat.le_refl _
  · split <;> repeat' split
    all_goals simp

/-- `Utf8Chunks::next`: `valid_up_to` and `i` when the loop ends. -/
def scan (s : Bytes) : Nat × Nat :=
  if h : s = [] then (0, 0)
  else
    let t := turn s
    if t.2 then
      let r := scan (s.drop t.1)
      (t.1 + r.1, t.1 + r.2)
    else (0, t.1)
termination_by s.length
decreasing_by
  have := turn_pos s
  have := List.length_pos_iff.mpr h
  rw [List.length_drop]
  omega

theorem scan_pos (s : Bytes) (h : s ≠ []) : 1 ≤ (scan s).2 := by
  have := turn_pos s
  rw [scan, dif_neg h]
  simp only []
  split
  · simp only []; omega
  · exact this

/-- `<[u8]>::utf8_chunks`: all chunks, each with what is valid and what is not. -/
def chunks (s : Bytes) : List (Bytes × Bytes) :=
  if h : s = [] then []
  else
    let r := scan s
    ((s.take r.2).take r.1, (s.take r.2).drop r.1) :: chunks (s.drop r.2)
termination_by s.length
decreasing_by
  have := scan_pos s h
  have := List.length_pos_iff.mpr h
  rw [List.length_drop]
  omega

/-- U+FFFD. -/
def replacement : Bytes := [0xef, 0xbf, 0xbd]

/-- `String::from_utf8_lossy`. -/
def from_utf8_lossy (v : Bytes) : Cow :=
  match chunks v with
  | [] => .borrowed []
  | first :: iter =>
    if first.2 = [] then .borrowed first.1
    else .owned (iter.foldl (fun res chunk => if chunk.2 = [] then res ++ chunk.1 else res ++ chunk.1 ++ replacement)
      (first.1 ++ replacement))

/-- `OsStr::to_string_lossy`, compat.rs 112-114. -/
def OsStr.to_string_lossy (o : OsStr) : Cow := from_utf8_lossy o.as_encoded_bytes

#guard (from_utf8_lossy [0x61, 0xe2, 0x82, 0x62, 0xff, 0xf0, 0x9d, 0x84, 0x9e]).text
  = [0x61] ++ replacement ++ [0x62] ++ replacement ++ [0xf0, 0x9d, 0x84, 0x9e]

end Verif.Text
