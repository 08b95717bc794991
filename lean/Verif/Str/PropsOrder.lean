import Verif.Str.Model
import Verif.Args.Utf8Chars
/-! # The order of strings

`str::cmp` compares the bytes of the encodings (`str: Ord` is that of `[u8]`). The model of str.rs compares characters instead. Both are the same. -/
namespace Verif.Str
open Verif.Args (Encodes encode_eq toNat_ofNat_lt)

/-- Order of `[u8]`. -/
def cmpBytes : List UInt8 → List UInt8 → Ordering := List.compareLex compare

theorem cmpBytes_cons (a b : UInt8) (x y : List UInt8) : cmpBytes (a :: x) (b :: y) = (compare a b).then (cmpBytes x y) := by
  unfold cmpBytes; rw [List.compareLex_cons_cons]

theorem cmpBytes_lt {m n : Nat} (h : m < n) (hn : n < 256) (x y : List UInt8) :
    cmpBytes (UInt8.ofNat m :: x) (UInt8.ofNat n :: y) = .lt := by
  have : compare (UInt8.ofNat m) (UInt8.ofNat n) = .lt := by
    rw [Std.compare_eq_lt, UInt8.lt_iff_toNat_lt, toNat_ofNat_lt (by omega), toNat_ofNat_lt hn]; exact h
  rw [cmpBytes_cons, this]; rfl

theorem cmpBytes_same (b : UInt8) (x y : List UInt8) : cmpBytes (b :: x) (b :: y) = cmpBytes x y := by
  rw [cmpBytes_cons, show compare b b = .eq from Std.ReflCmp.compare_self]; rfl

theorem cmpBytes_prefix (p x y : List UInt8) : cmpBytes (p ++ x) (p ++ y) = cmpBytes x y := by
  induction p with
  | nil => rfl
  | cons b p ih => rw [List.cons_append, List.cons_append, cmpBytes_same, ih]

theorem encodes_lt {m n : Nat} (h : m < n) {bs cs : List UInt8} (hb : Encodes m bs) (hc : Encodes n cs) (x y : List UInt8) :
    cmpBytes (bs ++ x) (cs ++ y) = .lt := by
  have step : ∀ {a b : Nat} {x y : List UInt8}, a ≤ b → b < 256 → (a = b → cmpBytes x y = .lt) →
      cmpBytes (UInt8.ofNat a :: x) (UInt8.ofNat b :: y) = .lt := by
    intro a b x y hle hb he
    by_cases e : a = b
    · rw [e, cmpBytes_same]; exact he e
    · exact cmpBytes_lt (by omega) hb _ _
  cases hb <;> cases hc <;> simp only [List.cons_append, List.nil_append] <;>
    first
    | (exfalso; omega)
    | (refine cmpBytes_lt ?_ ?_ _ _ <;> omega)
    | (refine step (by omega) (by omega) fun e1 => cmpBytes_lt ?_ ?_ _ _ <;> omega)
    | (refine step (by omega) (by omega) fun e1 => step (by omega) (by omega) fun e2 => cmpBytes_lt ?_ ?_ _ _ <;> omega)
    | (refine step (by omega) (by omega) fun e1 => step (by omega) (by omega) fun e2 => step (by omega) (by omega) fun e3 =>
        cmpBytes_lt ?_ ?_ _ _ <;> omega)

/-- **C13, C14.** The order of texts by their bytes is the order by their characters. -/
theorem str_order (a b : List Char) : cmpBytes (a.flatMap String.utf8EncodeChar) (b.flatMap String.utf8EncodeChar) = cmpStr a b := by
  induction a generalizing b with
  | nil =>
    cases b with
    | nil => rfl
    | cons d b =>
      have : ∃ x l, String.utf8EncodeChar d = x :: l := by
        have := encode_eq d
        revert this; generalize String.utf8EncodeChar d = bs; intro this
        cases this <;> exact ⟨_, _, rfl⟩
      obtain ⟨x, l, e⟩ := this
      rw [List.flatMap_cons, e]; rfl
  | cons c a ih =>
    cases b with
    | nil =>
      have : ∃ x l, String.utf8EncodeChar c = x :: l := by
        have := encode_eq c
        revert this; generalize String.utf8EncodeChar c = bs; intro this
        cases this <;> exact ⟨_, _, rfl⟩
      obtain ⟨x, l, e⟩ := this
      rw [List.flatMap_cons, e]; rfl
    | cons d b =>
      rw [List.flatMap_cons, List.flatMap_cons]
      show _ = List.compareLex compare (c :: a) (d :: b)
      rw [List.compareLex_cons_cons]
      rcases Nat.lt_trichotomy c.val.toNat d.val.toNat with h | h | h
      · have e : compare c d = .lt := by
          show compareOfLessAndEq c d = .lt
          rw [compareOfLessAndEq, if_pos (show c < d from h)]
        rw [encodes_lt h (encode_eq c) (encode_eq d), e]; rfl
      · have e : c = d := Char.toNat_inj.mp h
        subst e
        rw [cmpBytes_prefix, show compare c c = .eq from Std.ReflCmp.compare_self, ih]; rfl
      · have e : compare c d = .gt := by
          show compareOfLessAndEq c d = .gt
          rw [compareOfLessAndEq, if_neg (fun x : c < d => Nat.lt_asymm h x), if_neg (fun x => by subst x; exact Nat.lt_irrefl _ h)]
        have : cmpBytes (String.utf8EncodeChar c ++ a.flatMap String.utf8EncodeChar) (String.utf8EncodeChar d ++ b.flatMap String.utf8EncodeChar) = .gt := by
          have sw : ∀ x y : List UInt8, cmpBytes x y = (cmpBytes y x).swap := fun x y => Std.OrientedCmp.eq_swap (cmp := List.compareLex compare)
          rw [sw, encodes_lt h (encode_eq d) (encode_eq c)]; rfl
        rw [this, e]; rfl

/-- Characters of different lengths. -/
example : cmpBytes (['a', 'ü'].flatMap String.utf8EncodeChar) (['a', '€'].flatMap String.utf8EncodeChar) = .lt := by decide +kernel

end Verif.Str
