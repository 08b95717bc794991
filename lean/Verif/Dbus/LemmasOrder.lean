import Verif.Dbus.SpecOrder
import Verif.Dbus.LemmasMeaning
/-! # Lemmas: byte order -/
namespace Verif.Dbus
open Verif.Io

theorem Flipped.length {off : Nat} {ns : List (Nat × Nat)} {a b : List UInt8} (h : Flipped off ns a b) : a.length = b.length := by
  induction h with
  | done => rfl
  | byte off x ns a b _ ih => simp [ih]
  | num off n ns a b _ _ _ ih => simp [ih]

theorem Flipped.append {off : Nat} {ns ms : List (Nat × Nat)} {a b c d : List UInt8} (h : Flipped off ns a b)
    (h' : Flipped (off + a.length) ms c d) : Flipped off (ns ++ ms) (a ++ c) (b ++ d) := by
  induction h with
  | done => exact h'
  | byte off x ns a b _ ih =>
    refine .byte _ _ _ _ _ (ih ?_)
    have e : off + (x :: a).length = off + 1 + a.length := by simp; omega
    rwa [e] at h'
  | num off n ns a b hn ho _ ih =>
    rw [List.append_assoc, List.append_assoc]
    refine .num _ _ _ _ _ hn ho (ih ?_)
    have e : off + (n ++ a).length = off + n.length + a.length := by simp; omega
    rwa [e] at h'

theorem Flipped.same (l : List UInt8) : ∀ off, Flipped off [] l l := by
  induction l with
  | nil => exact .done
  | cons x l ih => exact fun off => .byte _ _ _ _ _ (ih _)

theorem Flipped.behind {off : Nat} {ns : List (Nat × Nat)} {a b : List UInt8} (h : Flipped off ns a b) : ∀ p ∈ ns, off ≤ p.1 := by
  induction h with
  | done => simp
  | byte off x ns a b _ ih => intro p hp; have := ih p hp; omega
  | num off n ns a b _ _ _ ih =>
    intro p hp
    rcases List.mem_cons.mp hp with rfl | hp
    · exact Nat.le_refl _
    · have := ih p hp; omega

theorem enNum_len (be : Bool) (w v : Nat) : (enNum be w v).length = w := by
  unfold enNum
  cases be <;> simp

theorem enNum_flip (w v : Nat) : enNum true w v = (enNum false w v).reverse := by simp [enNum]

theorem pad_len (off a : Nat) : (pad off a).length = padding off a := by simp [pad]

theorem padding_mod (x d : Nat) (hd : d = 2 ∨ d = 4 ∨ d = 8) : (x + padding x d) % d = 0 := by
  unfold padding
  rcases hd with rfl | rfl | rfl <;> omega

/-- A padded number. -/
theorem flipped_num (off w v : Nat) (hw : w = 2 ∨ w = 4 ∨ w = 8) :
    Flipped off [(off + padding off w, w)] (pad off w ++ enNum false w v) (pad off w ++ enNum true w v) := by
  refine (Flipped.same _ _).append (ns := []) ?_
  rw [pad_len, enNum_flip]
  have := Flipped.num (off + padding off w) (enNum false w v) [] [] [] (by rw [enNum_len]; exact hw)
    (by rw [enNum_len]; exact padding_mod off w hw) (.done _)
  simpa [enNum_len] using this

theorem enNum_one (be : Bool) (v : Nat) : enNum be 1 v = enNum false 1 v := by
  cases be
  · rfl
  · rw [enNum_flip]
    have := enNum_len false 1 v
    match hn : enNum false 1 v with
    | [x] => rfl
    | [] => rw [hn] at this; cases this
    | _ :: _ :: _ => rw [hn] at this; cases this

theorem first_ge (off : Nat) (t : Ty) : off ≤ firstElement off t := by unfold firstElement; omega

mutual
theorem size_eq (be : Bool) : (v : Val) → (off : Nat) → (v.marshal be off).length = v.size off
  | .u16 _, off => by simp [Val.marshal, Val.size, pad_len, enNum_len]
  | .u32 _, off => by simp [Val.marshal, Val.size, pad_len, enNum_len]
  | .u64 _, off => by simp [Val.marshal, Val.size, pad_len, enNum_len]
  | .string s, off => by simp [Val.marshal, Val.size, pad_len, enNum_len]; omega
  | .object s, off => by simp [Val.marshal, Val.size, pad_len, enNum_len]; omega
  | .signature s, off => by simp [Val.marshal, Val.size, enNum_len]; omega
  | .variant t v, off => by
    have := size_eq be v (off + t.size + 2)
    have hb : t.bytes.length = t.size := by simp [Ty.bytes, Ty.size]
    simp [Val.marshal, Val.size, enNum_len, this, hb]; omega
  | .array t vs, off => by
    have := sizes_eq be vs (firstElement off t)
    simp only [Val.marshal, Val.size, List.length_append, enNum_len, pad_len, this]
    unfold firstElement; omega
  | .struct vs, off => by
    have := sizes_eq be vs (off + padding off 8)
    simp [Val.marshal, Val.size, pad_len, this]
  | .dict k v, off => by
    have h1 := size_eq be k (off + padding off 8)
    have h2 := size_eq be v (off + padding off 8 + k.size (off + padding off 8))
    simp only [Val.marshal, Val.size, List.length_append, pad_len, h1, h2]
theorem sizes_eq (be : Bool) : (vs : List Val) → (off : Nat) → (Val.marshals be off vs).length = Val.sizes off vs
  | [], off => rfl
  | v :: vs, off => by
    have h1 := size_eq be v off
    have h2 := sizes_eq be vs (off + v.size off)
    simp only [Val.marshals, Val.sizes, List.length_append, h1, h2]
end

mutual
theorem fits_order (be : Bool) : (v : Val) → (off : Nat) → (v.fits be off ↔ v.fits false off)
  | .u16 _, _ | .u32 _, _ | .u64 _, _ | .string _, _ | .object _, _ | .signature _, _ => by simp [Val.fits]
  | .variant t v, off => by simp only [Val.fits, fits_order be v]
  | .array t vs, off => by simp only [Val.fits, fit_order be vs, sizes_eq]
  | .struct vs, off => by simp only [Val.fits, fit_order be vs]
  | .dict k v, off => by simp only [Val.fits, size_eq, fits_order be k, fits_order be v]
theorem fit_order (be : Bool) : (vs : List Val) → (off : Nat) → (Val.fit be off vs ↔ Val.fit false off vs)
  | [], _ => by simp [Val.fit]
  | v :: vs, off => by simp only [Val.fit, size_eq, fits_order be v, fit_order be vs]
end

theorem flipped_text (off : Nat) (s : List UInt8) : Flipped off [(off + padding off 4, 4)] (pad off 4 ++ enNum false 4 s.length ++ s ++ [0])
    (pad off 4 ++ enNum true 4 s.length ++ s ++ [0]) :=
  ((flipped_num off 4 s.length (.inr (.inl rfl))).append (Flipped.same s _)).append (Flipped.same [0] _)

mutual
theorem marshal_flipped : (v : Val) → (off : Nat) → Flipped off (v.numbers off) (v.marshal false off) (v.marshal true off)
  | .u16 v, off => flipped_num off 2 _ (.inl rfl)
  | .u32 v, off => flipped_num off 4 _ (.inr (.inl rfl))
  | .u64 v, off => flipped_num off 8 _ (.inr (.inr rfl))
  | .string s, off => flipped_text off s
  | .object s, off => flipped_text off s
  | .signature s, off => by
    simp only [Val.marshal, enNum_one true]
    exact .same _ _
  | .variant t v, off => by
    simp only [Val.marshal, enNum_one true]
    refine (Flipped.same _ _).append ?_
    have hb : t.bytes.length = t.size := by simp [Ty.bytes, Ty.size]
    have e : off + (enNum false 1 t.size ++ t.bytes ++ [0]).length = off + t.size + 2 := by
      simp [enNum_len, hb]; omega
    rw [e]
    exact marshal_flipped v _
  | .array t vs, off => by
    simp only [Val.marshal, sizes_eq]
    refine ((flipped_num off 4 _ (.inr (.inl rfl))).append (Flipped.same _ _)).append ?_
    have e : off + (pad off 4 ++ enNum false 4 (Val.sizes (firstElement off t) vs)
        ++ pad (off + padding off 4 + 4) (2 ^ t.dvarAlign)).length = firstElement off t := by
      simp only [List.length_append, pad_len, enNum_len]; unfold firstElement; omega
    rw [e]
    exact marshals_flipped vs _
  | .struct vs, off => by
    simp only [Val.marshal]
    refine (Flipped.same _ _).append ?_
    rw [pad_len]
    exact marshals_flipped vs _
  | .dict k v, off => by
    simp only [Val.marshal, size_eq]
    refine ((Flipped.same _ _).append ?_).append ?_
    · rw [pad_len]
      exact marshal_flipped k _
    · rw [List.length_append, pad_len, size_eq, ← Nat.add_assoc]
      exact marshal_flipped v _
theorem marshals_flipped : (vs : List Val) → (off : Nat) → Flipped off (Val.numberss off vs) (Val.marshals false off vs) (Val.marshals true off vs)
  | [], off => .done off
  | v :: vs, off => by
    simp only [Val.marshals, size_eq]
    refine (marshal_flipped v off).append ?_
    rw [size_eq]
    exact marshals_flipped vs _
end

end Verif.Dbus
