import Verif.Dbus.LemmasOrder
import Verif.Dbus.LemmasShape
import Verif.Dbus.PropsUnique
/-! # C128: byte order and values do not matter for the form of an encoding -/
namespace Verif.Dbus
open Verif.Io Shape

variable {σ : Type} {s : Sig} {t : Ty}

/-- C128. Any writer, any signature, any two histories of calls that differ in numbers and in the bytes of strings, but not in
the lengths of strings, in any two byte orders: all calls are answered in the same way, up to the first panic if there is
one, the writer gets the same requests, and the same bytes of its memory are written. -/
theorem oblivious (I : WriteImpl σ) (s : Sig) (be be' : Bool) (ops ops' : List Op) (hs : Op.shapes ops = Op.shapes ops')
    (st : σ) (m m' : Mem) (hm : SameCells m m') :
    (Enc.with_ s be = none ∧ Enc.with_ s be' = none)
    ∨ ∃ e e', Enc.with_ s be = some e ∧ Enc.with_ s be' = some e'
      ∧ ((Op.runs I ops e ⟨st, m⟩ = none ∧ Op.runs I ops' e' ⟨st, m'⟩ = none)
        ∨ ∃ f f' st₁ m₁ m₁' outs, Op.runs I ops e ⟨st, m⟩ = some (f, ⟨st₁, m₁⟩, outs)
          ∧ Op.runs I ops' e' ⟨st, m'⟩ = some (f', ⟨st₁, m₁'⟩, outs) ∧ SameCells m₁ m₁') := by
  unfold Enc.with_
  cases Cursor.new s with
  | none => exact .inl ⟨rfl, rfl⟩
  | some c =>
    refine .inr ⟨_, _, rfl, rfl, ?_⟩
    have q := @runs_like σ I ops ops' ⟨false, be, c, ⟨0, 0, 0⟩, [], none, none⟩ ⟨false, be', c, ⟨0, 0, 0⟩, [], none, none⟩
      ⟨st, m⟩ ⟨st, m'⟩ hs rfl (likeW st hm)
    revert q
    generalize Op.runs I ops _ _ = A
    generalize Op.runs I ops' _ _ = B
    intro q
    match A, B, q with
    | none, none, _ => exact .inl ⟨rfl, rfl⟩
    | some (f, ⟨st₁, m₁⟩, r), some (f', ⟨st₁', m₁'⟩, r'), ⟨h1, ⟨h2, h2'⟩, h3⟩ =>
      cases h2
      cases h3
      exact .inr ⟨_, _, _, _, _, _, rfl, rfl, h2'⟩
    | none, some _, h => exact h.elim
    | some _, none, h => exact h.elim

/-- C128. The same calls in both byte orders: the encodings have the same size, and one is the other one with the bytes of
each number reversed. The numbers are those of the value, and the lengths of its strings and arrays. -/
theorem orders (hs : View s t) (v : Val) (hv : v.has t) (hf : v.fits false 0) (hl : v.size 0 ≤ isizeMax) (ops : List Op)
    (ho : Writes v ops) :
    ∃ a b, Encoded s false ops a ∧ Encoded s true ops b ∧ a.length = v.size 0 ∧ b.length = v.size 0
      ∧ Flipped 0 (v.numbers 0) a b :=
  ⟨_, _, encoded hs false v hv hf (by rw [size_eq]; exact hl) ops ho,
    encoded hs true v hv ((fits_order true v 0).mpr hf) (by rw [size_eq]; exact hl) ops ho,
    size_eq false v 0, size_eq true v 0, marshal_flipped v 0⟩

/-- C128. The numbers and the encoding in one byte order determine the encoding in the other one. -/
theorem flipped_unique {off : Nat} {ns : List (Nat × Nat)} {a b b' : List UInt8} (h : Flipped off ns a b)
    (h' : Flipped off ns a b') : b = b' := by
  induction h generalizing b' with
  | done =>
    generalize hn : ([] : List (Nat × Nat)) = ns at h'
    generalize ha : ([] : List UInt8) = a at h'
    cases h' with
    | done => rfl
    | byte => cases ha
    | num => cases hn
  | byte off x ns a b hi ih =>
    generalize ha : x :: a = a' at h'
    cases h' with
    | done => cases ha
    | byte _ _ _ _ b' hi' => cases ha; rw [ih hi']
    | num _ n ns a' b' hn _ hi' =>
      have := hi.behind _ (List.mem_cons_self ..)
      omega
  | num off n ns a b hn ho hi ih =>
    generalize ha : n ++ a = a' at h'
    generalize hm : (off, n.length) :: ns = ms at h'
    cases h' with
    | done => cases hm
    | byte _ _ _ _ b' hi' =>
      have := hi'.behind (off, n.length) (hm ▸ List.mem_cons_self ..)
      omega
    | num _ n' ns' a' b' hn' _ hi' =>
      simp only [List.cons.injEq, Prod.mk.injEq, true_and] at hm
      obtain ⟨hl, rfl⟩ := hm
      obtain ⟨rfl, rfl⟩ := List.append_inj ha hl
      rw [ih hi']

/-- The size of a value does not depend on its numbers, nor on what its strings say; an array of a string, in both orders. -/
example : encTo false "(qas)" [.structure, .u16 7, .array, .string [97, 98], .close, .close, .commit]
      = some [7, 0, 0, 0, 7, 0, 0, 0, 2, 0, 0, 0, 97, 98, 0]
    ∧ encTo true "(qas)" [.structure, .u16 7, .array, .string [97, 98], .close, .close, .commit]
      = some [0, 7, 0, 0, 0, 0, 0, 7, 0, 0, 0, 2, 97, 98, 0]
    ∧ (Val.struct [.u16 7, .array (.basic .string) [.string [97, 98]]]).numbers 0 = [(0, 2), (4, 4), (8, 4)]
    ∧ (Val.struct [.u16 7, .array (.basic .string) [.string [97, 98]]]).size 0 = 15 := by decide +kernel

/-- Such a value meets the hypotheses of `orders`. -/
example : ∃ (s : Sig) (t : Ty) (v : Val) (ops : List Op), View s t ∧ v.has t ∧ v.fits false 0 ∧ v.size 0 ≤ isizeMax ∧ Writes v ops
    ∧ v.numbers 0 = [(0, 2), (4, 4), (8, 4)] :=
  ⟨_, .struct [.basic .uint16, .array (.basic .string)], .struct [.u16 7, .array (.basic .string) [.string [97, 98]]], _,
    view_ofTy _ (by decide), ⟨trivial, ⟨rfl, trivial, trivial⟩, trivial⟩,
    ⟨trivial, ⟨by decide, show [97, 98].length < 2 ^ 32 by decide, trivial⟩, trivial⟩, by decide,
    .struct _ _ (.cons _ _ _ _ (.u16 7) (.cons _ _ _ _ (.array _ _ _ (.cons _ _ _ _ (.string _) .nil)) .nil)), by decide⟩

/-- Histories with an error and a panic are alike in the same way. -/
example : Op.shapes [.u16 1, .sub none [.string [97]], .close] = Op.shapes [.u16 2, .sub none [.string [98]], .close]
    ∧ Op.shapes [.string [97]] ≠ Op.shapes [.string [97, 98]] := by
  simp [Op.shapes, Op.shape]

end Verif.Dbus
