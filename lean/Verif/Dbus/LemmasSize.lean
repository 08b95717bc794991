import Verif.Dbus.SpecMeaning
import Verif.Dbus.LemmasMeaning
/-! # Lemmas: dynamic types have values of different sizes -/
namespace Verif.Dbus
open Verif.Io

theorem up_mono {x y d : Nat} (hd : d ≤ 3) (h : x ≤ y) : x + padding x (2 ^ d) ≤ y + padding y (2 ^ d) := by
  unfold padding
  match d, hd with
  | 0, _ => omega
  | 1, _ => omega
  | 2, _ => omega
  | 3, _ => omega

mutual
/-- The end of a value moves with its beginning. -/
theorem end_mono (be : Bool) : (v : Val) → (x y : Nat) → x ≤ y →
    x + (v.marshal be x).length ≤ y + (v.marshal be y).length
  | .u16 v, x, y, h => by
    have := up_mono (d := 1) (by decide) h
    simp only [Nat.reducePow] at this
    simp only [Val.marshal, List.length_append, pad_length, enNum_length]; omega
  | .u32 v, x, y, h => by
    have := up_mono (d := 2) (by decide) h
    simp only [Nat.reducePow] at this
    simp only [Val.marshal, List.length_append, pad_length, enNum_length]; omega
  | .u64 v, x, y, h => by
    have := up_mono (d := 3) (by decide) h
    simp only [Nat.reducePow] at this
    simp only [Val.marshal, List.length_append, pad_length, enNum_length]; omega
  | .string s, x, y, h => by
    have := up_mono (d := 2) (by decide) h
    simp only [Nat.reducePow] at this
    simp only [Val.marshal, List.length_append, pad_length, enNum_length]; omega
  | .object s, x, y, h => by
    have := up_mono (d := 2) (by decide) h
    simp only [Nat.reducePow] at this
    simp only [Val.marshal, List.length_append, pad_length, enNum_length]; omega
  | .signature s, x, y, h => by
    simp only [Val.marshal, List.length_append, enNum_length]; omega
  | .variant t v, x, y, h => by
    have := end_mono be v (x + t.size + 2) (y + t.size + 2) (by omega)
    simp only [Val.marshal, List.length_append, enNum_length, List.length_cons, List.length_nil, bytes_length]; omega
  | .array t vs, x, y, h => by
    have h1 := up_mono (d := 2) (by decide) h
    simp only [Nat.reducePow] at h1
    have h2 := up_mono (d := t.dvarAlign) (dvarAlign_le t) (show x + padding x 4 + 4 ≤ y + padding y 4 + 4 by omega)
    have h3 := ends_mono be vs (firstElement x t) (firstElement y t) (by unfold firstElement; omega)
    simp only [Val.marshal, List.length_append, enNum_length, pad_length]
    unfold firstElement at h3 ⊢
    omega
  | .struct vs, x, y, h => by
    have h1 := up_mono (d := 3) (by decide) h
    simp only [Nat.reducePow] at h1
    have h3 := ends_mono be vs (x + padding x 8) (y + padding y 8) h1
    simp only [Val.marshal, List.length_append, pad_length]
    omega
  | .dict k v, x, y, h => by
    have h1 := up_mono (d := 3) (by decide) h
    simp only [Nat.reducePow] at h1
    have h2 := end_mono be k (x + padding x 8) (y + padding y 8) h1
    have h3 := end_mono be v _ _ h2
    simp only [Val.marshal, List.length_append, pad_length]
    omega
theorem ends_mono (be : Bool) : (vs : List Val) → (x y : Nat) → x ≤ y →
    x + (Val.marshals be x vs).length ≤ y + (Val.marshals be y vs).length
  | [], x, y, h => by simpa [Val.marshals] using h
  | v :: vs, x, y, h => by
    have h1 := end_mono be v x y h
    have h2 := ends_mono be vs _ _ h1
    simp only [Val.marshals, List.length_append]
    omega
end

theorem end_far (be : Bool) (v : Val) (x y : Nat) (h : x + 8 ≤ y) :
    x + (v.marshal be x).length + 8 ≤ y + (v.marshal be y).length := by
  have h1 := end_mono be v (x + 8) y h
  rw [marshal_mod8 be v (x + 8) x (by omega)] at h1
  omega

theorem ends_far (be : Bool) (vs : List Val) (x y : Nat) (h : x + 8 ≤ y) :
    x + (Val.marshals be x vs).length + 8 ≤ y + (Val.marshals be y vs).length := by
  have h1 := ends_mono be vs (x + 8) y h
  rw [marshals_mod8 be vs (x + 8) x (by omega)] at h1
  omega

/-- The smallest value of a basic type. -/
def Basic.zero : Basic → Val
  | .uint16 => .u16 0
  | .uint32 => .u32 0
  | .uint64 => .u64 0
  | .string => .string []
  | .objectPath => .object []
  | _ => .signature []

mutual
/-- The smallest value of a type. -/
def Ty.zero : Ty → Val
  | .basic b => b.zero
  | .variant => .variant (.basic .string) (.string [])
  | .array t => .array t []
  | .maybe _ => .signature []
  | .struct ts => .struct (Ty.zeros ts)
  | .dict k v => .dict k.zero v.zero
def Ty.zeros : List Ty → List Val
  | [] => []
  | t :: ts => t.zero :: Ty.zeros ts
end

theorem zero_has_basic (b : Basic) (h : b.valued = true) : b.zero.has (.basic b) := by
  cases b <;> first | (exact trivial) | (simp [Basic.valued] at h)

mutual
theorem zero_has : (t : Ty) → t.valued = true → t.zero.has t
  | .basic b, h => zero_has_basic b h
  | .variant, h => trivial
  | .array t, h => ⟨rfl, trivial⟩
  | .maybe t, h => by simp [Ty.valued] at h
  | .struct ts, h => by
    simp only [Ty.valued, Bool.and_eq_true] at h
    exact zeros_all ts h.2
  | .dict k v, h => by
    simp only [Ty.valued, Bool.and_eq_true] at h
    exact ⟨zero_has_basic k h.1, zero_has v h.2⟩
theorem zeros_all : (ts : List Ty) → Ty.valueds ts = true → Val.all (Ty.zeros ts) ts
  | [], h => trivial
  | t :: ts, h => by
    simp only [Ty.valueds, Bool.and_eq_true] at h
    exact ⟨zero_has t h.1, zeros_all ts h.2⟩
end

theorem padding_lt8 (x d : Nat) (hd : d ≤ 3) : padding x (2 ^ d) ≤ 7 := by
  unfold padding
  match d, hd with
  | 0, _ => omega
  | 1, _ => omega
  | 2, _ => omega
  | 3, _ => omega

theorem zero_size_basic (be : Bool) (b : Basic) (x : Nat) (h : b.valued = true) :
    1 ≤ (b.zero.marshal be x).length ∧ (b.zero.marshal be x).length ≤ 15
      ∧ b.zero.fits be x := by
  have h2 := padding_lt8 x 1 (by decide)
  have h4 := padding_lt8 x 2 (by decide)
  have h8 := padding_lt8 x 3 (by decide)
  simp only [Nat.reducePow] at h2 h4 h8
  cases b <;> simp only [Basic.zero, Val.marshal, Val.fits, List.length_append, pad_length, enNum_length, List.length_nil,
    List.length_cons] <;> first
    | (refine ⟨by omega, by omega, ?_⟩; first | trivial | decide)
    | (simp [Basic.valued] at h)

mutual
/-- It has some bytes, but not many. -/
theorem zero_size (be : Bool) : (t : Ty) → (x : Nat) → t.valued = true →
    1 ≤ (t.zero.marshal be x).length ∧ (t.zero.marshal be x).length ≤ 16 * t.size ∧ t.zero.fits be x
  | .basic b, x, h => by
    obtain ⟨h1, h2, h3⟩ := zero_size_basic be b x h
    have e : (Ty.basic b).size = 1 := rfl
    exact ⟨h1, by rw [e]; exact Nat.le_trans h2 (by decide), h3⟩
  | .variant, x, _ => by
    have e : Ty.variant.size = 1 := rfl
    have e' : (Ty.basic .string).size = 1 := rfl
    have h4 := padding_lt8 (x + 1 + 2) 2 (by decide)
    simp only [Nat.reducePow] at h4
    simp only [Ty.zero, Val.marshal, Val.fits, List.length_append, pad_length, enNum_length, List.length_nil,
      List.length_cons, bytes_length, e, e']
    refine ⟨by omega, by omega, by decide, by decide⟩
  | .array t, x, _ => by
    have h4 := padding_lt8 x 2 (by decide)
    have h8 := padding_lt8 (x + padding x 4 + 4) t.dvarAlign (dvarAlign_le t)
    have e : 1 ≤ t.size := size_pos t
    have e' : (Ty.array t).size = t.size + 1 := rfl
    simp only [Nat.reducePow] at h4
    simp only [Ty.zero, Val.marshal, Val.marshals, Val.fits, Val.fit, List.length_append, pad_length, enNum_length,
      List.length_nil, e']
    refine ⟨by omega, by omega, by decide, trivial⟩
  | .maybe _, _, h => by simp [Ty.valued] at h
  | .struct ts, x, h => by
    simp only [Ty.valued, Bool.and_eq_true, Bool.not_eq_true', List.isEmpty_eq_false_iff] at h
    obtain ⟨h1, h2, h3⟩ := zeros_size be ts (x + padding x 8) h.2
    have h8 := padding_lt8 x 3 (by decide)
    simp only [Nat.reducePow] at h8
    have e : (Ty.struct ts).size = (Ty.texts ts).length + 2 := by simp [Ty.size, Ty.text]
    have h1' := h1 h.1
    simp only [Ty.zero, Val.marshal, Val.fits, List.length_append, pad_length, e]
    exact ⟨by omega, by omega, h3⟩
  | .dict k v, x, h => by
    simp only [Ty.valued, Bool.and_eq_true] at h
    obtain ⟨k1, k2, k3⟩ := zero_size_basic be k (x + padding x 8) h.1
    obtain ⟨v1, v2, v3⟩ := zero_size be v (x + padding x 8 + (k.zero.marshal be (x + padding x 8)).length) h.2
    have h8 := padding_lt8 x 3 (by decide)
    simp only [Nat.reducePow] at h8
    have e : (Ty.dict k v).size = v.size + 3 := by simp [Ty.size, Ty.text]
    simp only [Ty.zero, Val.marshal, Val.fits, List.length_append, pad_length, e]
    exact ⟨by omega, by omega, k3, v3⟩
theorem zeros_size (be : Bool) : (ts : List Ty) → (x : Nat) → Ty.valueds ts = true →
    (ts ≠ [] → 1 ≤ (Val.marshals be x (Ty.zeros ts)).length)
      ∧ (Val.marshals be x (Ty.zeros ts)).length ≤ 16 * (Ty.texts ts).length ∧ Val.fit be x (Ty.zeros ts)
  | [], x, _ => ⟨fun h => absurd rfl h, Nat.zero_le _, trivial⟩
  | t :: ts, x, h => by
    simp only [Ty.valueds, Bool.and_eq_true] at h
    obtain ⟨k1, k2, k3⟩ := zero_size be t x h.1
    obtain ⟨v1, v2, v3⟩ := zeros_size be ts (x + (t.zero.marshal be x).length) h.2
    have e : (Ty.texts (t :: ts)).length = t.size + (Ty.texts ts).length := by simp [Ty.size, Ty.texts]
    simp only [Ty.zeros, Val.marshals, Val.fit, List.length_append, e]
    exact ⟨fun _ => by omega, by omega, k3, v3⟩
end

theorem copies_size (be : Bool) (t : Ty) (h : t.valued = true) : ∀ (n x : Nat),
    n ≤ (Val.marshals be x (List.replicate n t.zero)).length
      ∧ (Val.marshals be x (List.replicate n t.zero)).length ≤ n * (16 * t.size)
      ∧ Val.fit be x (List.replicate n t.zero) ∧ Val.each (List.replicate n t.zero) t
  | 0, x => ⟨Nat.le_refl _, Nat.zero_le _, trivial, trivial⟩
  | n + 1, x => by
    obtain ⟨a1, a2, a3⟩ := zero_size be t x h
    obtain ⟨b1, b2, b3, b4⟩ := copies_size be t h n (x + (t.zero.marshal be x).length)
    simp only [List.replicate_succ, Val.marshals, List.length_append, Val.fit, Val.each]
    refine ⟨by omega, ?_, ⟨a3, b3⟩, zero_has t h, b4⟩
    rw [Nat.add_mul]
    omega

/-- Eight bytes. -/
def eight : List UInt8 := List.replicate 8 97

theorem larger_basic (be : Bool) (b : Basic) (hd : (Ty.basic b).dynamic = true) :
    ∃ w : Val, w.has (.basic b) ∧ ∀ x, w.fits be x ∧ (b.zero.marshal be x).length + 8 ≤ (w.marshal be x).length := by
  cases b with
  | string => exact ⟨.string eight, trivial, fun x => ⟨show eight.length < _ by decide, by simp [Basic.zero, Val.marshal, eight, Nat.add_assoc]⟩⟩
  | objectPath => exact ⟨.object eight, trivial, fun x => ⟨show eight.length < _ by decide, by simp [Basic.zero, Val.marshal, eight, Nat.add_assoc]⟩⟩
  | signature => exact ⟨.signature eight, trivial, fun x => ⟨show eight.length < _ by decide, by simp [Basic.zero, Val.marshal, eight]⟩⟩
  | _ => cases hd

mutual
/-- Dynamic types have a value that is at least eight bytes longer than the smallest one, wherever it is. -/
theorem larger (be : Bool) : (t : Ty) → t.valued = true → t.dynamic = true → t.size < 2 ^ 24 →
    ∃ w : Val, w.has t ∧ ∀ x, w.fits be x ∧ (t.zero.marshal be x).length + 8 ≤ (w.marshal be x).length
  | .basic b, _, hd, _ => larger_basic be b hd
  | .variant, _, _, _ => by
    refine ⟨.variant (.basic .string) (.string eight), trivial, fun x => ⟨⟨by decide, show eight.length < _ by decide⟩, ?_⟩⟩
    simp [Ty.zero, Val.marshal, eight, Nat.add_assoc]
  | .array t, hv, _, hs => by
    have hv' : t.valued = true := hv
    have hs' : t.size + 1 < 2 ^ 24 := hs
    refine ⟨.array t (List.replicate 8 t.zero), ⟨rfl, (copies_size be t hv' 8 0).2.2.2⟩, fun x => ?_⟩
    obtain ⟨a1, a2, a3, _⟩ := copies_size be t hv' 8 (firstElement x t)
    simp only [Ty.zero, Val.marshal, Val.marshals, Val.fits, List.length_append, pad_length, enNum_length, List.length_nil]
    exact ⟨⟨by omega, a3⟩, by omega⟩
  | .maybe _, hv, _, _ => by simp [Ty.valued] at hv
  | .struct ts, hv, hd, hs => by
    simp only [Ty.valued, Bool.and_eq_true] at hv
    have hd' : (Ty.texts ts).any (· ∈ ['s', 'o', 'g', 'v', 'a', 'm']) = true := by
      simpa [Ty.dynamic, Ty.text] using hd
    have e : (Ty.struct ts).size = (Ty.texts ts).length + 2 := by simp [Ty.size, Ty.text]
    obtain ⟨ws, hw, hl⟩ := largers be ts hv.2 hd' (by omega)
    refine ⟨.struct ws, hw, fun x => ?_⟩
    obtain ⟨l1, l2⟩ := hl (x + padding x 8)
    simp only [Ty.zero, Val.marshal, Val.fits, List.length_append, pad_length]
    exact ⟨l1, by omega⟩
  | .dict k v, hv, hd, hs => by
    simp only [Ty.valued, Bool.and_eq_true] at hv
    have e : (Ty.dict k v).size = v.size + 3 := by simp [Ty.size, Ty.text]
    have hz := fun x => zero_size be v x hv.2
    have hzk := fun x => zero_size_basic be k x hv.1
    by_cases hk : (Ty.basic k).dynamic = true
    · obtain ⟨w, hw, hl⟩ := larger_basic be k hk
      refine ⟨.dict w v.zero, ⟨hw, zero_has v hv.2⟩, fun x => ?_⟩
      obtain ⟨l1, l2⟩ := hl (x + padding x 8)
      have l3 := end_mono be v.zero (x + padding x 8 + (k.zero.marshal be (x + padding x 8)).length + 8)
        (x + padding x 8 + (w.marshal be (x + padding x 8)).length) (by omega)
      rw [marshal_mod8 be v.zero (x + padding x 8 + (k.zero.marshal be (x + padding x 8)).length + 8)
        (x + padding x 8 + (k.zero.marshal be (x + padding x 8)).length) (by omega)] at l3
      simp only [Ty.zero, Val.marshal, Val.fits, List.length_append, pad_length]
      exact ⟨⟨l1, (hz _).2.2⟩, by omega⟩
    · have hvd : v.dynamic = true := by
        simp only [Ty.dynamic, Ty.text, List.any_cons, List.any_append, List.any_nil, Bool.or_eq_true] at hd hk ⊢
        rcases hd with hd | hd | hd | hd | hd
        · simp at hd
        · exact absurd (.inl hd) hk
        · exact hd
        · simp at hd
        · cases hd
      obtain ⟨w, hw, hl⟩ := larger be v hv.2 hvd (by omega)
      refine ⟨.dict k.zero w, ⟨zero_has_basic k hv.1, hw⟩, fun x => ?_⟩
      obtain ⟨l1, l2⟩ := hl (x + padding x 8 + (k.zero.marshal be (x + padding x 8)).length)
      simp only [Ty.zero, Val.marshal, Val.fits, List.length_append, pad_length]
      exact ⟨⟨(hzk _).2.2, l1⟩, by omega⟩
theorem largers (be : Bool) : (ts : List Ty) → Ty.valueds ts = true →
    (Ty.texts ts).any (· ∈ ['s', 'o', 'g', 'v', 'a', 'm']) = true → (Ty.texts ts).length < 2 ^ 24 →
    ∃ ws : List Val, Val.all ws ts ∧ ∀ x, Val.fit be x ws ∧
      (Val.marshals be x (Ty.zeros ts)).length + 8 ≤ (Val.marshals be x ws).length
  | [], _, hd, _ => by cases hd
  | t :: ts, hv, hd, hs => by
    simp only [Ty.valueds, Bool.and_eq_true] at hv
    have e : (Ty.texts (t :: ts)).length = t.size + (Ty.texts ts).length := by simp [Ty.size, Ty.texts]
    by_cases ht : t.dynamic = true
    · obtain ⟨w, hw, hl⟩ := larger be t hv.1 ht (by omega)
      refine ⟨w :: Ty.zeros ts, ⟨hw, zeros_all ts hv.2⟩, fun x => ?_⟩
      obtain ⟨l1, l2⟩ := hl x
      have l3 := ends_far be (Ty.zeros ts) (x + (t.zero.marshal be x).length) (x + (w.marshal be x).length) (by omega)
      simp only [Ty.zeros, Val.marshals, Val.fit, List.length_append]
      exact ⟨⟨l1, (zeros_size be ts _ hv.2).2.2⟩, by omega⟩
    · have htd : (Ty.texts ts).any (· ∈ ['s', 'o', 'g', 'v', 'a', 'm']) = true := by
        simp only [Ty.texts, List.any_append, Bool.or_eq_true] at hd
        exact hd.resolve_left ht
      obtain ⟨ws, hw, hl⟩ := largers be ts hv.2 htd (by omega)
      refine ⟨t.zero :: ws, ⟨zero_has t hv.1, hw⟩, fun x => ?_⟩
      obtain ⟨l1, l2⟩ := hl (x + (t.zero.marshal be x).length)
      simp only [Ty.zeros, Val.marshals, Val.fit, List.length_append]
      exact ⟨⟨(zero_size be t x hv.1).2.2, l1⟩, by omega⟩
end

end Verif.Dbus
