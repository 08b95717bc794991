import Verif.Dbus.LemmasSize
import Verif.Dbus.PropsSig
/-! # Property theorems: what the flags of a parsed signature say about marshalled values (C31)

`PropsSig.lean` states the flags by the codes of a type. Here they are stated by the bytes of its values
(`Val.marshal`, D-Bus Specification). -/
namespace Verif.Dbus
open Verif.Io

/-- C31. The D-Bus alignment of a sub-type is that of its values: they begin at the next multiple of it, after zeroes. -/
theorem alignment_meaning (t : Ty) (h : t.bytes.length ≤ maxLength) (s : Sig) (hs : Sig.new t.bytes = .ok s) (i : Nat)
    (u : Ty) (ho : Occ t i u) : ∃ f, flagsAt s i = some f ∧ ∀ (be : Bool) (v : Val) (off : Nat), v.has u →
      v.marshal be off = pad off (2 ^ FlagSet.dvarExp f) ++ v.marshal be (off + padding off (2 ^ FlagSet.dvarExp f)) := by
  obtain ⟨f, hf, _, _, _, hd, _⟩ := summary t h s hs i u ho
  exact ⟨f, hf, fun be v off hv => by rw [hd]; exact marshal_pad be v u off hv⟩

/-- C31. All values of a sub-type that is not marked dynamic have the same size, wherever they are aligned. -/
theorem fixed_meaning (t : Ty) (h : t.bytes.length ≤ maxLength) (s : Sig) (hs : Sig.new t.bytes = .ok s) (i : Nat)
    (u : Ty) (ho : Occ t i u) : ∃ f, flagsAt s i = some f ∧ (FlagSet.all f FLAG_DYNAMIC = false →
      ∀ (be : Bool) (v w : Val) (x y : Nat), v.has u → w.has u → 2 ^ FlagSet.dvarExp f ∣ x → 2 ^ FlagSet.dvarExp f ∣ y →
        (v.marshal be x).length = (w.marshal be y).length) := by
  obtain ⟨f, hf, hdy, _, _, hd, _⟩ := summary t h s hs i u ho
  refine ⟨f, hf, fun hn be v w x y hv hw hx hy => ?_⟩
  rw [hd] at hx hy
  rw [hdy] at hn
  have hp : u.posDep = false := by
    cases u with
    | basic b => rfl
    | variant => cases hn
    | array u => simp [Ty.dynamic, Ty.text] at hn
    | maybe u => simp [Ty.dynamic, Ty.text] at hn
    | struct ts => rfl
    | dict k v => rfl
  have e : v.marshal be x = v.marshal be y := marshal_align be v u x y hv hp (by
    rw [Nat.mod_eq_zero_of_dvd hx, Nat.mod_eq_zero_of_dvd hy])
  rw [e]
  exact marshal_fixed be v w u y y hv hw hn rfl

/-- C31. A sub-type that has values is marked dynamic exactly if it has values of different size: of each such type there
are two that can be marshalled and differ in size, at every position. -/
theorem dynamic_meaning (t : Ty) (h : t.bytes.length ≤ maxLength) (s : Sig) (hs : Sig.new t.bytes = .ok s) (i : Nat)
    (u : Ty) (ho : Occ t i u) (hv : u.valued = true) (hl : u.size < 2 ^ 24) (be : Bool) :
    ∃ f, flagsAt s i = some f
      ∧ (FlagSet.all f FLAG_DYNAMIC = true → ∃ v w : Val, v.has u ∧ w.has u ∧ ∀ x, v.fits be x ∧ w.fits be x
          ∧ (v.marshal be x).length < (w.marshal be x).length)
      ∧ ((∃ (v w : Val) (x : Nat), v.has u ∧ w.has u ∧ 2 ^ FlagSet.dvarExp f ∣ x
          ∧ (v.marshal be x).length ≠ (w.marshal be x).length) → FlagSet.all f FLAG_DYNAMIC = true) := by
  obtain ⟨f, hf, hn⟩ := fixed_meaning t h s hs i u ho
  obtain ⟨f', hf', hdy, _⟩ := summary t h s hs i u ho
  rw [hf] at hf'
  cases hf'
  refine ⟨f, hf, fun hd => ?_, ?_⟩
  · rw [hdy] at hd
    obtain ⟨w, hw, hx⟩ := larger be u hv hd hl
    refine ⟨u.zero, w, zero_has u hv, hw, fun x => ⟨(zero_size be u x hv).2.2, (hx x).1, ?_⟩⟩
    have := (hx x).2
    omega
  · rintro ⟨v, w, x, hv, hw, hx, hne⟩
    cases hd : FlagSet.all f FLAG_DYNAMIC with
    | true => rfl
    | false => exact absurd (hn hd be v w x x hv hw hx hx) hne

/-- C31. A sub-type without maybes, other than a structure or dict entry at the root, is marked as position dependent
exactly if there is a value of it whose bytes differ between two positions although both are aligned. -/
theorem misaligned_meaning_partial (t : Ty) (h : t.bytes.length ≤ maxLength) (s : Sig) (hs : Sig.new t.bytes = .ok s)
    (i : Nat) (u : Ty) (ho : Occ t i u) (hr : 0 < i ∨ u.bracketed = false) (hm : 'm' ∉ u.text) (be : Bool) :
    ∃ f, flagsAt s i = some f ∧ (FlagSet.all f FLAG_DVAR_MISALIGNED = true ↔
      ∃ (v : Val) (x y : Nat), v.has u ∧ 2 ^ FlagSet.dvarExp f ∣ x ∧ 2 ^ FlagSet.dvarExp f ∣ y ∧ v.marshal be x ≠ v.marshal be y) := by
  obtain ⟨f, hf, _, _, _, hd, _⟩ := summary t h s hs i u ho
  obtain ⟨f', hf', hp⟩ := misaligned_partial t h s hs i u ho hr
  rw [hf] at hf'
  cases hf'
  refine ⟨f, hf, ?_⟩
  rw [hp, hd]
  constructor
  · intro hpd
    obtain ⟨ha, v, hv, hl⟩ := marshal_differs be u hm hpd
    refine ⟨v, 0, 4, hv, Nat.dvd_zero _, ?_, fun e => hl (by rw [e])⟩
    match hd : u.dvarAlign, ha with
    | 0, _ => decide
    | 1, _ => decide
    | 2, _ => decide
  · rintro ⟨v, x, y, hv, hx, hy, hne⟩
    cases hpd : u.posDep with
    | true => rfl
    | false =>
      exact absurd (marshal_align be v u x y hv hpd (by
        rw [Nat.mod_eq_zero_of_dvd hx, Nat.mod_eq_zero_of_dvd hy])) hne

-- A structure with a variant in it has values, and is dynamic.
example : (Ty.struct [.basic .uint64, .array .variant]).valued = true
    ∧ (Ty.struct [.basic .uint64, .array .variant]).dynamic = true
    ∧ (Ty.struct [.basic .uint64, .array .variant]).size < 2 ^ 24 := by decide
-- A structure of fixed size, and an array whose bytes depend on its position.
example : (Val.struct [.u16 1, .u64 2]).has (.struct [.basic .uint16, .basic .uint64])
    ∧ (Ty.struct [.basic .uint16, .basic .uint64]).dynamic = false := ⟨⟨trivial, trivial, trivial⟩, by decide⟩
example : (Ty.array (.basic .uint64)).posDep = true ∧ (Val.array (.basic .uint64) []).marshal false 0 = [0, 0, 0, 0, 0, 0, 0, 0]
    ∧ (Val.array (.basic .uint64) []).marshal false 4 = [0, 0, 0, 0] := ⟨rfl, by rfl, by rfl⟩

/-- An instance of `alignment_meaning`: the array in a structure. -/
example := alignment_meaning (.struct [.basic .uint16, .array (.basic .uint64)]) (by decide) _ (new_bytes _ (by decide)) 2
  (.array (.basic .uint64)) (.child (i := 0) (o := 2) (.root _) (.member [.basic .uint16] _ []))

end Verif.Dbus
