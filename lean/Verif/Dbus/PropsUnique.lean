import Verif.Dbus.LemmasUnique
import Verif.Dbus.PropsDec
/-! # C121: encodings tell values apart -/
namespace Verif.Dbus
open Verif.Io

variable {s : Sig} {t : Ty}

/-- An encoder for `s` with these calls fills an empty vector with `bs`, and no call fails. -/
def Encoded (s : Sig) (be : Bool) (ops : List Op) (bs : List UInt8) : Prop :=
  ∃ e e' w' outs, Enc.with_ s be = some e ∧ Op.runs vecWrite (ops ++ [.commit]) e (vecOf []) = some (e', w', outs)
    ∧ Out.goods outs ∧ vecBytes w' = some bs

/-- The bytes of a value. -/
theorem encoded (hs : View s t) (be : Bool) (v : Val) (hv : v.has t) (hf : v.fits be 0) (hl : (v.marshal be 0).length ≤ isizeMax)
    (ops : List Op) (ho : Writes v ops) : Encoded s be ops (v.marshal be 0) := by
  replace hl : (v.marshal be 0).length < usizeMax := Nat.lt_of_le_of_lt hl (by decide)
  obtain ⟨e, e', w', outs, h1, h2, h3, h4, h5⟩ := encodes_partial vec_write.1 hs be (vecOf []) v ops hv hf ho
    (vec_room (Nat.le_of_lt hl))
  refine ⟨e, e', w', outs, h1, h2, h3, ?_⟩
  have := vec_calls h5
  simp [vecOf] at this
  unfold vecBytes
  rw [this]
  exact mapM_range _ _ fun i hi => h4 i hi

theorem encoded_eq (hs : View s t) (be : Bool) (v : Val) (hv : v.has t) (hf : v.fits be 0) (hl : (v.marshal be 0).length ≤ isizeMax)
    (ops : List Op) (ho : Writes v ops) (bs : List UInt8) (h : Encoded s be ops bs) : bs = v.marshal be 0 := by
  obtain ⟨e, e', w', outs, h1, h2, _, h4⟩ := encoded hs be v hv hf hl ops ho
  obtain ⟨f, f', x', outs', g1, g2, _, g4⟩ := h
  rw [h1] at g1; cases g1
  rw [h2] at g2; cases g2
  rw [h4] at g4; cases g4
  rfl

/-- C121. (`_partial`: see `hollow_lost`.) Two values of a type, however they are written: if the encodings agree, or one begins
with the other, then the values are the same, and so is what follows them. -/
theorem encodings_tell_partial (hs : View s t) (be : Bool) (v w : Val) (hv : v.has t) (hw : w.has t) (hf : v.fits be 0)
    (hg : w.fits be 0) (hsolid : v.solid) (hl : (v.marshal be 0).length ≤ isizeMax) (hm : (w.marshal be 0).length ≤ isizeMax)
    (ops ops' : List Op) (ho : Writes v ops) (ho' : Writes w ops') (bs bs' x y : List UInt8) (h : Encoded s be ops bs)
    (h' : Encoded s be ops' bs') (heq : bs ++ x = bs' ++ y) : v = w ∧ x = y := by
  rw [encoded_eq hs be v hv hf hl ops ho bs h, encoded_eq hs be w hw hg hm ops' ho' bs' h'] at heq
  exact marshal_tell be v w t 0 x y hv hw hf hg hsolid heq

/-- C121. The same at any position, for the values of a structure, or of a message, one after the other. -/
theorem sequences_tell_partial (be : Bool) (off : Nat) (ts : List Ty) (vs ws : List Val) (hv : Val.all vs ts) (hw : Val.all ws ts)
    (hf : Val.fit be off vs) (hg : Val.fit be off ws) (hs : Val.solids vs) (x y : List UInt8)
    (h : Val.marshals be off vs ++ x = Val.marshals be off ws ++ y) : vs = ws ∧ x = y :=
  fields_tell be vs ws ts off x y hv hw hf hg hs h

/-- C121, disagreement. For every type of structures without contents: any two arrays of them have the same encoding,
whatever their lengths. -/
theorem hollow_lost (hs : View s (.array t)) (hh : t.hollow = true) (be : Bool) (vs ws : List Val) (hv : Val.each vs t)
    (hw : Val.each ws t) (ops ops' : List Op) (ho : Writes (.array t vs) ops) (ho' : Writes (.array t ws) ops') :
    Encoded s be ops [0, 0, 0, 0, 0, 0, 0, 0] ∧ Encoded s be ops' [0, 0, 0, 0, 0, 0, 0, 0] := by
  have key : ∀ (vs : List Val) (ops : List Op), Val.each vs t → Writes (.array t vs) ops → Encoded s be ops [0, 0, 0, 0, 0, 0, 0, 0] := by
    intro vs ops hv ho
    have hb := elements_hollow be t hh vs (firstElement 0 t) hv (hollow_first 0 t hh)
    have hm : (Val.array t vs).marshal be 0 = [0, 0, 0, 0, 0, 0, 0, 0] := by
      have e : 2 ^ t.dvarAlign = 8 := by
        cases t with
        | struct ts => simp [Ty.dvarAlign]
        | _ => cases hh
      simp only [Val.marshal, hb, e, List.length_nil, List.append_nil]
      cases be <;> decide
    have := encoded hs be (.array t vs) ⟨rfl, hv⟩ ⟨by rw [hb]; decide, elements_fit be t hh vs _ hv⟩ (by rw [hm]; decide) ops ho
    rwa [hm] at this
  exact ⟨key vs ops hv ho, key ws ops' hw ho'⟩

/-- Values that are told apart: one with an array in a variant, and one with another type in it. -/
example : ∃ (v w : Val) (ops ops' : List Op), v.has .variant ∧ w.has .variant ∧ v.fits false 0 ∧ w.fits false 0 ∧ v.solid ∧ v ≠ w
    ∧ Writes v ops ∧ Writes w ops' ∧ v.marshal false 0 = [2, 97, 113, 0, 2, 0, 0, 0, 1, 0]
    ∧ w.marshal false 0 = [1, 117, 0, 0, 2, 0, 0, 0] := by
  refine ⟨.variant (.array (.basic .uint16)) (.array (.basic .uint16) [.u16 1]), .variant (.basic .uint32) (.u32 2), _, _, ⟨rfl, trivial, trivial⟩, trivial,
    ?_, ?_, ⟨rfl, trivial, trivial⟩, (by simp), .variant _ _ _ _ (view_ofTy _ (by decide)) (by decide) (.array _ _ _ (.cons _ _ _ _ (.u16 1) .nil)),
    .variant _ _ _ _ (view_ofTy _ (by decide)) (by decide) (.u32 2), by decide, by decide⟩
  · exact ⟨by decide, by decide, trivial, trivial⟩
  · exact ⟨by decide, trivial⟩

/-- Structures in structures without contents, none and two of them. -/
example : ∃ (s : Sig) (vs : List Val) (ops ops' : List Op), View s (.array (.struct [.struct []])) ∧ vs.length = 2 ∧ (Ty.struct [.struct []]).hollow = true ∧ Val.each vs (.struct [.struct []])
    ∧ Writes (.array (.struct [.struct []]) vs) ops ∧ Writes (.array (.struct [.struct []]) []) ops' := by
  refine ⟨_, [.struct [.struct []], .struct [.struct []]], _, _, view_ofTy _ (by decide), rfl, rfl, ⟨⟨trivial, trivial⟩, ⟨trivial, trivial⟩, trivial⟩,
    .array _ _ _ (.cons _ _ _ _ (.struct _ _ (.cons _ _ _ _ (.struct _ _ .nil) .nil)) (.cons _ _ _ _ (.struct _ _ (.cons _ _ _ _ (.struct _ _ .nil) .nil)) .nil)),
    .array _ _ _ .nil⟩

end Verif.Dbus
