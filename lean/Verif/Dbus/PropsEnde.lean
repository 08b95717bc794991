import Verif.Dbus.ModelEnde
import Verif.Dbus.PropsDec
/-! # Properties of the format-independent encoder and decoder (C75) -/
namespace Verif.Dbus
open Verif.Io

variable {σ τ : Type} {s : Sig} {t : Ty}

/-- The byte order of a format, if it is one of D-Bus. -/
def Ende.Format.order : Ende.Format → Option Bool
  | .dvarBe => some true
  | .dvarLe => some false
  | .json => none

/-- C75. What is created for a D-Bus format goes on as in C33 and C54: no call panics, the answers and their effects are those of the
specifications, in the byte order of the format. -/
theorem ende_encodes {I : WriteImpl τ} (hE : Exact I) (hs : View s t) (f : Ende.Format) (be : Bool) (hf : f.order = some be) (w : Writer τ)
    (ops : List Op) (ho : Op.sanes ops) :
    ∃ e e' w' outs b, Ende.newEnc s f = some e ∧ Op.runs I ops e w = some (e', w', outs)
      ∧ DoesAll (Blocked I) be [] (St.new t) ops outs b ∧ Holds w'.mem (Part.bytes be [] b.parts)
      ∧ Calls I w.st (if b.committed then [(Part.bytes be [] b.parts).length] else []) w'.st := by
  have h : Ende.newEnc s f = Enc.with_ s be := by cases f <;> cases hf <;> rfl
  rw [h]
  exact encoder_refines hE hs be w ops ho

theorem ende_decodes {I : ReadImpl σ} {data : List UInt8} (hL : Linear I data) (hd : data.length < usizeMax) (hs : View s t) (f : Ende.Format)
    (be : Bool) (hf : f.order = some be) (st : σ) (l : List Ask) (hl : Ask.sanes l) :
    ∃ d d' st' rs b, Ende.newDec s f = some d ∧ Ask.runs I l d st = some (d', st', rs)
      ∧ GivesAll (Short I) be data (DSt.new t 0) l rs b := by
  have h : Ende.newDec s f = Dec.with_ s be := by cases f <;> cases hf <;> rfl
  rw [h]
  exact decoder_refines hL hd hs be st l hl

/-- C75, disagreement. There is a format for which nothing can be created: both functions panic. -/
theorem ende_json (s : Sig) : Ende.newEnc s .json = none ∧ Ende.newDec s .json = none := ⟨rfl, rfl⟩

/-- C75, disagreement. Inlining never does anything: it panics if the decoder is told to be in an array that goes on, and otherwise succeeds
without touching the decoder, the encoder or the writer. -/
theorem inline_idle (hs : View s t) (e : Enc) (w : Writer τ) (d : Dec) (st : σ) :
    Ende.inline e w s d st = if d.more then none else some (e, w, d, st, .ok) := by
  obtain ⟨h1, h2, -⟩ := at_root hs
  unfold Ende.inline
  rw [h1]
  show Ende.inlineLoop e w (0 + 1) ⟨s, 0⟩ d st = _
  rw [Ende.inlineLoop, h2]
  rfl

/-- C75, disagreement. For every type: inlining the value of a new decoder into a new encoder of the same type succeeds, and then both still
expect the whole value. -/
theorem inline_copies_nothing {I : WriteImpl τ} (hs : View s t) (f g : Ende.Format) (e : Enc) (d : Dec) (he : Ende.newEnc s f = some e)
    (hd : Ende.newDec s g = some d) (w : Writer τ) (st : σ) :
    Ende.inline e w s d st = some (e, w, d, st, .ok) ∧ e.commit I w = some (e, w, .brk (some .pending)) ∧
      d.commit st = some (d, st, .brk (some .pending)) := by
  obtain ⟨h1, -, -, -, h5⟩ := at_root hs
  have hec : ∃ be, e = ⟨false, be, ⟨s, 0⟩, ⟨0, 0, 0⟩, [], none, none⟩ := by
    cases f
    · refine ⟨true, ?_⟩
      simp only [Ende.newEnc, Enc.with_, h1, Option.bind_eq_bind, Option.bind_some, Option.some.injEq] at he
      exact he.symm
    · refine ⟨false, ?_⟩
      simp only [Ende.newEnc, Enc.with_, h1, Option.bind_eq_bind, Option.bind_some, Option.some.injEq] at he
      exact he.symm
    · cases he
  have hdc : ∃ be, d = ⟨be, ⟨s, 0⟩, ⟨0, 0, 0⟩, [], none, none⟩ := by
    cases g
    · refine ⟨true, ?_⟩
      simp only [Ende.newDec, Dec.with_, h1, Option.bind_eq_bind, Option.bind_some, Option.some.injEq] at hd
      exact hd.symm
    · refine ⟨false, ?_⟩
      simp only [Ende.newDec, Dec.with_, h1, Option.bind_eq_bind, Option.bind_some, Option.some.injEq] at hd
      exact hd.symm
    · cases hd
  obtain ⟨be, rfl⟩ := hec
  obtain ⟨be', rfl⟩ := hdc
  refine ⟨?_, ?_, ?_⟩
  · rw [inline_idle hs]; rfl
  · simp [Enc.commit, h5]
  · simp [Dec.commit, h5]

/-! ## The hypotheses are met, and inlining can panic -/

example : ∃ s t e d, View s t ∧ Ende.newEnc s .dvarLe = some e ∧ Ende.newDec s .dvarBe = some d := by
  obtain ⟨h1, -⟩ := at_root (view_ofTy (.array .variant) (by decide))
  exact ⟨_, _, _, _, view_ofTy (.array .variant) (by decide), by simp only [Ende.newEnc, Enc.with_, h1]; rfl,
    by simp only [Ende.newDec, Dec.with_, h1]; rfl⟩

/-- In an array of one 16 bit number, after its length has been read. -/
example : (do
    let d ← Ende.newDec (sg "aq") .dvarLe
    let e ← Ende.newEnc (sg "aq") .dvarLe
    let (d, st, _) ← d.array (sliceRead [16, 0, 0, 0, 1, 0]) ()
    some (Ende.inline e (vecOf []) (sg "q") d st).isNone) = some true := by decide +kernel

end Verif.Dbus
