import Verif.Io.Spec
/-! # Specification: histories of writes -/
namespace Verif.Io.Hist
open Verif.Io

/-- The operations of a writer, map.rs 65-152. -/
inductive WOp
  | write (idx : Nat) (data : List UInt8)
  | iter (idx : Nat) (data : List UInt8)
  | fill (idx len : Nat) (b : UInt8)
  | align (idx exp : Nat)
  | commit (len : Nat)

/-- Performing one, on the models of map.rs. -/
def WOp.run {σ : Type} (I : WriteImpl σ) (w : Writer σ) : WOp → WriteOut σ
  | .write idx data => Io.write I w idx data
  | .iter idx data => writeIter I listIter w idx data
  | .fill idx len b => Io.fill I w idx len b
  | .align idx exp => alignExp2 I w idx exp
  | .commit len => ⟨⟨I.commit w.st len, w.mem⟩, 0, .cont ()⟩

/-- The outcomes one after the other: the index behind what was written, and the control flow. -/
def runs {σ : Type} (I : WriteImpl σ) : Writer σ → List WOp → Writer σ × List (Nat × Flow Unit)
  | w, [] => (w, [])
  | w, op :: ops => ((runs I (op.run I w).w ops).1, ((op.run I w).idx, (op.run I w).flow) :: (runs I (op.run I w).w ops).2)

/-- Where an operation begins to write. -/
def WOp.start : WOp → Nat
  | .write idx _ => idx
  | .iter idx _ => idx
  | .fill idx _ _ => idx
  | .align idx _ => idx
  | .commit _ => 0

/-- What it is to write. -/
def WOp.data : WOp → List UInt8
  | .write _ data => data
  | .iter _ data => data
  | .fill _ len b => List.replicate len b
  | .align idx exp => List.replicate (padding idx (2 ^ exp)) 0
  | .commit _ => []

/-- Exponents for which shifts do not overflow, and indices that exist (see `align_panics`, `align_31`). -/
def WOp.fine : WOp → Prop
  | .align idx exp => exp < 31 ∧ idx ≤ usizeMax
  | _ => True

/-- The lengths committed. -/
def commits : List WOp → List Nat
  | [] => []
  | .commit n :: ops => n :: commits ops
  | _ :: ops => commits ops

/-- The byte at index `j` after operations with the given outcomes, if it was `old` before them: that of the last operation that got
to it. -/
def lastTo (j : Nat) : List WOp → List (Nat × Flow Unit) → Option UInt8 → Option UInt8
  | op :: ops, r :: rs, old => lastTo j ops rs (if op.start ≤ j ∧ j < r.1 then op.data[j - op.start]? else old)
  | _, _, old => old

/-- An operation has written everything if it was continued, and a beginning of it otherwise. It does not panic. -/
def proper (op : WOp) (r : Nat × Flow Unit) : Prop :=
  op.start ≤ r.1 ∧ r.1 ≤ op.start + op.data.length ∧ (r.2 = .cont () → r.1 = op.start + op.data.length) ∧ r.2 ≠ .fault

/-- All of them. -/
def propers : List WOp → List (Nat × Flow Unit) → Prop
  | [], [] => True
  | op :: ops, r :: rs => proper op r ∧ propers ops rs
  | _, _ => False

end Verif.Io.Hist
