import Verif.Dbus.SpecDvar
import Verif.Dbus.SpecDec
/-! # Specification: histories without the calls that were refused -/
namespace Verif.Dbus
open Verif.Io

/-- A call was refused by the writer, or what it would write cannot be addressed. -/
def Out.refused : Out → Bool
  | .res (.brk none) => true
  | .res (.brk (some (.io _))) => true
  | _ => false

mutual
/-- A call without the refused calls of its sub-encoder, given the answers. -/
def Op.kept : Op → Out → Op
  | .sub s ops, .sub outs => .sub s (Op.kepts ops outs)
  | op, _ => op
/-- The calls that were not refused. -/
def Op.kepts : List Op → List Out → List Op
  | op :: ops, out :: outs => if out.refused then Op.kepts ops outs else op.kept out :: Op.kepts ops outs
  | _, _ => []
end

mutual
/-- Their answers. -/
def Out.kept : Out → Out
  | .sub outs => .sub (Out.kepts outs)
  | .res r => .res r
def Out.kepts : List Out → List Out
  | [] => []
  | out :: outs => if out.refused then Out.kepts outs else out.kept :: Out.kepts outs
end

/-- A call was refused by the reader, or what it would read cannot be addressed. -/
def Ans.waits : Ans → Bool
  | .brk none => true
  | .brk (some (.io _)) => true
  | _ => false

mutual
/-- A call without the refused calls of its sub-decoder, given the answers. -/
def Ask.kept : Ask → Ans → Ask
  | .sub s l, .sub rs => .sub s (Ask.kepts l rs)
  | x, _ => x
/-- The calls that were not refused. -/
def Ask.kepts : List Ask → List Ans → List Ask
  | x :: l, r :: rs => if r.waits then Ask.kepts l rs else x.kept r :: Ask.kepts l rs
  | _, _ => []
end

mutual
/-- Their answers. -/
def Ans.kept : Ans → Ans
  | .sub rs => .sub (Ans.kepts rs)
  | r => r
def Ans.kepts : List Ans → List Ans
  | [] => []
  | r :: rs => if r.waits then Ans.kepts rs else r.kept :: Ans.kepts rs
end

/-- A reader that never refuses what is there. -/
def Ready {σ : Type} (I : ReadImpl σ) (data : List UInt8) : Prop :=
  ∀ st idx n, idx + n ≤ data.length → ∀ x, (I.map st idx n).2 ≠ .brk x

end Verif.Dbus
