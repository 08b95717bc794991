import Verif.Dbus.ModelCost
import Verif.Dbus.SpecMem
/-! # Specification: what the time of encoders and decoders is compared with -/
namespace Verif.Dbus

mutual
/-- The number of calls, including those of sub-encoders. -/
def Op.count : Op → Nat
  | .sub _ l => 1 + Op.counts l
  | _ => 1
def Op.counts : List Op → Nat
  | [] => 0
  | op :: l => op.count + Op.counts l
end

mutual
/-- The size of the data that is passed to the calls: the bytes of strings, and the words of signatures of variants. -/
def Op.payload : Op → Nat
  | .string s => s.length
  | .object s => s.length
  | .signature s => s.length
  | .variant s => s.words
  | .sub _ l => Op.payloads l
  | _ => 0
def Op.payloads : List Op → Nat
  | [] => 0
  | op :: l => op.payload + Op.payloads l
end

mutual
/-- A call was accepted, and if it was for a sub-encoder, all calls of that. -/
def Out.fine : Out → Bool
  | .res .ok => true
  | .res (.brk _) => false
  | .sub l => Out.fines l
def Out.fines : List Out → Bool
  | [] => true
  | o :: l => o.fine && Out.fines l
end

mutual
/-- The calls of an encoder end with a commit, which is the only one, and so do those of all sub-encoders. -/
def Op.tidy : Op → Bool
  | .sub _ l => Op.complete l
  | .commit => false
  | _ => true
def Op.complete : List Op → Bool
  | [] => false
  | [.commit] => true
  | op :: l => op.tidy && Op.complete l
end

mutual
/-- The number of calls of a decoder, including those of sub-decoders. -/
def Ask.count : Ask → Nat
  | .sub _ l => 1 + Ask.counts l
  | _ => 1
def Ask.counts : List Ask → Nat
  | [] => 0
  | x :: l => x.count + Ask.counts l
end

mutual
/-- The calls of all sub-decoders end with a commit, which is the only one. -/
def Ask.tidy : Ask → Bool
  | .sub _ l => Ask.complete l
  | _ => true
def Ask.complete : List Ask → Bool
  | [] => false
  | [.commit] => true
  | .commit :: _ => false
  | x :: l => x.tidy && Ask.complete l
end

mutual
/-- The number of calls that were refused, including those of sub-decoders. -/
def Ans.refusals : Ans → Nat
  | .brk _ => 1
  | .sub l => Ans.refused l
  | _ => 0
def Ans.refused : List Ans → Nat
  | [] => 0
  | a :: l => a.refusals + Ans.refused l
end

end Verif.Dbus
