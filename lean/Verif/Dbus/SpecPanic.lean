import Verif.Dbus.ModelPanic
/-! # Specification: panics of writers and readers seen as refusals -/
namespace Verif.Dbus
open Verif.Io

/-- The writer which refuses where the given one panics or maps nothing (which makes the caller panic), and otherwise is the same. -/
def calm {σ : Type} (I : WriteImpl σ) : WriteImpl σ :=
  ⟨fun st i n => match I.map st i n with
    | (st, .fault) => (st, .brk none)
    | (st, .cont 0) => (st, .brk none)
    | x => x, I.commit⟩

/-- The same for readers. -/
def calmR {σ : Type} (I : ReadImpl σ) : ReadImpl σ :=
  ⟨fun st i n => match I.map st i n with
    | (st, .fault) => (st, .brk none)
    | (st, .cont []) => (st, .brk none)
    | x => x⟩

/-- A panic seen as a refusal. -/
def DResU.calm : DResU → DRes
  | .ok => .ok
  | .brk e => .brk e
  | .panic => .brk none

mutual
def OutU.calm : OutU → Out
  | .res r => .res r.calm
  | .sub l => .sub (OutU.calms l)
def OutU.calms : List OutU → List Out
  | [] => []
  | o :: l => o.calm :: OutU.calms l
end

mutual
def AnsU.calm : AnsU → Ans
  | .u16 v => .u16 v
  | .str s => .str s
  | .ok => .ok
  | .brk e => .brk e
  | .more b => .more b
  | .sub l => .sub (AnsU.calms l)
  | .panic => .brk none
def AnsU.calms : List AnsU → List Ans
  | [] => []
  | a :: l => a.calm :: AnsU.calms l
end

/-- A writer that may refuse or panic at any time; if it maps something, then within what was asked for, and within the address space. -/
structure Tame {σ : Type} (I : WriteImpl σ) : Prop where
  le : ∀ st idx len n, (I.map st idx len).2 = .cont n → n ≤ len ∧ idx + n ≤ usizeMax

/-- A reader of `data` that may refuse or panic at any time. -/
structure TameR {σ : Type} (I : ReadImpl σ) (data : List UInt8) : Prop where
  size : data.length < usizeMax
  map : ∀ st idx len m, (I.map st idx len).2 = .cont m → m <+: data.drop idx

mutual
/-- The calls without those that panicked, also within sub-encoders. -/
def Op.keep : Op → OutU → Op
  | .sub s ops, .sub outs => .sub s (Op.keeps ops outs)
  | op, _ => op
def Op.keeps : List Op → List OutU → List Op
  | op :: ops, .res .panic :: outs => Op.keeps ops outs
  | op :: ops, out :: outs => op.keep out :: Op.keeps ops outs
  | _, _ => []
end

mutual
/-- The results of these. -/
def OutU.keep : OutU → Out
  | .sub outs => .sub (OutU.keeps outs)
  | .res r => .res r.calm
def OutU.keeps : List OutU → List Out
  | .res .panic :: outs => OutU.keeps outs
  | out :: outs => out.keep :: OutU.keeps outs
  | [] => []
end

mutual
/-- The same for decoders. -/
def Ask.keep : Ask → AnsU → Ask
  | .sub s l, .sub as => .sub s (Ask.keeps l as)
  | x, _ => x
def Ask.keeps : List Ask → List AnsU → List Ask
  | _ :: l, .panic :: as => Ask.keeps l as
  | x :: l, a :: as => x.keep a :: Ask.keeps l as
  | _, _ => []
end

mutual
def AnsU.keep : AnsU → Ans
  | .sub as => .sub (AnsU.keeps as)
  | .u16 v => .u16 v
  | .str s => .str s
  | .ok => .ok
  | .brk e => .brk e
  | .more b => .more b
  | .panic => .brk none
def AnsU.keeps : List AnsU → List Ans
  | .panic :: as => AnsU.keeps as
  | a :: as => a.keep :: AnsU.keeps as
  | [] => []
end

/-- A vector whose allocator panics at some of the calls, for examples: its length, and the number of calls so far. -/
def flaky (bad : Nat → Bool) : WriteImplU (Nat × Nat) where
  map st idx n := if bad st.2 then ((st.1, st.2 + 1), .fault)
    else if idx + n ≤ usizeMax then ((st.1, st.2 + 1), .cont n) else ((st.1, st.2 + 1), .brk (some .overflow))
  commit st n := (st.1 + n, st.2)
  dies _ _ := false

/-- A slice which panics at some of the calls. -/
def flakyR (bad : Nat → Bool) (data : List UInt8) : ReadImpl Nat where
  map st idx n := if bad st then (st + 1, .fault) else (st + 1, ((sliceRead data).map () idx n).2)

end Verif.Dbus
