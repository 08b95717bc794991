import Verif.Wrap.ModelOwn
/-! # Specification for the smart pointers converted to `OnceRef` (C69) -/
namespace Verif.Wrap
variable {V : Type}

/-- The safety requirement of `from_deref` (convert.rs 100-113): a `OnceRef` is converted back to the kind of smart
pointer that the object was made for. -/
def Legal (s : Prog V) : Op V → Prop
  | .restore k o => ∀ x, s.objs[o.ptr]? = some x → x.kind = k
  | _ => True

/-- The programs that keep to it, after any history. -/
inductive Reach : Prog V → Prop
  | start : Reach ⟨[], [], [], []⟩
  | step {s s' : Prog V} {op : Op V} {out : Option V} :
      Reach s → Legal s op → s.step op = .ok s' out → Reach s'

/-- Values of objects, by place. -/
def values (s : Prog V) : List V := s.objs.map (·.value)

end Verif.Wrap
