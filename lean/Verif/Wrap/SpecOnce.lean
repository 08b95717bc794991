import Verif.Wrap.ModelCmp
import Verif.Wrap.ModelPin
/-! # Specification for `OnceRef` as a reference (C85) -/
namespace Verif.Wrap

variable {V σ : Type}

/-- The operators of references `&T` in the standard library: those of the targets. `mem` tells the values of all places. -/
def refImpl (mem : Nat → V) (i : Impl V σ) : Impl (RawPtr Unit) σ where
  eq a b := i.eq (mem a.addr) (mem b.addr)
  partial_cmp a b := i.partial_cmp (mem a.addr) (mem b.addr)
  cmp a b := i.cmp (mem a.addr) (mem b.addr)
  hash a := i.hash (mem a.addr)

/-- The operators of a `OnceRef` to a value of static size. -/
def onceImpl (hashNat : Nat → σ → σ) : Impl (Wrapped Unit) σ := Wrapped.impl (RawPtr.impl hashNat unitImpl)

end Verif.Wrap
