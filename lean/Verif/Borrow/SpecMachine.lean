/-! # Specification: borrow models

A borrow model decides which pointers may be used at which bytes of memory. It tells pointers to the same address apart
by a tag. Using a pointer wrongly is undefined behaviour, here `none`. -/
namespace Verif.Borrow

/-- What a program does to a byte. -/
inductive Access
  | read
  | write
deriving DecidableEq

/-- What is made out of a pointer or a reference: `&T`, `&mut T`, `*mut T` or `*const T`. -/
inductive Kind
  | shared
  | unique
  | rawMut
  | rawConst
deriving DecidableEq

/-- A borrow model. Both operations take a tag and the range of `n` bytes from `lo` on. -/
structure Machine (State Tag : Type) where
  /-- Read or write bytes through a pointer with that tag. -/
  access : State → Tag → (lo n : Nat) → Access → Option State
  /-- Make another pointer or reference, with its own tag, out of a pointer with that tag. -/
  reborrow : Kind → State → Tag → (lo n : Nat) → Option (State × Tag)
  /-- The states that programs can be in. -/
  Valid : State → Prop
  /-- The tags that were given out. -/
  Known : State → Tag → Prop

variable {State Tag : Type} (M : Machine State Tag)

/-- The byte at `a` can be read or written through a pointer with tag `t`. -/
def Usable (s : State) (t : Tag) (a : Nat) (k : Access) : Prop := (M.access s t a 1 k).isSome = true

/-- All `n` bytes from `lo` on can be. -/
def UsableAll (s : State) (t : Tag) (lo n : Nat) (k : Access) : Prop := ∀ a, lo ≤ a → a < lo + n → Usable M s t a k

/-- No program that got to state `s` can do that without undefined behaviour. -/
def Undefined (s : State) (t : Tag) (lo n : Nat) (k : Access) : Prop := M.access s t lo n k = none

/-- The histories that use nothing but the pointer `p` and whatever is derived from it. The list has all those tags. -/
inductive Uses (s₀ : State) (p : Tag) : State → List Tag → Prop
  | start : Uses s₀ p s₀ [p]
  | access {s D t lo n k s'} : Uses s₀ p s D → t ∈ D → M.access s t lo n k = some s' → Uses s₀ p s' D
  | reborrow {s D t lo n k s' t'} : Uses s₀ p s D → t ∈ D → M.reborrow k s t lo n = some (s', t') →
      Uses s₀ p s' (t' :: D)

/-- All histories, in which any pointers are used. The list has the tags of `p` and of whatever is derived from it. -/
inductive Anything (s₀ : State) (p : Tag) : State → List Tag → Prop
  | start : Anything s₀ p s₀ [p]
  | access {s D t lo n k s'} : Anything s₀ p s D → M.access s t lo n k = some s' → Anything s₀ p s' D
  | other {s D t lo n k s' t'} : Anything s₀ p s D → M.reborrow k s t lo n = some (s', t') → t ∉ D →
      Anything s₀ p s' D
  | derived {s D t lo n k s' t'} : Anything s₀ p s D → M.reborrow k s t lo n = some (s', t') → t ∈ D →
      Anything s₀ p s' (t' :: D)

/-- The histories in which memory is only read and only shared references and `*const` are made, but through any pointers. -/
inductive Reading (s₀ : State) : State → Prop
  | start : Reading s₀ s₀
  | access {s t lo n s'} : Reading s₀ s → M.access s t lo n .read = some s' → Reading s₀ s'
  | reborrow {s t lo n k s' t'} : Reading s₀ s → (k = .shared ∨ k = .rawConst) →
      M.reborrow k s t lo n = some (s', t') → Reading s₀ s'

end Verif.Borrow
