import Verif.Types.ModelTypes
/-! # Inversion of subtyping, and that it is a preorder -/
namespace Verif.Types

variable {L : Type} {s : Scope L}

theorem Sub.refl (s : Scope L) : ∀ t : Ty L, Sub s t t
  | .plain .. => .plain ..
  | .ref _ t => .ref (s.refl _) (Sub.refl s t)
  | .refMut _ t => .refMut (s.refl _) (Sub.refl s t) (Sub.refl s t)
  | .ptrConst t => .ptrConst (Sub.refl s t)
  | .ptrMut t => .ptrMut (Sub.refl s t) (Sub.refl s t)
  | .nonNull t => .nonNull (Sub.refl s t)
  | .phantom t => .phantom (Sub.refl s t)
  | .array _ t => .array (Sub.refl s t)
  | .cell t => .cell (Sub.refl s t) (Sub.refl s t)
  | .fnPtr t u => .fnPtr (Sub.refl s t) (Sub.refl s u)
  | .hr f => .gen fun a => .inst a (Sub.refl s (f a))
  | .nil => .nil
  | .field t r => .field (Sub.refl s t) (Sub.refl s r)
  | .adt _ _ t => .adt (Sub.refl s t)
  | .impl _ _ _ t => .impl (Sub.refl s t)

/-- The rules that compare types of the same form. -/
inductive Direct (s : Scope L) : Ty L → Ty L → Prop
  | plain (n : Nat) (x y : Bool) (z a : Nat) : Direct s (.plain n x y z a) (.plain n x y z a)
  | ref {a b : L} {t u : Ty L} : s.outlives a b → Sub s t u → Direct s (.ref a t) (.ref b u)
  | refMut {a b : L} {t u : Ty L} : s.outlives a b → Sub s t u → Sub s u t → Direct s (.refMut a t) (.refMut b u)
  | ptrConst {t u : Ty L} : Sub s t u → Direct s (.ptrConst t) (.ptrConst u)
  | ptrMut {t u : Ty L} : Sub s t u → Sub s u t → Direct s (.ptrMut t) (.ptrMut u)
  | nonNull {t u : Ty L} : Sub s t u → Direct s (.nonNull t) (.nonNull u)
  | phantom {t u : Ty L} : Sub s t u → Direct s (.phantom t) (.phantom u)
  | array {n : Nat} {t u : Ty L} : Sub s t u → Direct s (.array n t) (.array n u)
  | cell {t u : Ty L} : Sub s t u → Sub s u t → Direct s (.cell t) (.cell u)
  | fnPtr {t u x y : Ty L} : Sub s u t → Sub s x y → Direct s (.fnPtr t x) (.fnPtr u y)
  | nil : Direct s .nil .nil
  | field {t u x y : Ty L} : Sub s t u → Sub s x y → Direct s (.field t x) (.field u y)
  | adt {n : Name} {p : Bool} {t u : Ty L} : Sub s t u → Direct s (.adt n p t) (.adt n p u)
  | impl {p q : Ty L} {f g : Bool → Bool → Bool} {t u : Ty L} : Sub s t u → Direct s (.impl p f g t) (.impl q f g u)

theorem Direct.sub {t u : Ty L} (h : Direct s t u) : Sub s t u := by
  cases h with
  | plain => exact .plain ..
  | ref a b => exact .ref a b
  | refMut a b c => exact .refMut a b c
  | ptrConst a => exact .ptrConst a
  | ptrMut a b => exact .ptrMut a b
  | nonNull a => exact .nonNull a
  | phantom a => exact .phantom a
  | array a => exact .array a
  | cell a b => exact .cell a b
  | fnPtr a b => exact .fnPtr a b
  | nil => exact .nil
  | field a b => exact .field a b
  | adt a => exact .adt a
  | impl a => exact .impl a

def Ty.isHr : Ty L → Bool
  | .hr _ => true
  | _ => false

theorem Sub.left {t m u : Ty L} (h : Sub s t m) (hm : m.isHr = false) (k : ∀ t', Direct s t' m → Sub s t' u) : Sub s t u := by
  induction h with
  | inst b _ ih => exact .inst b (ih hm k)
  | gen => cases hm
  | plain => exact k _ (.plain ..)
  | ref a b => exact k _ (.ref a b)
  | refMut a b c => exact k _ (.refMut a b c)
  | ptrConst a => exact k _ (.ptrConst a)
  | ptrMut a b => exact k _ (.ptrMut a b)
  | nonNull a => exact k _ (.nonNull a)
  | phantom a => exact k _ (.phantom a)
  | array a => exact k _ (.array a)
  | cell a b => exact k _ (.cell a b)
  | fnPtr a b => exact k _ (.fnPtr a b)
  | nil => exact k _ .nil
  | field a b => exact k _ (.field a b)
  | adt a => exact k _ (.adt a)
  | impl a => exact k _ (.impl a)

theorem Sub.right {t m u : Ty L} (h : Sub s m u) (hm : m.isHr = false) (k : ∀ u', Direct s m u' → Sub s t u') : Sub s t u := by
  induction h with
  | inst => cases hm
  | gen _ ih => exact .gen fun a => ih a hm k
  | plain => exact k _ (.plain ..)
  | ref a b => exact k _ (.ref a b)
  | refMut a b c => exact k _ (.refMut a b c)
  | ptrConst a => exact k _ (.ptrConst a)
  | ptrMut a b => exact k _ (.ptrMut a b)
  | nonNull a => exact k _ (.nonNull a)
  | phantom a => exact k _ (.phantom a)
  | array a => exact k _ (.array a)
  | cell a b => exact k _ (.cell a b)
  | fnPtr a b => exact k _ (.fnPtr a b)
  | nil => exact k _ .nil
  | field a b => exact k _ (.field a b)
  | adt a => exact k _ (.adt a)
  | impl a => exact k _ (.impl a)

/-- Between types that are not quantified only the direct rules apply. -/
theorem Sub.direct {t u : Ty L} (h : Sub s t u) (ht : t.isHr = false) (hu : u.isHr = false) : Direct s t u := by
  cases h with
  | inst => cases ht
  | gen => cases hu
  | plain => exact .plain ..
  | ref a b => exact .ref a b
  | refMut a b c => exact .refMut a b c
  | ptrConst a => exact .ptrConst a
  | ptrMut a b => exact .ptrMut a b
  | nonNull a => exact .nonNull a
  | phantom a => exact .phantom a
  | array a => exact .array a
  | cell a b => exact .cell a b
  | fnPtr a b => exact .fnPtr a b
  | nil => exact .nil
  | field a b => exact .field a b
  | adt a => exact .adt a
  | impl a => exact .impl a

theorem Sub.trans : ∀ {m t u : Ty L}, Sub s t m → Sub s m u → Sub s t u := by
  intro m
  induction m with
  | hr f ih =>
    have key : ∀ t', (∀ a, Sub s t' (f a)) → ∀ x u, Sub s x u → x = Ty.hr f → Sub s t' u := by
      intro t' hg x u hx
      induction hx with
      | inst b hb _ => intro e; cases e; exact ih b (hg b) hb
      | gen _ ihg => intro e; exact .gen fun a => ihg a e
      | _ => intro e; cases e
    intro t u h1 h2
    generalize hm : Ty.hr f = m at h1
    induction h1 with
    | inst b _ ihb => exact .inst b (ihb hm)
    | gen hg _ => cases hm; exact key _ hg _ _ h2 rfl
    | _ => cases hm
  | plain | nil =>
    intro t u h1 h2
    refine h1.left rfl fun t' d => ?_
    cases d
    exact h2
  | ref _ _ ih =>
    intro t u h1 h2
    refine h1.left rfl fun t' d => h2.right rfl fun u' d' => ?_
    cases d; cases d'
    rename_i a b _ _ c d
    exact .ref (s.trans _ _ _ a c) (ih b d)
  | refMut _ _ ih =>
    intro t u h1 h2
    refine h1.left rfl fun t' d => h2.right rfl fun u' d' => ?_
    cases d; cases d'
    rename_i a b b' _ _ c d d'
    exact .refMut (s.trans _ _ _ a c) (ih b d) (ih d' b')
  | ptrConst _ ih =>
    intro t u h1 h2
    refine h1.left rfl fun t' d => h2.right rfl fun u' d' => ?_
    cases d; cases d'
    exact .ptrConst (ih ‹_› ‹_›)
  | ptrMut _ ih =>
    intro t u h1 h2
    refine h1.left rfl fun t' d => h2.right rfl fun u' d' => ?_
    cases d; cases d'
    exact .ptrMut (ih ‹_› ‹_›) (ih ‹_› ‹_›)
  | nonNull _ ih =>
    intro t u h1 h2
    refine h1.left rfl fun t' d => h2.right rfl fun u' d' => ?_
    cases d; cases d'
    exact .nonNull (ih ‹_› ‹_›)
  | phantom _ ih =>
    intro t u h1 h2
    refine h1.left rfl fun t' d => h2.right rfl fun u' d' => ?_
    cases d; cases d'
    exact .phantom (ih ‹_› ‹_›)
  | array _ _ ih =>
    intro t u h1 h2
    refine h1.left rfl fun t' d => h2.right rfl fun u' d' => ?_
    cases d; cases d'
    exact .array (ih ‹_› ‹_›)
  | cell _ ih =>
    intro t u h1 h2
    refine h1.left rfl fun t' d => h2.right rfl fun u' d' => ?_
    cases d; cases d'
    exact .cell (ih ‹_› ‹_›) (ih ‹_› ‹_›)
  | fnPtr _ _ ih ih' =>
    intro t u h1 h2
    refine h1.left rfl fun t' d => h2.right rfl fun u' d' => ?_
    cases d; cases d'
    exact .fnPtr (ih ‹_› ‹_›) (ih' ‹_› ‹_›)
  | field _ _ ih ih' =>
    intro t u h1 h2
    refine h1.left rfl fun t' d => h2.right rfl fun u' d' => ?_
    cases d; cases d'
    exact .field (ih ‹_› ‹_›) (ih' ‹_› ‹_›)
  | adt _ _ _ ih =>
    intro t u h1 h2
    refine h1.left rfl fun t' d => h2.right rfl fun u' d' => ?_
    cases d; cases d'
    exact .adt (ih ‹_› ‹_›)
  | impl _ _ _ _ _ ih =>
    intro t u h1 h2
    refine h1.left rfl fun t' d => h2.right rfl fun u' d' => ?_
    cases d; cases d'
    exact .impl (ih ‹_› ‹_›)

theorem sub_ref {a b : L} {t u : Ty L} : Sub s (.ref a t) (.ref b u) ↔ s.outlives a b ∧ Sub s t u :=
  ⟨fun h => by cases h; exact ⟨‹_›, ‹_›⟩, fun h => .ref h.1 h.2⟩

theorem sub_refMut {a b : L} {t u : Ty L} : Sub s (.refMut a t) (.refMut b u) ↔ s.outlives a b ∧ Sub s t u ∧ Sub s u t :=
  ⟨fun h => by cases h; exact ⟨‹_›, ‹_›, ‹_›⟩, fun h => .refMut h.1 h.2.1 h.2.2⟩

theorem sub_ptrConst {t u : Ty L} : Sub s (.ptrConst t) (.ptrConst u) ↔ Sub s t u :=
  ⟨fun h => by cases h; assumption, .ptrConst⟩

theorem sub_ptrMut {t u : Ty L} : Sub s (.ptrMut t) (.ptrMut u) ↔ Sub s t u ∧ Sub s u t :=
  ⟨fun h => by cases h; exact ⟨‹_›, ‹_›⟩, fun h => .ptrMut h.1 h.2⟩

theorem sub_nonNull {t u : Ty L} : Sub s (.nonNull t) (.nonNull u) ↔ Sub s t u :=
  ⟨fun h => by cases h; assumption, .nonNull⟩

theorem sub_phantom {t u : Ty L} : Sub s (.phantom t) (.phantom u) ↔ Sub s t u :=
  ⟨fun h => by cases h; assumption, .phantom⟩

theorem sub_array {n : Nat} {t u : Ty L} : Sub s (.array n t) (.array n u) ↔ Sub s t u :=
  ⟨fun h => by cases h; assumption, .array⟩

theorem sub_fnPtr {t u x y : Ty L} : Sub s (.fnPtr t x) (.fnPtr u y) ↔ Sub s u t ∧ Sub s x y :=
  ⟨fun h => by cases h; exact ⟨‹_›, ‹_›⟩, fun h => .fnPtr h.1 h.2⟩

theorem sub_nil : Sub s .nil .nil ↔ True := ⟨fun _ => trivial, fun _ => .nil⟩

theorem sub_field {t u x y : Ty L} : Sub s (.field t x) (.field u y) ↔ Sub s t u ∧ Sub s x y :=
  ⟨fun h => by cases h; exact ⟨‹_›, ‹_›⟩, fun h => .field h.1 h.2⟩

theorem sub_adt {n m : Name} {p q : Bool} {t u : Ty L} : Sub s (.adt n p t) (.adt m q u) ↔ n = m ∧ p = q ∧ Sub s t u :=
  ⟨fun h => by cases h; exact ⟨rfl, rfl, ‹_›⟩, fun h => by obtain ⟨rfl, rfl, h⟩ := h; exact .adt h⟩

theorem sub_impl {p q : Ty L} {f g : Bool → Bool → Bool} {t u : Ty L} :
    Sub s (.impl p f g t) (.impl q f g u) ↔ Sub s t u :=
  ⟨fun h => by cases h; assumption, .impl⟩

theorem sub_same (t : Ty L) : Sub s t t ↔ True := ⟨fun _ => trivial, fun _ => Sub.refl s t⟩

end Verif.Types
