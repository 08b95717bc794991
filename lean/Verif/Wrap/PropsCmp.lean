import Verif.Wrap.LemmasCmp
/-! # Property theorems: comparison wrappers (C68) -/
namespace Verif.Wrap

variable {B O σ T M : Type}

/-! ## Mown -/

/-- **C68** (a). What a `Mown` compares and hashes like depends only on what it dereferences to, never on
whether it is owned: a borrowed and an owned one of the same value are interchangeable. -/
theorem mown_ownership_irrelevant (borrow : O → B) (i : Impl B σ) (a a' b b' : Mown B O)
    (ha : a.deref borrow = a'.deref borrow) (hb : b.deref borrow = b'.deref borrow) (s : σ) :
    (Mown.impl borrow i).eq a b = (Mown.impl borrow i).eq a' b' ∧
    (Mown.impl borrow i).cmp a b = (Mown.impl borrow i).cmp a' b' ∧
    (Mown.impl borrow i).partial_cmp a b = (Mown.impl borrow i).partial_cmp a' b' ∧
    (Mown.impl borrow i).hash a s = (Mown.impl borrow i).hash a' s := by
  simp only [Mown.impl, ha, hb, and_self]

/-- ... namely as the values themselves do. -/
theorem mown_as_values (borrow : O → B) (i : Impl B σ) (v w : B) (o : O) (s : σ) :
    (Mown.impl borrow i).eq (.new_borrowed v) (.new_borrowed w) = i.eq v w ∧
    (Mown.impl borrow i).eq (.new_borrowed v) (.new_owned o) = i.eq v (borrow o) ∧
    (Mown.impl borrow i).eq (.new_owned o) (.new_borrowed v) = i.eq (borrow o) v ∧
    (Mown.impl borrow i).cmp (.new_borrowed v) (.new_borrowed w) = i.cmp v w ∧
    (Mown.impl borrow i).cmp (.new_borrowed v) (.new_owned o) = i.cmp v (borrow o) ∧
    (Mown.impl borrow i).cmp (.new_owned o) (.new_borrowed v) = i.cmp (borrow o) v ∧
    (Mown.impl borrow i).hash (.new_owned o) s = i.hash (borrow o) s ∧
    (Mown.impl borrow i).hash (.new_borrowed v) s = i.hash v s :=
  ⟨rfl, rfl, rfl, rfl, rfl, rfl, rfl, rfl⟩

/-- **C68** (b). `Mown` obeys the laws if the borrowed type does. -/
theorem mown_lawful (borrow : O → B) (i : Impl B σ) (h : Lawful i) : Lawful (Mown.impl borrow i) :=
  lawful_map i h (Mown.deref borrow)

/-- **C68** (c). If the owned type keeps the contract of `Borrow` (it compares and hashes as what it borrows to),
then owned `Mown`s compare and hash as the owned values do. -/
theorem mown_as_owned (borrow : O → B) (i : Impl B σ) (j : Impl O σ)
    (heq : ∀ a b, j.eq a b = i.eq (borrow a) (borrow b)) (hcmp : ∀ a b, j.cmp a b = i.cmp (borrow a) (borrow b))
    (hhash : ∀ a s, j.hash a s = i.hash (borrow a) s) (a b : O) (s : σ) :
    (Mown.impl borrow i).eq (.owned a) (.owned b) = j.eq a b ∧
    (Mown.impl borrow i).cmp (.owned a) (.owned b) = j.cmp a b ∧
    (Mown.impl borrow i).hash (.owned a) s = j.hash a s :=
  ⟨(heq a b).symm, (hcmp a b).symm, (hhash a s).symm⟩

/-- **C68** (d). A clone is owned exactly if the original is, and dereferences to the same value, if clones of the
owned type do. Being owned and being borrowed exclude each other. An owned
value is cloned as its type does it, so that the clone is a value of its own. -/
theorem mown_clone (borrow : O → B) (clone : O → O) (hc : ∀ o, borrow (clone o) = borrow o) (m : Mown B O) :
    (m.clone clone).deref borrow = m.deref borrow ∧ (m.clone clone).is_owned = m.is_owned ∧
    (m.is_owned = true ↔ m.is_borrowed = false) ∧
    (∀ v : B, (Mown.new_borrowed v : Mown B O).is_borrowed = true ∧ (Mown.from_ref v : Mown B O).deref borrow = v) ∧
    (∀ o : O, (Mown.new_owned o : Mown B O).is_owned = true ∧ (Mown.default o : Mown B O).deref borrow = borrow o) ∧
    (∀ o : O, (Mown.new_owned o : Mown B O).clone clone = .new_owned (clone o)) := by
  refine ⟨?_, ?_, ?_, fun v => ⟨rfl, rfl⟩, fun o => ⟨rfl, rfl⟩, fun _ => rfl⟩
  · cases m with
    | borrowed v => rfl
    | owned v => exact hc v
  · cases m <;> rfl
  · cases m <;> simp [Mown.is_owned, Mown.is_borrowed]

/-! ## Pointers -/

/-- **C68** (e). `Identity` obeys the laws for every pointer type, whatever the operators of the value are, and
also for pointers to values of dynamic size if the metadata does. -/
theorem identity_lawful (hashNat : Nat → σ → σ) (i : Impl M σ) (h : Lawful i) (raw : T → RawPtr M) :
    Lawful (Identity.impl raw (RawPtr.impl hashNat i)) := by
  have hp := raw_lawful hashNat i h
  have := lawful_map _ hp (fun a : Identity T => raw a.inner)
  exact ⟨this.refl, this.symm, this.trans, this.cmp_eq, this.cmp_swap, this.cmp_trans, fun _ _ => rfl, this.hash⟩

/-- **C68** (f). Two pointers are identical exactly if they point to the same place (values of static size), and
they are ordered by address. -/
theorem identity_same_place (hashNat : Nat → σ → σ) (raw : T → RawPtr Unit) (a b : T) :
    ((Identity.impl raw (RawPtr.impl hashNat unitImpl)).eq ⟨a⟩ ⟨b⟩ = true ↔ (raw a).addr = (raw b).addr) ∧
    (Identity.impl raw (RawPtr.impl hashNat unitImpl)).cmp ⟨a⟩ ⟨b⟩ = compare (raw a).addr (raw b).addr := by
  constructor
  · simp [Identity.impl, RawPtr.impl, unitImpl]
  · simp only [Identity.impl, RawPtr.impl, unitImpl]
    rcases compare_cases (raw a).addr (raw b).addr with ⟨h, e⟩ | ⟨h, e⟩ | ⟨h, e⟩
    · rw [if_neg (by omega)]
    · rw [if_pos h, e]
    · rw [if_neg (by omega)]

/-- **C68** (g). `Ptr`, `OnceRef` and `NonNull4` obey the laws, are equal exactly if they point to the same
place, are ordered by it, and hash as it. -/
theorem ptr_lawful (hashNat : Nat → σ → σ) (i : Impl M σ) (h : Lawful i) :
    Lawful (Ptr.impl (RawPtr.impl hashNat i)) ∧ Lawful (Wrapped.impl (RawPtr.impl hashNat i)) ∧
    (∀ a b : RawPtr Unit,
      ((Ptr.impl (RawPtr.impl hashNat unitImpl)).eq ⟨a⟩ ⟨b⟩ = true ↔ a.addr = b.addr) ∧
      ((Wrapped.impl (RawPtr.impl hashNat unitImpl)).eq ⟨a⟩ ⟨b⟩ = true ↔ a.addr = b.addr)) ∧
    (∀ (a b : RawPtr Unit) (s : σ),
      (Ptr.impl (RawPtr.impl hashNat unitImpl)).cmp ⟨a⟩ ⟨b⟩ = compare a.addr b.addr ∧
      (Wrapped.impl (RawPtr.impl hashNat unitImpl)).cmp ⟨a⟩ ⟨b⟩ = compare a.addr b.addr ∧
      (Ptr.impl (RawPtr.impl hashNat unitImpl)).hash ⟨a⟩ s = hashNat a.addr s ∧
      (Wrapped.impl (RawPtr.impl hashNat unitImpl)).hash ⟨a⟩ s = hashNat a.addr s) := by
  have hc : ∀ a b : RawPtr Unit, (RawPtr.impl hashNat (unitImpl : Impl Unit σ)).cmp a b = compare a.addr b.addr := by
    intro a b
    show (if a.addr = b.addr then Ordering.eq else compare a.addr b.addr) = _
    by_cases h : a.addr = b.addr
    · rw [if_pos h, h, Nat.compare_eq_eq.mpr rfl]
    · rw [if_neg h]
  have hp := raw_lawful hashNat i h
  refine ⟨?_, lawful_map _ hp (fun a : Wrapped M => a.ptr), ?_, fun a b s => ⟨hc a b, hc a b, rfl, rfl⟩⟩
  · have := lawful_map _ hp (fun a : Ptr M => a.inner)
    exact ⟨this.refl, this.symm, this.trans, this.cmp_eq, this.cmp_swap, this.cmp_trans, fun _ _ => rfl, this.hash⟩
  · intro a b
    constructor
    · simp [Ptr.impl, RawPtr.impl, unitImpl]
    · simp [Wrapped.impl, RawPtr.impl, unitImpl]

/-- **C68** (h). Markers obey the laws, are all equal and do not influence a hash; so do wrapped markers. -/
theorem marker_lawful : Lawful (marker : Impl T σ) ∧ Lawful (AlignAs.impl (marker : Impl T σ)) ∧
    (∀ (a b : T) (s : σ), (marker : Impl T σ).eq a b = true ∧ (marker : Impl T σ).hash a s = s) ∧
    ∀ (i : Impl T σ), Lawful i → Lawful (AlignAs.impl i) := by
  have h : Lawful (marker : Impl T σ) :=
    ⟨fun _ => rfl, fun _ _ _ => rfl, fun _ _ _ _ _ => rfl, fun _ _ => ⟨fun _ => rfl, fun _ => rfl⟩, fun _ _ => rfl,
      fun _ _ _ _ _ => by simp [marker], fun _ _ => rfl, fun _ _ _ _ => rfl⟩
  exact ⟨h, lawful_map _ h _, fun _ _ _ => ⟨rfl, rfl⟩, fun i hi => lawful_map i hi _⟩

/-! ## Non-vacuity -/

/-- Numbers with their usual operators; the hasher records what it is given. -/
def natImpl : Impl Nat (List Nat) where
  eq a b := a == b
  partial_cmp a b := some (compare a b)
  cmp a b := compare a b
  hash a s := s ++ [a]

theorem nat_lawful : Lawful natImpl where
  refl a := by simp [natImpl]
  symm a b h := by simp only [natImpl, beq_iff_eq] at h ⊢; exact h.symm
  trans a b c h h' := by simp only [natImpl, beq_iff_eq] at h h' ⊢; exact h.trans h'
  cmp_eq a b := by simp only [natImpl, beq_iff_eq, Nat.compare_eq_eq]
  cmp_swap a b := by simp only [natImpl, Nat.compare_swap]
  cmp_trans a b c h h' := by
    simp only [natImpl, ne_eq, Nat.compare_eq_gt] at h h' ⊢; omega
  partial_cmp a b := rfl
  hash a b h s := by simp only [natImpl, beq_iff_eq] at h ⊢; rw [h]

-- The contract of `Borrow` kept by an owned type.
example : ∃ j : Impl (List String) (List Nat), (∀ a b, j.eq a b = natImpl.eq a.length b.length) ∧
    (∀ a b, j.cmp a b = natImpl.cmp a.length b.length) ∧ (∀ a s, j.hash a s = natImpl.hash a.length s) :=
  ⟨⟨fun a b => a.length == b.length, fun a b => some (compare a.length b.length), fun a b => compare a.length b.length,
    fun a s => s ++ [a.length]⟩, fun _ _ => rfl, fun _ _ => rfl, fun _ _ => rfl⟩

-- An owned list (its length standing for what it borrows to) and a borrowed number.
example : (Mown.impl List.length natImpl).eq (.new_borrowed 2) (.new_owned ["a", "b"]) = true ∧
    (Mown.impl List.length natImpl).cmp (.new_owned ["a"]) (.new_borrowed 2) = .lt ∧
    (Mown.impl List.length natImpl).hash (.new_owned ["a", "b"]) [] = [2] := by decide

-- Two places with equal contents are not identical; two pointers to the same place are.
example : (Identity.impl (fun (p : Nat × String) => (⟨p.1, ()⟩ : RawPtr Unit))
      (RawPtr.impl (fun a s => s ++ [a]) unitImpl)).eq ⟨(8, "x")⟩ ⟨(16, "x")⟩ = false ∧
    (Identity.impl (fun (p : Nat × String) => (⟨p.1, ()⟩ : RawPtr Unit))
      (RawPtr.impl (fun a (s : List Nat) => s ++ [a]) unitImpl)).eq ⟨(8, "x")⟩ ⟨(8, "x")⟩ = true := by decide

-- Slices with the same address and different lengths are different.
example : (RawPtr.impl (fun a s => s ++ [a]) natImpl).eq ⟨8, 1⟩ ⟨8, 2⟩ = false := by decide

/-- Instances of `mown_ownership_irrelevant`, `mown_lawful`, `mown_clone`, `identity_lawful` and `ptr_lawful`. -/
example := mown_ownership_irrelevant List.length natImpl (.new_borrowed 2) (.new_owned ["a", "b"]) (.new_owned ["c"]) (.new_borrowed 1) rfl rfl []
example := mown_clone (List.length (α := String)) List.reverse (fun _ => List.length_reverse) (.new_owned ["a", "b"])
example := mown_lawful (List.length (α := String)) natImpl nat_lawful
example := identity_lawful (fun a s => s ++ [a]) natImpl nat_lawful (fun p : Nat × String => ⟨p.1, p.2.length⟩)
example := ptr_lawful (fun a s => s ++ [a]) natImpl nat_lawful

end Verif.Wrap
