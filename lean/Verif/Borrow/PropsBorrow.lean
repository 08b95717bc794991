import Verif.Borrow.LemmasBorrow
/-! # Property theorems: pointers under Stacked Borrows and Tree Borrows (C114) -/
namespace Verif.Borrow

variable {w : Nat} {S T : Type} {M : Machine S T}

/-! ## Containers -/

/-- **C114** (a). Under both borrow models: make a raw pointer to a container from a mutable reference to it, then a field pointer with
`field_of_ptr()`. After any use of those pointers and of what is derived from them, `container_of_ptr()` yields the container
pointer again, and all of the container can still be read and written through it, the field through the field pointer, and
the container through the reference. -/
theorem container_of_raw (hM : BorrowModel M) (m : Member w) {s : S} {v : Pointer w T} (hv : Has M .write m.container s v) (hm : m.At v) :
    ∃ s₁ p, borrow M .rawMut m.container s v = some (s₁, p) ∧ ∀ s₂ D, Uses M s₁ p.tag s₂ D →
      ∃ c, container_of_ptr m.offset (field_of_ptr m.offset p) = some c ∧
        Can M .write m.container s₂ c ∧ Can M .read m.container s₂ c ∧
        Can M .write m.field s₂ (field_of_ptr m.offset p) ∧ Can M .read m.field s₂ (field_of_ptr m.offset p) ∧
        Can M .write m.container s₂ v := by
  have L := hM.laws
  obtain ⟨s₁, p, h1, h2⟩ := (Owns.start hv.valid hv.known hv.can).borrow L (.inr rfl)
  refine ⟨s₁, p, h1, fun s₂ D hU => ⟨p, field_container m p, ?_⟩⟩
  have h3 := h2.later L hU
  have hmp : m.At p := by unfold Member.At; rw [h2.addr]; exact hm
  have hc : Can M .write m.container s₂ p := by unfold Can; rw [h3.addr]; exact h3.usable
  have hr : Can M .read m.container s₂ p := usable_read L hc
  exact ⟨hc, hr, hc.field hmp, hr.field hmp, fun a h4 h5 => h3.origin L hv.valid hv.known (hv.can a h4 h5)⟩

/-- **C114** (b). Likewise with a shared reference, as long as memory is only read, through whatever pointers. -/
theorem container_of_raw_ref (hM : BorrowModel M) (m : Member w) {s : S} {v : Pointer w T} (hv : Has M .read m.container s v)
    (hm : m.At v) :
    ∃ s₁ p, nonnull_from_ref M m.container s v = some (s₁, p) ∧ ∀ s₂, Reading M s₁ s₂ →
      ∃ c, container_of_ptr m.offset (field_of_ptr m.offset p) = some c ∧
        Can M .read m.container s₂ c ∧ Can M .read m.field s₂ (field_of_ptr m.offset p) := by
  have L := hM.laws
  obtain ⟨s₁, p₁, h1, h2⟩ := Sees.start L hv.valid hv.known hv.can
  obtain ⟨s₂, p, h3, h4⟩ := h2.borrow L (.inr rfl)
  refine ⟨s₂, p, by simp [nonnull_from_ref, h1, h3], fun s₃ hr => ⟨p, field_container m p, ?_⟩⟩
  have hmp : m.At p := by unfold Member.At; rw [h4.addr]; exact hm
  have hc : Can M .read m.container s₃ p := by unfold Can; rw [h4.addr]; exact h4.usable s₃ hr
  exact ⟨hc, hc.field hmp⟩

/-- **C114** (c). Under both borrow models, `field_of()` and `field_of_mut()` give references through which the field can be read, and written
if it is mutable. -/
theorem field_references (hM : BorrowModel M) (m : Member w) {s : S} {v : Pointer w T} (hm : m.At v) :
    (Has M .read m.container s v → ∃ s₁ f, field_of M m.container m.field m.offset s v = some (s₁, f) ∧
      f.addr.toNat = v.addr.toNat + m.offset.toNat ∧ Can M .read m.field s₁ f) ∧
    (Has M .write m.container s v → ∃ s₁ f, field_of_mut M m.container m.field m.offset s v = some (s₁, f) ∧
      f.addr.toNat = v.addr.toNat + m.offset.toNat ∧ Can M .write m.field s₁ f ∧ Can M .read m.field s₁ f) := by
  constructor
  · intro hv
    obtain ⟨s₁, p, f, h1, h2, h3, -⟩ := field_of_ok hM.laws m hv hm
    exact ⟨s₁, f, h1, by rw [h2]; exact field_addr m v hm, h3⟩
  · intro hv
    obtain ⟨s₁, p, f, h1, h2, h3, -⟩ := field_of_mut_ok hM.laws m hv hm
    exact ⟨s₁, f, h1, by rw [h2]; exact field_addr m v hm, h3, usable_read hM.laws h3⟩

/-- **C114** (d). Under Stacked Borrows, a container pointer that `container_of_ptr()` makes from a field reference, or from anything derived
from it, has the right address, but whatever happens any access through it that is not within the field is undefined. -/
theorem container_of_field_stacked (m : Member w) {s : Stacks} {v : Pointer w Nat} (hm : m.At v) {s₁ : Stacks} {f : Pointer w Nat}
    (h : (Has stacked .read m.container s v ∧ field_of stacked m.container m.field m.offset s v = some (s₁, f)) ∨
      (Has stacked .write m.container s v ∧ field_of_mut stacked m.container m.field m.offset s v = some (s₁, f)))
    {s₂ : Stacks} {D : List Nat} (hD : Anything stacked s₁ f.tag s₂ D) {t : Nat} (ht : t ∈ D) :
    container_of_ptr m.offset ⟨f.addr, t⟩ = some ⟨v.addr, t⟩ ∧
      ∀ lo n k, 0 < n → ¬ (f.addr.toNat ≤ lo ∧ lo + n ≤ f.addr.toNat + m.field) → Undefined stacked s₂ t lo n k := by
  have key : f.addr = Ffi.field_of_ptr m.offset v.addr ∧ ∃ s₀ q kind, stacked.Valid s₀ ∧
      borrow stacked kind m.field s₀ q = some (s₁, f) := by
    rcases h with ⟨hv, h⟩ | ⟨hv, h⟩
    · obtain ⟨s₁', p, f', h1, h2, -, s₀, h3, -, h4⟩ := field_of_ok stacked_laws m hv hm
      rw [h] at h1; cases h1
      exact ⟨h2, s₀, _, _, h3, h4⟩
    · obtain ⟨s₁', p, f', h1, h2, -, s₀, h3, -, h4⟩ := field_of_mut_ok stacked_laws m hv hm
      rw [h] at h1; cases h1
      exact ⟨h2, s₀, _, _, h3, h4⟩
  obtain ⟨hf, s₀, q, kind, hv0, hb⟩ := key
  constructor
  · have := field_container m ⟨v.addr, t⟩
    rw [show (field_of_ptr m.offset ⟨v.addr, t⟩ : Pointer w Nat) = ⟨f.addr, t⟩ by rw [hf]; rfl] at this
    exact this
  · intro lo n k hn hout
    obtain ⟨⟨s', t'⟩, h1, h2⟩ := Option.map_eq_some_iff.mp hb
    simp only [Prod.mk.injEq] at h2
    obtain ⟨rfl, rfl⟩ := h2
    show stacked.access s₂ t lo n k = none
    cases hx : stacked.access s₂ t lo n k with
    | none => rfl
    | some s₃ =>
      have hall := stacked_range.mp (show (stacked.access s₂ t lo n k).isSome = true by rw [hx]; rfl)
      have hno := stacked_outside hv0 h1 hD t ht
      simp only at hout
      by_cases hlo : q.addr.toNat ≤ lo ∧ lo < q.addr.toNat + m.field
      · exact absurd (hall (lo + n - 1) (by omega) (by omega)) (hno (lo + n - 1) (by omega) k)
      · exact absurd (hall lo (by omega) (by omega)) (hno lo hlo k)

/-- **C114** (e). Under Tree Borrows that is no issue: with a reference of `field_of_mut()`, all of the container can be read and written after any
use of it, with one of `field_of()` all can be read as long as memory is only read. -/
theorem container_of_field_tree (m : Member w) {s : Tree} {v : Pointer w Path} (hm : m.At v) :
    (Has tree .write m.container s v → ∃ s₁ f, field_of_mut tree m.container m.field m.offset s v = some (s₁, f) ∧
      ∃ c, container_of_ptr m.offset f = some c ∧ c.addr = v.addr ∧
        ∀ s₂ D, Uses tree s₁ f.tag s₂ D → Can tree .write m.container s₂ c ∧ Can tree .read m.container s₂ c) ∧
    (Has tree .read m.container s v → ∃ s₁ f, field_of tree m.container m.field m.offset s v = some (s₁, f) ∧
      ∃ c, container_of_ptr m.offset f = some c ∧ c.addr = v.addr ∧
        ∀ s₂, Reading tree s₁ s₂ → Can tree .read m.container s₂ c) := by
  have hc : ∀ f : Pointer w Path, f.addr = Ffi.field_of_ptr m.offset v.addr →
      container_of_ptr m.offset f = some ⟨v.addr, f.tag⟩ := by
    intro f hf
    have := field_container m ⟨v.addr, f.tag⟩
    rwa [show (field_of_ptr m.offset ⟨v.addr, f.tag⟩ : Pointer w Path) = f by simp only [field_of_ptr, ← hf]] at this
  constructor
  · intro hv
    obtain ⟨s₁, p, f, h1, h2, h3, s₀, -, h4, h5⟩ := field_of_mut_ok tree_laws m hv hm
    refine ⟨s₁, f, h1, _, hc f h2, rfl, fun s₂ D hU => ?_⟩
    have hmp : m.At p := by unfold Member.At; rw [h4.addr]; exact hm
    have hcp : Can tree .write m.container s₀ p := by unfold Can; rw [h4.addr]; exact h4.usable
    obtain ⟨s', t', e1, e2, e3, e4⟩ := tree_new (k := .unique) (t := (field_of_ptr m.offset p).tag) (s := s₀) h4.known
      (usable_read tree_laws (hcp.field hmp))
    have hf : s₁ = s' ∧ f.tag = t' := by
      rw [borrow, e1] at h5
      simp only [Option.map_some, Option.some.injEq, Prod.mk.injEq] at h5
      exact ⟨h5.1.symm, by rw [← h5.2]⟩
    obtain ⟨rfl, rfl⟩ := hf
    have hw : Can tree .write m.container s₂ ⟨v.addr, f.tag⟩ := by
      intro a h6 h7
      refine tree_keep e2 (e4 (by simp) a ?_) hU
      exact h4.usable a h6 h7
    exact ⟨hw, usable_read tree_laws hw⟩
  · intro hv
    obtain ⟨s₁, p, f, h1, h2, h3, s₀, -, h4, h5⟩ := field_of_ok tree_laws m hv hm
    refine ⟨s₁, f, h1, _, hc f h2, rfl, fun s₂ hR => ?_⟩
    have hmp : m.At p := by unfold Member.At; rw [h4.addr]; exact hm
    have hcp : Can tree .read m.container s₀ p := by unfold Can; rw [h4.addr]; exact h4.usable s₀ .start
    obtain ⟨s', t', e1, e2, e3, e4⟩ := tree_new (k := .shared) (t := (field_of_ptr m.offset p).tag) (s := s₀) h4.known
      (hcp.field hmp)
    have hf : s₁ = s' ∧ f.tag = t' := by
      rw [borrow, e1] at h5
      simp only [Option.map_some, Option.some.injEq, Prod.mk.injEq] at h5
      exact ⟨h5.1.symm, by rw [← h5.2]⟩
    obtain ⟨rfl, rfl⟩ := hf
    intro a h6 h7
    refine tree_reading e2 (e3 a ?_) hR
    exact h4.usable s₀ .start a h6 h7

/-! ## Raw pointers made from references -/

/-- **C114** (f). The pointers that `nonnull_from_mut()` and `nonnull_from_pin_mut()` make can be written after any use of them, and so can the reference
they were made from. Those of `nonnull_from_ref()` and `nonnull_from_pin_ref()` can be read as long as memory is only read, and never
can anything be written through them or what is derived from them, even if they were made from a mutable reference. -/
theorem nonnull_rights (hM : BorrowModel M) {size : Nat} {s : S} {v : Pointer w T} :
    (∀ f, f = nonnull_from_mut M size ∨ f = nonnull_from_pin_mut M size → Has M .write size s v →
      ∃ s₁ p, f s v = some (s₁, p) ∧ p.addr = v.addr ∧
        ∀ s₂ D, Uses M s₁ p.tag s₂ D → Can M .write size s₂ p ∧ Can M .read size s₂ p ∧ Can M .write size s₂ v) ∧
    (∀ f, f = nonnull_from_ref M size ∨ f = nonnull_from_pin_ref M size → Has M .read size s v →
      ∃ s₁ p, f s v = some (s₁, p) ∧ p.addr = v.addr ∧ (∀ s₂, Reading M s₁ s₂ → Can M .read size s₂ p) ∧
        ∀ s₂ D, Anything M s₁ p.tag s₂ D → ∀ t ∈ D, ∀ a, ¬ Usable M s₂ t a .write) := by
  have L := hM.laws
  constructor
  · intro f hf hv
    have hf : f = nonnull_from_mut M size := by rcases hf with h | h <;> exact h
    subst hf
    obtain ⟨s₁, p, h1, h2⟩ := (Owns.start hv.valid hv.known hv.can).borrow2 L (.inl rfl) (.inr rfl)
    refine ⟨s₁, p, h1, h2.addr, fun s₂ D hU => ?_⟩
    have h3 := h2.later L hU
    have hc : Can M .write size s₂ p := by unfold Can; rw [h3.addr]; exact h3.usable
    exact ⟨hc, usable_read L hc, fun a h4 h5 => h3.origin L hv.valid hv.known (hv.can a h4 h5)⟩
  · intro f hf hv
    have hf : f = nonnull_from_ref M size := by rcases hf with h | h <;> exact h
    subst hf
    obtain ⟨s₁, p₁, h1, h2⟩ := Sees.start L hv.valid hv.known hv.can
    obtain ⟨s₂, p, h3, h4⟩ := h2.borrow L (.inr rfl)
    refine ⟨s₂, p, by simp [nonnull_from_ref, h1, h3], h4.addr, fun s₃ hr => ?_, h4.never⟩
    unfold Can; rw [h4.addr]; exact h4.usable s₃ hr

/-- **C114** (g). A `OnceRef` made from a mutable reference: after any use of it under either borrow model, `as_ref()`, `as_mut()`, `into_ref()` and
`into_mut()` are defined and give references with all the rights of their type, and the mutable reference can be used again. -/
theorem once_from_mut (hM : BorrowModel M) {size : Nat} {s : S} {v : Pointer w T} (hv : Has M .write size s v) :
    ∃ s₁ o, OnceRef.from_mut M size s v = some (s₁, o) ∧ o.into_ptr.addr = v.addr ∧
      ∀ s₂ D, Uses M s₁ o.into_ptr.tag s₂ D → Can M .write size s₂ v ∧
        (∀ f, f = OnceRef.as_ref M size s₂ o ∨ f = OnceRef.into_ref M size s₂ o →
          ∃ s₃ r, f = some (s₃, r) ∧ r.addr = v.addr ∧ Can M .read size s₃ r ∧ Can M .write size s₃ v) ∧
        (∀ f, f = OnceRef.as_mut M size s₂ o ∨ f = OnceRef.into_mut M size s₂ o →
          ∃ s₃ r, f = some (s₃, r) ∧ r.addr = v.addr ∧ Can M .write size s₃ r ∧ Can M .read size s₃ r ∧ Can M .write size s₃ v) := by
  have L := hM.laws
  obtain ⟨s₁, o, h1, h2⟩ := from_mut_ok L hv
  refine ⟨s₁, o, h1, h2.addr, fun s₂ D hU => ?_⟩
  have h3 := h2.later L hU
  refine ⟨fun a h4 h5 => h3.origin L hv.valid hv.known (hv.can a h4 h5), ?_, ?_⟩
  · intro f hf
    have hf : f = borrow M .shared size s₂ o.ptr := by rcases hf with h | h <;> exact h
    obtain ⟨s₃, r, h4, h5, h6, h7⟩ := h3.shares L
    obtain ⟨D', hp, hD'⟩ := h3.uses
    exact ⟨s₃, r, by rw [hf, h4], h5, h6, fun a h8 h9 => L.keep hv.valid hv.known (hv.can a h8 h9) (h7 D' hD' hp)⟩
  · intro f hf
    have hf : f = borrow M .unique size s₂ o.ptr := by rcases hf with h | h <;> exact h
    obtain ⟨s₃, r, h4, h5⟩ := h3.borrow L (.inl rfl)
    have hc : Can M .write size s₃ r := by unfold Can; rw [h5.addr]; exact h5.usable
    exact ⟨s₃, r, by rw [hf, h4], h5.addr, hc, usable_read L hc, fun a h8 h9 => h5.origin L hv.valid hv.known (hv.can a h8 h9)⟩

/-- **C114** (h). A `OnceRef` or `Ptr` made from a shared reference: as long as memory is only read, `as_ref()` and `into_ref()` are defined and give a
readable reference. But however exclusive the reference was, nothing can ever be written through it or through what is
derived from it, such as the reference that `into_mut()` gives. -/
theorem once_from_ref (hM : BorrowModel M) {size : Nat} {s : S} {v : Pointer w T} (hv : Has M .read size s v) :
    ∃ s₁ p, ptr_from_ref M size s v = some (s₁, p) ∧ OnceRef.from_ref M size s v = some (s₁, ⟨p⟩) ∧ p.addr = v.addr ∧
      (∀ s₂, Reading M s₁ s₂ → ∀ f, f = OnceRef.as_ref M size s₂ ⟨p⟩ ∨ f = OnceRef.into_ref M size s₂ ⟨p⟩ ∨ f = ptr_as_ref M size s₂ p →
        ∃ s₃ r, f = some (s₃, r) ∧ r.addr = v.addr ∧ Can M .read size s₃ r) ∧
      (∀ s₂ D, Anything M s₁ p.tag s₂ D → (∀ t ∈ D, ∀ a, ¬ Usable M s₂ t a .write) ∧
        ∀ f, f = OnceRef.as_mut M size s₂ ⟨p⟩ ∨ f = OnceRef.into_mut M size s₂ ⟨p⟩ ∨ f = ptr_as_mut M size s₂ p →
          ∀ s₃ r, f = some (s₃, r) → ∀ s₄ D', Anything M s₃ r.tag s₄ D' → ∀ a, ¬ Usable M s₄ r.tag a .write) := by
  have L := hM.laws
  obtain ⟨s₁, p, h1, h2, h3⟩ := from_ref_ok L hv
  refine ⟨s₁, p, h1, h2, h3.addr, fun s₂ hR f hf => ?_, fun s₂ D hA => ⟨h3.never s₂ D hA, fun f hf s₃ r hr s₄ D' hA' a => ?_⟩⟩
  · have hf : f = borrow M .shared size s₂ p := by rcases hf with h | h | h <;> exact h
    obtain ⟨s₃, r, h4, h5⟩ := (h3.later L hR).borrow L (.inl rfl)
    refine ⟨s₃, r, by rw [hf, h4], h5.addr, ?_⟩
    unfold Can; rw [h5.addr]; exact h5.usable s₃ .start
  · have hf : f = borrow M .unique size s₂ p := by rcases hf with h | h | h <;> exact h
    rw [hf] at hr
    obtain ⟨⟨s', t'⟩, e1, e2⟩ := Option.map_eq_some_iff.mp hr
    simp only [Prod.mk.injEq] at e2
    obtain ⟨rfl, rfl⟩ := e2
    have hpD : p.tag ∈ D := anything_base hA
    obtain ⟨D₂, h5, h6⟩ := (Anything.derived hA e1 hpD).trans (p := t') (List.mem_cons_self ..) hA'
    have ht' : t' ∈ D' := anything_base hA'
    exact h3.never s₄ D₂ h5 t' (h6 t' ht') a

/-- **C114** (i). Under Stacked Borrows, already `as_mut()` and `into_mut()` of a `OnceRef` or `Ptr` made from a shared reference are undefined, unless the
value has no bytes. -/
theorem once_from_ref_stacked {size : Nat} {s : Stacks} {v : Pointer w Nat} (hv : Has stacked .read size s v) (hs : 0 < size)
    {s₁ : Stacks} {p : Pointer w Nat} (h : OnceRef.from_ref stacked size s v = some (s₁, ⟨p⟩))
    {s₂ : Stacks} {D : List Nat} (hA : Anything stacked s₁ p.tag s₂ D) :
    OnceRef.as_mut stacked size s₂ ⟨p⟩ = none ∧ OnceRef.into_mut stacked size s₂ ⟨p⟩ = none ∧ ptr_as_mut stacked size s₂ p = none := by
  obtain ⟨s₁', p', -, h2, h3⟩ := from_ref_ok stacked_laws hv
  rw [h] at h2
  cases h2
  have key : borrow stacked .unique size s₂ p = none := by
    cases hx : stacked.reborrow .unique s₂ p.tag p.addr.toNat size with
    | none => simp [borrow, hx]
    | some r =>
      obtain ⟨s', t'⟩ := r
      have e := (stacked_reborrow hx).2.2.1 p.addr.toNat (Nat.le_refl _) (Nat.lt_add_of_pos_right hs)
      have hsome : (Stack.reborrow .unique p.tag s₂.next (s₂.at_ p.addr.toNat)).isSome = true := by rw [e]; rfl
      have hu : Usable stacked s₂ p.tag p.addr.toNat .write := stacked_usable.mpr (reborrow_isSome.mp hsome)
      exact absurd hu (h3.never s₂ D hA p.tag (anything_base hA) p.addr.toNat)
  exact ⟨key, key, key⟩

/-- **C114** (o). A raw pointer with the right to write, wrapped in a `Ptr` or with `OnceRef::from_ptr()` or `from_nonnull()`: after any use of it, all ways to get a
reference are defined and give it the rights of its type. -/
theorem wrapped_rights (hM : BorrowModel M) {size : Nat} {s : S} {p : Pointer w T} (hp : Has M .write size s p) {o : OnceRef w T}
    (ho : o = .from_ptr p ∨ o = .from_nonnull p) {s₁ : S} {D : List T} (hU : Uses M s p.tag s₁ D) :
    o.into_ptr = p ∧
    (∀ f, f = ptr_as_ref M size s₁ p ∨ f = o.as_ref M size s₁ ∨ f = o.into_ref M size s₁ →
      ∃ s₂ r, f = some (s₂, r) ∧ r.addr = p.addr ∧ Can M .read size s₂ r) ∧
    (∀ f, f = ptr_as_mut M size s₁ p ∨ f = o.as_mut M size s₁ ∨ f = o.into_mut M size s₁ →
      ∃ s₂ r, f = some (s₂, r) ∧ r.addr = p.addr ∧ Can M .write size s₂ r ∧ Can M .read size s₂ r) := by
  have L := hM.laws
  have ho : o = ⟨p⟩ := by rcases ho with h | h <;> exact h
  subst ho
  have h3 := (Owns.start hp.valid hp.known hp.can).later L hU
  refine ⟨rfl, fun f hf => ?_, fun f hf => ?_⟩
  · have hf : f = borrow M .shared size s₁ p := by rcases hf with h | h | h <;> exact h
    obtain ⟨s₂, r, h4, h5, h6, -⟩ := h3.shares L
    exact ⟨s₂, r, by rw [hf, h4], h5, h6⟩
  · have hf : f = borrow M .unique size s₁ p := by rcases hf with h | h | h <;> exact h
    obtain ⟨s₂, r, h4, h5⟩ := h3.borrow L (.inl rfl)
    have hc : Can M .write size s₂ r := by unfold Can; rw [h5.addr]; exact h5.usable
    exact ⟨s₂, r, by rw [hf, h4], h5.addr, hc, usable_read L hc⟩

/-! ## Smart pointers -/

/-- **C114** (j). `into_deref()`, any use of the `OnceRef`, and `from_deref()` of the same type. For `&mut T` and `Box<T>` the result can read and write the
value, for `&T` read it, if memory was only read. For `Rc<T>` and `Arc<T>` the result has the very same tag, so that whatever could be
written before can be written after, such as the counters outside of the value. -/
theorem deref_rights (hM : BorrowModel M) {size : Nat} {s : S} {v : Pointer w T} :
    (∀ sm, sm = .mut_ ∨ sm = .box → Has M .write size s v →
      ∃ s₁ o, into_deref M size s v sm = some (s₁, o) ∧ ∀ s₂ D, Uses M s₁ o.into_ptr.tag s₂ D →
        ∃ s₃ r, from_deref M size s₂ o sm = some (s₃, r) ∧ r.addr = v.addr ∧ Can M .write size s₃ r ∧ Can M .read size s₃ r) ∧
    (Has M .read size s v →
      ∃ s₁ o, into_deref M size s v .ref = some (s₁, o) ∧ ∀ s₂, Reading M s₁ s₂ →
        ∃ s₃ r, from_deref M size s₂ o .ref = some (s₃, r) ∧ r.addr = v.addr ∧ Can M .read size s₃ r) ∧
    (M.Valid s → M.Known s v.tag →
      ∃ s₁ o, into_deref M size s v .rc = some (s₁, o) ∧ ∀ s₂ D, Uses M s₁ o.into_ptr.tag s₂ D →
        from_deref M size s₂ o .rc = some (s₂, v) ∧ ∀ a, Usable M s v.tag a .write → Usable M s₂ v.tag a .write) := by
  have L := hM.laws
  refine ⟨?_, ?_, ?_⟩
  · intro sm hsm hv
    have key : ∃ s₁ o, into_deref M size s v sm = some (s₁, o) ∧ Owns M s v size s₁ o.ptr := by
      rcases hsm with rfl | rfl
      · exact from_mut_ok L hv
      · obtain ⟨s₁, p, h1, h2⟩ := (Owns.start hv.valid hv.known hv.can).borrow L (.inr rfl)
        exact ⟨s₁, ⟨p⟩, by simp [into_deref, h1, OnceRef.from_ptr, OnceRef.from_nonnull], h2⟩
    obtain ⟨s₁, o, h1, h2⟩ := key
    refine ⟨s₁, o, h1, fun s₂ D hU => ?_⟩
    obtain ⟨s₃, r, h4, h5⟩ := (h2.later L hU).borrow L (.inl rfl)
    have hc : Can M .write size s₃ r := by unfold Can; rw [h5.addr]; exact h5.usable
    refine ⟨s₃, r, ?_, h5.addr, hc, usable_read L hc⟩
    rcases hsm with rfl | rfl <;> exact h4
  · intro hv
    obtain ⟨s₁, p, -, h2, h3⟩ := from_ref_ok L hv
    refine ⟨s₁, ⟨p⟩, h2, fun s₂ hR => ?_⟩
    obtain ⟨s₃, r, h4, h5⟩ := (h3.later L hR).borrow L (.inl rfl)
    refine ⟨s₃, r, h4, h5.addr, ?_⟩
    unfold Can; rw [h5.addr]; exact h5.usable s₃ .start
  · intro hv hk
    exact ⟨s, ⟨v⟩, rfl, fun s₂ D hU => ⟨rfl, fun a ha => L.keep hv hk ha hU⟩⟩

/-! ## Addresses -/

/-- **C114** (k). An address taken from a mutable reference, `Pointer::from(&mut v)`: after any use of pointers derived from it, `as_mut()` can give a
mutable and `as_ref()` a readable reference. -/
theorem address_of_mut_rights (hM : BorrowModel M) {size : Nat} {s : S} {v : Pointer w T} {exposed : List T} (hv : Has M .write size s v) :
    ∃ s₁ e a, address_of_mut M size s exposed v = some (s₁, e :: exposed, a) ∧ a = v.addr ∧
      ∀ s₂ D, Uses M s₁ e s₂ D →
        (∃ s₃ r, mut_of_address M size s₂ (e :: exposed) a s₃ r ∧ r.addr = v.addr ∧ Can M .write size s₃ r ∧ Can M .read size s₃ r) ∧
        ∃ s₃ r, ref_of_address M size s₂ (e :: exposed) a s₃ r ∧ r.addr = v.addr ∧ Can M .read size s₃ r := by
  have L := hM.laws
  obtain ⟨s₁, p₁, h1, h2⟩ := (Owns.start hv.valid hv.known hv.can).borrow L (.inl rfl)
  obtain ⟨s₂, p, h3, h4⟩ := h2.borrow L (.inr rfl)
  refine ⟨s₂, p.tag, p.addr, by simp [address_of_mut, h1, h3], h4.addr, fun s₃ D hU => ⟨?_, ?_⟩⟩
  · obtain ⟨s₄, r, h5, h6⟩ := (h4.later L hU).borrow L (.inl rfl)
    have hc : Can M .write size s₄ r := by unfold Can; rw [h6.addr]; exact h6.usable
    exact ⟨s₄, r, ⟨p.tag, by simp, h5⟩, h6.addr, hc, usable_read L hc⟩
  · obtain ⟨s₄, r, h5, h6, h7, -⟩ := (h4.later L hU).shares L
    exact ⟨s₄, r, ⟨p.tag, by simp, h5⟩, h6, h7⟩

/-- **C114** (l). An address taken from a shared reference, `Pointer::from(&v)`: as long as memory is only read, `as_ref()` can give a readable reference.
But if nothing else was exposed, nothing can be written through any reference that `as_mut()` gives. -/
theorem address_of_ref_rights (hM : BorrowModel M) {size : Nat} {s : S} {v : Pointer w T} {exposed : List T} (hv : Has M .read size s v) :
    ∃ s₁ e a, address_of_ref M size s exposed v = some (s₁, e :: exposed, a) ∧ a = v.addr ∧
      (∀ s₂, Reading M s₁ s₂ → ∃ s₃ r, ref_of_address M size s₂ (e :: exposed) a s₃ r ∧ r.addr = v.addr ∧ Can M .read size s₃ r) ∧
      (exposed = [] → ∀ s₂ D, Anything M s₁ e s₂ D → ∀ s₃ r, mut_of_address M size s₂ [e] a s₃ r → ∀ b, ¬ Usable M s₃ r.tag b .write) := by
  have L := hM.laws
  obtain ⟨s₁, p₁, h1, h2⟩ := Sees.start L hv.valid hv.known hv.can
  obtain ⟨s₂, p, h3, h4⟩ := h2.borrow L (.inr rfl)
  refine ⟨s₂, p.tag, p.addr, by simp [address_of_ref, h1, h3], h4.addr, fun s₃ hR => ?_, fun _ s₃ D hA s₄ r hr b => ?_⟩
  · obtain ⟨s₄, r, h5, h6⟩ := (h4.later L hR).borrow L (.inl rfl)
    refine ⟨s₄, r, ⟨p.tag, by simp, h5⟩, h6.addr, ?_⟩
    unfold Can; rw [h6.addr]; exact h6.usable s₄ .start
  · obtain ⟨t, ht, hb⟩ := hr
    rw [List.mem_singleton] at ht
    subst ht
    obtain ⟨⟨s', t'⟩, e1, e2⟩ := Option.map_eq_some_iff.mp hb
    simp only [Prod.mk.injEq] at e2
    obtain ⟨rfl, rfl⟩ := e2
    have hpD : p.tag ∈ D := anything_base hA
    exact h4.never s' _ (.derived hA e1 hpD) t' (List.mem_cons_self ..) b

/-- **C114** (p). An address taken from a raw pointer with the right to write, `Pointer::try_from(p)`: the null pointer is refused. With others, after any use of them,
`as_mut()` and `as_ref()` can give references with the rights of their type. -/
theorem address_of_ptr_rights (hM : BorrowModel M) {size : Nat} {s : S} {p : Pointer w T} {exposed : List T} (hp : Has M .write size s p) :
    (address_of_ptr exposed p = none ↔ p.addr = 0) ∧
    ∀ es a, address_of_ptr exposed p = some (es, a) → ∀ s₁ D, Uses M s p.tag s₁ D →
      (∃ s₂ r, mut_of_address M size s₁ es a s₂ r ∧ r.addr = p.addr ∧ Can M .write size s₂ r ∧ Can M .read size s₂ r) ∧
      ∃ s₂ r, ref_of_address M size s₁ es a s₂ r ∧ r.addr = p.addr ∧ Can M .read size s₂ r := by
  have L := hM.laws
  unfold address_of_ptr
  constructor
  · split <;> simp_all
  · intro es a h s₁ D hU
    split at h
    · cases h
    · simp only [Option.some.injEq, Prod.mk.injEq] at h
      obtain ⟨rfl, rfl⟩ := h
      have h3 := (Owns.start hp.valid hp.known hp.can).later L hU
      constructor
      · obtain ⟨s₂, r, h5, h6⟩ := h3.borrow L (.inl rfl)
        have hc : Can M .write size s₂ r := by unfold Can; rw [h6.addr]; exact h6.usable
        exact ⟨s₂, r, ⟨p.tag, by simp, h5⟩, h6.addr, hc, usable_read L hc⟩
      · obtain ⟨s₂, r, h5, h6, h7, -⟩ := h3.shares L
        exact ⟨s₂, r, ⟨p.tag, by simp, h5⟩, h6, h7⟩

/-- **C114** (m). An address that is only a number, when nothing was exposed, gives no reference at all. -/
theorem address_of_nothing {size : Nat} {s s' : S} {a : BitVec w} {r : Pointer w T} :
    ¬ ref_of_address M size s [] a s' r ∧ ¬ mut_of_address M size s [] a s' r :=
  ⟨fun ⟨_, h, _⟩ => (by cases h), fun ⟨_, h, _⟩ => (by cases h)⟩

/-! ## Tagged pointers -/

/-- **C114** (n). After any history of a `NonNull4`, `ptr()` yields the pointer last put in, including its tag. -/
theorem tagged_keeps (hw : 2 ≤ w) {v : Pointer w T} {p : Tagged4 w T} (hv : v.addr ≠ 0) (hp : Tagged4.new v = some p)
    (cs : List (Call4 w T)) (hcs : ∀ u, Call4.setPtr u ∈ cs → Ffi.Aligned u.addr) {q : Tagged4 w T} (hq : p.calls cs = some q) :
    q.ptr = lastPtr v cs := by
  obtain ⟨raw, h1, rfl⟩ := Option.map_eq_some_iff.mp hp
  have key : ∀ (cs : List (Call4 w T)) (p q : Tagged4 w T) (t : Ffi.Tagged w), Ffi.Rep p.raw t →
      (∀ u, Call4.setPtr u ∈ cs → Ffi.Aligned u.addr) → p.calls cs = some q → q.ptr = lastPtr ⟨t.addr, p.tag⟩ cs := by
    intro cs
    induction cs with
    | nil =>
      intro p q t hr _ h
      have h := Option.some.inj h
      subst h
      have := (Ffi.rep_shows hw _ _ hr).ptr
      simp only [Tagged4.ptr, lastPtr, this]
    | cons c cs ih =>
      intro p q t hr hal h
      obtain ⟨p1, h2, h3⟩ := Option.bind_eq_some_iff.mp h
      cases c with
      | setPtr u =>
        have h2 := Option.some.inj h2
        subst h2
        have := ih _ q _ (Ffi.rep_setPtr hw p.raw t u.addr (hal u (by simp)) hr) (fun x hx => hal x (by simp [hx])) h3
        exact this
      | setMeta m =>
        have h2 := Option.some.inj h2
        subst h2
        have := ih ⟨p.raw.setMeta m, p.tag⟩ q _ (Ffi.rep_setMeta hw p.raw t m hr) (fun x hx => hal x (by simp [hx])) h3
        exact this
      | setMetaBit b f =>
        obtain ⟨raw', h4, rfl⟩ := Option.map_eq_some_iff.mp h2
        rcases Ffi.rep_setMetaBit hw p.raw t b f hr with ⟨h5, -⟩ | ⟨p', t', h5, h6, h7⟩
        · rw [h5] at h4; cases h4
        · rw [h5] at h4
          cases h4
          have hta : t'.addr = t.addr := by
            revert h6
            unfold Ffi.Tagged.call
            split <;> intro h6 <;> simp_all <;> (try (obtain ⟨-, rfl⟩ := h6; rfl))
          have := ih _ q t' h7 (fun x hx => hal x (by simp [hx])) h3
          rw [hta] at this
          exact this
  have hn := Ffi.tagged_new hw v.addr hv
  have hal : v.addr.toNat % 4 = 0 := by
    apply Decidable.byContradiction
    intro hne
    rw [hn.1 hne] at h1; cases h1
  have hraw : raw = ⟨v.addr⟩ := by
    rw [Ffi.NonNull4.new] at h1
    split at h1
    · exact (Option.some.inj h1).symm
    · cases h1
  subst hraw
  obtain ⟨a0, a1⟩ := Ffi.aligned_bits (v := v.addr) ⟨hal, hv⟩
  exact key cs _ q ⟨v.addr, false, false⟩ ⟨⟨hal, hv⟩, a0, a1, fun _ _ _ => rfl⟩ hcs hq

/-! ## Instances -/

/-- Eight bytes that belong to the tag 0. -/
def demoStacked : Stacks := { at_ := fun a => if 0x1000 ≤ a ∧ a < 0x1008 then [⟨0, .unique⟩] else [], next := 1 }

def demoTree : Tree := { at_ := fun _ _ => .reserved, next := 1 }

/-- The byte at offset 2. -/
def demoMember : Member 64 := { offset := 2, field := 1, container := 8, inside := by decide, small := by decide }

theorem demo_stacked : Has stacked .write 8 demoStacked (⟨0x1000, 0⟩ : Pointer 64 Nat) where
  valid a i hi := by
    simp only [demoStacked] at hi ⊢
    split at hi
    · rw [List.mem_singleton.mp hi]; decide
    · cases hi
  known := show 0 < 1 by decide
  can a h1 h2 := stacked_usable.mpr ⟨⟨0, .unique⟩, by
    have h1 : 0x1000 ≤ a := h1
    have h2 : a < 0x1000 + 8 := h2
    show _ ∈ (if _ then _ else _)
    rw [if_pos ⟨h1, by omega⟩]; simp, rfl⟩

theorem demo_tree : Has tree .write 8 demoTree (⟨0x1000, [0]⟩ : Pointer 64 Path) where
  valid := trivial
  known m hm := by rw [List.mem_singleton.mp hm]; exact Nat.one_pos
  can a _ _ := tree_usable.mpr fun u _ => by rfl

theorem demo_read {M : Machine S T} (L : Laws M) {size : Nat} {s : S} {v : Pointer w T} (h : Has M .write size s v) : Has M .read size s v :=
  ⟨h.valid, h.known, usable_read L h.can⟩

-- The hypotheses of (a) to (e) hold for a byte of a container of eight.
example := container_of_raw .stacked demoMember demo_stacked (show _ < _ by decide)
example := container_of_raw .tree demoMember demo_tree (show _ < _ by decide)
example := container_of_raw_ref .stacked demoMember (demo_read stacked_laws demo_stacked) (show _ < _ by decide)
example := (field_references .tree demoMember (s := demoTree) (v := ⟨0x1000, [0]⟩) (show _ < _ by decide)).2 demo_tree
example := (container_of_field_tree demoMember (s := demoTree) (v := ⟨0x1000, [0]⟩) (show _ < _ by decide)).1 demo_tree
example : ∃ s₁ f, field_of_mut stacked 8 1 (2 : BitVec 64) demoStacked ⟨0x1000, 0⟩ = some (s₁, f) ∧
    Undefined stacked s₁ f.tag 0x1000 8 .read ∧ Can stacked .read 1 s₁ f := by
  obtain ⟨s₁, f, h1, h2, -, h3⟩ := (field_references .stacked demoMember (show _ < _ by decide)).2 demo_stacked
  refine ⟨s₁, f, h1, (container_of_field_stacked demoMember (show _ < _ by decide) (.inr ⟨demo_stacked, h1⟩) .start
    (List.mem_singleton.mpr rfl)).2 0x1000 8 .read (by decide) ?_, h3⟩
  rw [h2]; decide

-- The hypotheses of (f) to (l).
example := (nonnull_rights .stacked).1 _ (.inr rfl) demo_stacked
example := (nonnull_rights .tree).2 _ (.inr rfl) (demo_read tree_laws demo_tree)
example := once_from_mut .tree demo_tree
example := once_from_ref .stacked (demo_read stacked_laws demo_stacked)
example : ∃ s₁ p, OnceRef.from_ref stacked 8 demoStacked (⟨0x1000, 0⟩ : Pointer 64 Nat) = some (s₁, ⟨p⟩) ∧
    OnceRef.into_mut stacked 8 s₁ ⟨p⟩ = none := by
  obtain ⟨s₁, p, -, h1, -⟩ := once_from_ref .stacked (demo_read stacked_laws demo_stacked)
  exact ⟨s₁, p, h1, (once_from_ref_stacked (demo_read stacked_laws demo_stacked) (by decide) h1 .start).2.1⟩
example := (deref_rights .stacked).1 .box (.inr rfl) demo_stacked
example := (deref_rights (size := 4) .tree).2.2 demo_tree.valid demo_tree.known
example := address_of_mut_rights (exposed := []) .stacked demo_stacked
example := wrapped_rights .stacked demo_stacked (.inl rfl) .start
example := (address_of_ptr_rights (exposed := []) .tree demo_tree).2 _ _ rfl demoTree _ .start
example := address_of_ref_rights (exposed := []) .tree (demo_read tree_laws demo_tree)

/-- A history as in (g): two reads through references of `as_ref()`, the first of which is used again after the second was made. -/
example : ((do
    let (s, o) ← OnceRef.from_mut stacked 8 demoStacked (⟨0x1000, 0⟩ : Pointer 64 Nat)
    let (s, a) ← o.as_ref stacked 8 s
    let (s, b) ← o.as_ref stacked 8 s
    let s ← stacked.access s b.tag 0x1000 8 .read
    let s ← stacked.access s a.tag 0x1000 8 .read
    let (s, r) ← o.into_mut stacked 8 s
    let s ← stacked.access s r.tag 0x1000 8 .write
    pure ((stacked.access s a.tag 0x1000 8 .read).isSome, (stacked.access s 0 0x1000 8 .write).isSome)) = some (false, true)) := by
  decide +kernel

/-- A mutable reference that is used while a raw pointer made from it is kept takes the rights of that pointer away. -/
example : ((do
    let (s, p) ← nonnull_from_mut stacked 8 demoStacked (⟨0x1000, 0⟩ : Pointer 64 Nat)
    let s ← stacked.access s 0 0x1000 8 .write
    stacked.access s p.tag 0x1000 8 .read).isSome = false) := by decide +kernel

-- The hypotheses of (n).
example : ∃ q, (Tagged4.new (⟨0x1000, 5⟩ : Pointer 64 Nat)).bind (·.calls [.setMeta 3, .setPtr ⟨0x2004, 6⟩, .setMetaBit 0 false]) = some q ∧
    q.ptr = ⟨0x2004, 6⟩ ∧ q.raw.getMeta = 2 := ⟨⟨⟨0x2006⟩, 6⟩, by rfl, by decide, by decide⟩

end Verif.Borrow
