import Verif.Borrow.LemmasLaws
import Verif.Borrow.SpecBorrow
import Verif.Ffi.PropsPtr
/-! # Lemmas about the pointer utilities -/
namespace Verif.Borrow

variable {w : Nat} {S T : Type} {M : Machine S T}

theorem anything_base {s₀ s : S} {p : T} {D} (h : Anything M s₀ p s D) : p ∈ D := by
  induction h with
  | start => simp
  | access _ _ ih => exact ih
  | other _ _ _ ih => exact ih
  | derived _ _ _ ih => exact List.mem_cons_of_mem _ ih

theorem member_offset (m : Member w) : m.offset.toInt ≠ -2 ^ (w - 1) := by
  have h1 : m.offset.toNat < 2 ^ (w - 1) := Nat.lt_of_le_of_lt (by have := m.inside; omega) m.small
  have h2 : (0 : Int) ≤ m.offset.toInt := by
    have h3 : 2 * m.offset.toNat < 2 ^ w := by
      rcases w with _ | w
      · have := m.offset.isLt; simp at this ⊢; omega
      · rw [Nat.pow_succ]; simp only [Nat.add_sub_cancel] at h1; omega
    rw [BitVec.toInt_eq_toNat_of_lt h3]; omega
  have h4 : (0 : Int) < 2 ^ (w - 1) := Int.pow_pos (by decide)
  omega

theorem field_container (m : Member w) (p : Pointer w T) : container_of_ptr m.offset (field_of_ptr m.offset p) = some p := by
  simp [container_of_ptr, field_of_ptr, Ffi.container_of_field _ _ (member_offset m)]

theorem field_addr (m : Member w) (p : Pointer w T) (h : m.At p) :
    (field_of_ptr m.offset p).addr.toNat = p.addr.toNat + m.offset.toNat :=
  Ffi.field_of_address _ _ (by have := m.inside; unfold Member.At at h; omega)

theorem Can.field {k} {m : Member w} {s : S} {p : Pointer w T} (h : Can M k m.container s p) (hm : m.At p) :
    Can M k m.field s (field_of_ptr m.offset p) := by
  intro a h1 h2
  rw [field_addr m p hm] at h1 h2
  exact h a (by omega) (by have := m.inside; omega)

/-- The field references that `field_of_mut()` and `field_of()` make. -/
theorem field_of_mut_ok (L : Laws M) (m : Member w) {s : S} {v : Pointer w T} (hv : Has M .write m.container s v) (hm : m.At v) :
    ∃ s₁ p f, field_of_mut M m.container m.field m.offset s v = some (s₁, f) ∧ f.addr = Ffi.field_of_ptr m.offset v.addr ∧
      Can M .write m.field s₁ f ∧ ∃ s₀, M.Valid s₀ ∧ Owns M s v m.container s₀ p ∧
        borrow M .unique m.field s₀ (field_of_ptr m.offset p) = some (s₁, f) := by
  obtain ⟨s₁, p₁, h1, h2⟩ := (Owns.start hv.valid hv.known hv.can).borrow L (.inl rfl)
  obtain ⟨s₂, p₂, h3, h4⟩ := h2.borrow L (.inr rfl)
  have hmp : m.At p₂ := by unfold Member.At; rw [h4.addr]; exact hm
  have hc : Can M .write m.container s₂ p₂ := by unfold Can; rw [h4.addr]; exact h4.usable
  have hf := hc.field hmp
  obtain ⟨s₃, t, h5, h6⟩ := L.newW .unique (.inl rfl) (show M.Known s₂ (field_of_ptr m.offset p₂).tag from h4.known) hf
  have hb : borrow M .unique m.field s₂ (field_of_ptr m.offset p₂) = some (s₃, ⟨(field_of_ptr m.offset p₂).addr, t⟩) := by
    simp [borrow, h5]
  refine ⟨s₃, p₂, ⟨(field_of_ptr m.offset p₂).addr, t⟩, by simp [field_of_mut, h1, h3]; exact hb, by simp [field_of_ptr, h4.addr], (show Can M .write m.field s₃ ⟨(field_of_ptr m.offset p₂).addr, t⟩ from h6), s₂, h4.valid, h4, hb⟩

theorem field_of_ok (L : Laws M) (m : Member w) {s : S} {v : Pointer w T} (hv : Has M .read m.container s v) (hm : m.At v) :
    ∃ s₁ p f, field_of M m.container m.field m.offset s v = some (s₁, f) ∧ f.addr = Ffi.field_of_ptr m.offset v.addr ∧
      Can M .read m.field s₁ f ∧ ∃ s₀, M.Valid s₀ ∧ Sees M s v m.container s₀ p ∧
        borrow M .shared m.field s₀ (field_of_ptr m.offset p) = some (s₁, f) := by
  obtain ⟨s₁, p₁, h1, h2⟩ := Sees.start L hv.valid hv.known hv.can
  obtain ⟨s₂, p₂, h3, h4⟩ := h2.borrow L (.inr rfl)
  have hmp : m.At p₂ := by unfold Member.At; rw [h4.addr]; exact hm
  have hc : Can M .read m.container s₂ p₂ := by unfold Can; rw [h4.addr]; exact h4.usable s₂ .start
  have hf := hc.field hmp
  obtain ⟨s₃, t, h5, h6⟩ := L.newR .shared (.inl rfl) (show M.Known s₂ (field_of_ptr m.offset p₂).tag from h4.known) hf
  have hb : borrow M .shared m.field s₂ (field_of_ptr m.offset p₂) = some (s₃, ⟨(field_of_ptr m.offset p₂).addr, t⟩) := by
    simp [borrow, h5]
  refine ⟨s₃, p₂, ⟨(field_of_ptr m.offset p₂).addr, t⟩, by simp [field_of, h1, h3]; exact hb, by simp [field_of_ptr, h4.addr], (show Can M .read m.field s₃ ⟨(field_of_ptr m.offset p₂).addr, t⟩ from h6), s₂, h4.valid, h4, hb⟩

theorem from_mut_ok (L : Laws M) {size : Nat} {s : S} {v : Pointer w T} (hv : Has M .write size s v) :
    ∃ s₁ o, OnceRef.from_mut M size s v = some (s₁, o) ∧ Owns M s v size s₁ o.ptr := by
  obtain ⟨s₁, p₁, h1, h2⟩ := (Owns.start hv.valid hv.known hv.can).borrow L (.inl rfl)
  obtain ⟨s₂, p₂, h3, h4⟩ := h2.borrow2 L (.inl rfl) (.inr rfl)
  refine ⟨s₂, ⟨p₂⟩, ?_, h4⟩
  have h3 : nonnull_from_mut M size s₁ p₁ = some (s₂, p₂) := h3
  simp [OnceRef.from_mut, h1, h3, OnceRef.from_nonnull]

theorem from_ref_ok (L : Laws M) {size : Nat} {s : S} {v : Pointer w T} (hv : Has M .read size s v) :
    ∃ s₁ p, ptr_from_ref M size s v = some (s₁, p) ∧ OnceRef.from_ref M size s v = some (s₁, ⟨p⟩) ∧ Sees M s v size s₁ p := by
  obtain ⟨s₁, p₁, h1, h2⟩ := Sees.start L hv.valid hv.known hv.can
  obtain ⟨s₂, p₂, h3, h4⟩ := h2.borrow2 L (.inl rfl) (.inr rfl)
  have h3 : nonnull_from_ref M size s₁ p₁ = some (s₂, p₂) := h3
  exact ⟨s₂, p₂, by simp [ptr_from_ref, h1, h3], by simp [OnceRef.from_ref, h1, h3, OnceRef.from_nonnull], h4⟩

theorem Owns.shares (L : Laws M) {s₀ s : S} {v p : Pointer w T} {size : Nat} (h : Owns M s₀ v size s p) :
    ∃ s' r, Verif.Borrow.borrow M .shared size s p = some (s', r) ∧ r.addr = v.addr ∧ Can M .read size s' r ∧
      (∀ D, Uses M s₀ v.tag s D → p.tag ∈ D → Uses M s₀ v.tag s' (r.tag :: D)) := by
  obtain ⟨s', t, h1, h2⟩ := L.newR .shared (.inl rfl) h.known (usable_read L h.usable)
  rw [← h.addr] at h1 h2
  exact ⟨s', ⟨p.addr, t⟩, by simp [Verif.Borrow.borrow, h1], h.addr, h2, fun D hD hp => .reborrow hD hp h1⟩

end Verif.Borrow
