import Verif.Ffi.ModelPtr
/-! # Property theorems: tagged pointers (C17) and field/container pointers (C50) -/
namespace Verif.Ffi

variable {w : Nat}

/-- Reference object: an address and two independent bits. -/
structure Tagged (w : Nat) where
  addr : BitVec w
  b0 : Bool
  b1 : Bool

/-- Aligned to 4 bytes and not null. -/
def Aligned (v : BitVec w) : Prop := v.toNat % 4 = 0 ∧ v ≠ 0

/-- What each call does to the reference object; `none` where the shift overflows. -/
def Tagged.call (t : Tagged w) : Call w → Option (Tagged w)
  | .setPtr v => some { t with addr := v }
  | .setMeta m => some { t with b0 := m.getLsbD 0, b1 := m.getLsbD 1 }
  | .setMetaBit 0 f => if 0 < w then some { t with b0 := f } else none
  | .setMetaBit 1 f => if 1 < w then some { t with b1 := f } else none
  | .setMetaBit b _ => if b < w then some t else none
  | .set0 f => some { t with b0 := f }
  | .set1 f => some { t with b1 := f }

def Tagged.calls (t : Tagged w) : List (Call w) → Option (Tagged w)
  | [] => some t
  | c :: cs => (t.call c).bind (·.calls cs)

/-- All observations of `p` agree with the reference object. -/
structure Shows (p : NonNull4 w) (t : Tagged w) : Prop where
  ptr : p.getPtr = t.addr
  metadata : p.getMeta = BitVec.ofNat w (t.b0.toNat + 2 * t.b1.toNat)
  bit0 : p.get0 = some t.b0
  bit1 : p.get1 = some t.b1
  highBits : ∀ b, 2 ≤ b → b < w → p.metaBit b = some false
  noSuchBit : ∀ b, w ≤ b → p.metaBit b = none
  notNull : p.ptr ≠ 0

theorem testBit_three (i : Nat) : Nat.testBit 3 i = decide (i < 2) := by
  match i with
  | 0 => rfl
  | 1 => rfl
  | i + 2 =>
    have : Nat.testBit 3 (i + 2) = false := by
      apply Nat.testBit_lt_two_pow
      calc 3 < 2 ^ 2 := by decide
        _ ≤ 2 ^ (i + 2) := Nat.pow_le_pow_right (by decide) (by omega)
    simp [this]

theorem mask_bit (i : Nat) (hi : i < w) : (MASK_META w).getLsbD i = decide (i < 2) := by
  rw [MASK_META, BitVec.getLsbD_ofNat, testBit_three]; simp [hi]

theorem addr_bit (i : Nat) (hi : i < w) : (MASK_ADDR w).getLsbD i = decide (2 ≤ i) := by
  simp only [MASK_ADDR, BitVec.getLsbD_not, hi, mask_bit i hi, decide_true, Bool.true_and]
  by_cases h : i < 2
  · have : ¬ 2 ≤ i := by omega
    simp [h, this]
  · have : 2 ≤ i := by omega
    simp [h, this]

theorem aligned_bits {v : BitVec w} (h : Aligned v) : v.getLsbD 0 = false ∧ v.getLsbD 1 = false := by
  have h4 := h.1
  constructor
  · rw [BitVec.getLsbD, Nat.testBit_eq_decide_div_mod_eq]
    simp; omega
  · rw [BitVec.getLsbD, Nat.testBit_eq_decide_div_mod_eq]
    simp; omega

/-- Representation relation in terms of bits. -/
def Rep (p : NonNull4 w) (t : Tagged w) : Prop :=
  Aligned t.addr ∧ p.ptr.getLsbD 0 = t.b0 ∧ p.ptr.getLsbD 1 = t.b1 ∧
    ∀ i, 2 ≤ i → i < w → p.ptr.getLsbD i = t.addr.getLsbD i

theorem getMeta_bit (p : NonNull4 w) (i : Nat) (hi : i < w) :
    p.getMeta.getLsbD i = (p.ptr.getLsbD i && decide (i < 2)) := by
  rw [NonNull4.getMeta, BitVec.getLsbD_and, mask_bit i hi]

theorem and_one_shl (x : BitVec w) (b : Nat) (hb : b < w) :
    decide (x &&& (1#w <<< b) = 1#w <<< b) = x.getLsbD b := by
  rw [Bool.eq_iff_iff, decide_eq_true_iff]
  have bits : ∀ i, i < w → (1#w <<< b).getLsbD i = decide (i = b) := by
    intro i hi
    have hw : 0 < w := by omega
    simp only [BitVec.getLsbD_shiftLeft, hi, decide_true, Bool.true_and, BitVec.getLsbD_one, hw]
    by_cases h1 : i = b
    · subst h1; simp
    · by_cases h2 : i < b
      · simp [h1, h2]
      · have : ¬ (i - b = 0) := by omega
        simp [h1, this]
  constructor
  · intro h
    have := congrArg (fun v : BitVec w => v.getLsbD b) h
    simp only [BitVec.getLsbD_and, bits b hb, decide_true, Bool.and_true] at this
    exact this
  · intro h
    apply BitVec.eq_of_getLsbD_eq
    intro i hi
    rw [BitVec.getLsbD_and, bits i hi]
    by_cases h1 : i = b
    · subst h1; simp [h]
    · simp [h1]

theorem metaBit_eq (p : NonNull4 w) (b : Nat) (hb : b < w) :
    p.metaBit b = some (p.ptr.getLsbD b && decide (b < 2)) := by
  simp only [NonNull4.metaBit, oneShl, if_pos hb, Option.bind_eq_bind, Option.bind_some, Option.pure_def]
  rw [and_one_shl _ _ hb, getMeta_bit p b hb]

theorem rep_shows (hw : 2 ≤ w) (p : NonNull4 w) (t : Tagged w) (h : Rep p t) : Shows p t := by
  obtain ⟨ha, h0, h1, hh⟩ := h
  obtain ⟨a0, a1⟩ := aligned_bits ha
  constructor
  · apply BitVec.eq_of_getLsbD_eq
    intro i hi
    rw [NonNull4.getPtr, BitVec.getLsbD_and, addr_bit i hi]
    match i with
    | 0 => simp [a0]
    | 1 => simp [a1]
    | i + 2 => simp [hh (i + 2) (by omega) hi]
  · apply BitVec.eq_of_getLsbD_eq
    intro i hi
    rw [getMeta_bit p i hi, BitVec.getLsbD_ofNat]
    have hlt : t.b0.toNat + 2 * t.b1.toNat < 2 ^ 2 := by cases t.b0 <;> cases t.b1 <;> decide
    match i with
    | 0 => rw [h0]; simp [hi]; cases t.b0 <;> cases t.b1 <;> decide
    | 1 => rw [h1]; simp [hi]; cases t.b0 <;> cases t.b1 <;> decide
    | i + 2 =>
      have : (t.b0.toNat + 2 * t.b1.toNat).testBit (i + 2) = false :=
        Nat.testBit_lt_two_pow (Nat.lt_of_lt_of_le hlt (Nat.pow_le_pow_right (by decide) (by omega)))
      simp [this]
  · rw [NonNull4.get0, metaBit_eq p 0 (by omega), h0]; simp
  · rw [NonNull4.get1, metaBit_eq p 1 (by omega), h1]; simp
  · intro b hb hbw
    rw [metaBit_eq p b hbw]
    have : ¬ b < 2 := by omega
    simp [this]
  · intro b hb
    have : ¬ b < w := by omega
    simp [NonNull4.metaBit, oneShl, this]
  · intro hz
    apply ha.2
    apply BitVec.eq_of_getLsbD_eq
    intro i hi
    rw [BitVec.ofNat_eq_ofNat, BitVec.getLsbD_zero]
    match i with
    | 0 => exact a0
    | 1 => exact a1
    | i + 2 => rw [← hh (i + 2) (by omega) hi, hz]; simp

theorem rep_setMeta (hw : 2 ≤ w) (p : NonNull4 w) (t : Tagged w) (m : BitVec w) (h : Rep p t) :
    Rep (p.setMeta m) { t with b0 := m.getLsbD 0, b1 := m.getLsbD 1 } := by
  obtain ⟨ha, h0, h1, hh⟩ := h
  have bit : ∀ i, i < w → (p.setMeta m).ptr.getLsbD i
      = ((p.ptr.getLsbD i && decide (2 ≤ i)) || (m.getLsbD i && decide (i < 2))) := by
    intro i hi
    simp only [NonNull4.setMeta, BitVec.getLsbD_or, BitVec.getLsbD_and, addr_bit i hi, mask_bit i hi]
  refine ⟨ha, ?_, ?_, ?_⟩
  · rw [bit 0 (by omega)]; simp
  · rw [bit 1 (by omega)]; simp
  · intro i h2 hi
    have : ¬ i < 2 := by omega
    rw [bit i hi, hh i h2 hi]; simp [h2, this]

theorem rep_setPtr (hw : 2 ≤ w) (p : NonNull4 w) (t : Tagged w) (v : BitVec w) (hv : Aligned v) (h : Rep p t) :
    Rep (p.setPtr v) { t with addr := v } := by
  obtain ⟨ha, h0, h1, hh⟩ := h
  have bit : ∀ i, i < w → (p.setPtr v).ptr.getLsbD i
      = ((v.getLsbD i && decide (2 ≤ i)) || (p.ptr.getLsbD i && decide (i < 2))) := by
    intro i hi
    simp only [NonNull4.setPtr, BitVec.getLsbD_or, BitVec.getLsbD_and, addr_bit i hi, getMeta_bit p i hi]
  refine ⟨hv, ?_, ?_, ?_⟩
  · rw [bit 0 (by omega), h0]; simp
  · rw [bit 1 (by omega), h1]; simp
  · intro i h2 hi
    have : ¬ i < 2 := by omega
    rw [bit i hi]; simp [h2, this]

/-- The argument that `set_meta_bit` passes on, bit by bit. -/
theorem setMetaBit_arg (p : NonNull4 w) (b : Nat) (f : Bool) (hb : b < w) (i : Nat) (hi : i < w) :
    ((p.getMeta &&& ~~~(1#w <<< b)) ||| (if f then 1#w <<< b else 0#w)).getLsbD i
      = if i = b then f else (p.ptr.getLsbD i && decide (i < 2)) := by
  have bits : (1#w <<< b).getLsbD i = decide (i = b) := by
    have hw : 0 < w := by omega
    simp only [BitVec.getLsbD_shiftLeft, hi, decide_true, Bool.true_and, BitVec.getLsbD_one, hw]
    by_cases h1 : i = b
    · subst h1; simp
    · by_cases h2 : i < b
      · simp [h1, h2]
      · have : ¬ (i - b = 0) := by omega
        simp [h1, this]
  simp only [BitVec.getLsbD_or, BitVec.getLsbD_and, BitVec.getLsbD_not, hi, getMeta_bit p i hi, bits]
  by_cases h : i = b
  · subst h; cases f <;> simp [bits]
  · cases f <;> simp [h, bits]

/-- Setting a single bit. -/
theorem rep_setMetaBit (hw : 2 ≤ w) (p : NonNull4 w) (t : Tagged w) (b : Nat) (f : Bool) (h : Rep p t) :
    (p.setMetaBit b f = none ∧ t.call (.setMetaBit b f) = none) ∨
      ∃ p' t', p.setMetaBit b f = some p' ∧ t.call (.setMetaBit b f) = some t' ∧ Rep p' t' := by
  by_cases hb : b < w
  · right
    have e : p.setMetaBit b f
        = some (p.setMeta ((p.getMeta &&& ~~~(1#w <<< b)) ||| (if f then 1#w <<< b else 0#w))) := by
      simp only [NonNull4.setMetaBit, oneShl, if_pos hb, Option.bind_eq_bind,
        Option.bind_some, Option.pure_def]
    have hr := rep_setMeta hw p t ((p.getMeta &&& ~~~(1#w <<< b)) ||| (if f then 1#w <<< b else 0#w)) h
    rw [setMetaBit_arg p b f hb 0 (by omega), setMetaBit_arg p b f hb 1 (by omega), h.2.1, h.2.2.1] at hr
    match b with
    | 0 => exact ⟨_, _, e, if_pos (by omega), by simpa using hr⟩
    | 1 => exact ⟨_, _, e, if_pos (by omega), by simpa using hr⟩
    | b + 2 => exact ⟨_, t, e, if_pos hb, by simpa using hr⟩
  · left
    constructor
    · simp only [NonNull4.setMetaBit, oneShl, if_neg hb, Option.bind_eq_bind, Option.bind_none]
    · match b with
      | 0 => exact if_neg (by omega)
      | 1 => exact if_neg (by omega)
      | b + 2 => exact if_neg hb

theorem rep_call (hw : 2 ≤ w) (p : NonNull4 w) (t : Tagged w) (c : Call w)
    (hc : ∀ v, c = .setPtr v → Aligned v) (h : Rep p t) :
    (p.call c = none ∧ t.call c = none) ∨ ∃ p' t', p.call c = some p' ∧ t.call c = some t' ∧ Rep p' t' := by
  cases c with
  | setPtr v => exact Or.inr ⟨_, _, rfl, rfl, rep_setPtr hw p t v (hc v rfl) h⟩
  | setMeta m => exact Or.inr ⟨_, _, rfl, rfl, rep_setMeta hw p t m h⟩
  | setMetaBit b f => exact rep_setMetaBit hw p t b f h
  | set0 f =>
    rcases rep_setMetaBit hw p t 0 f h with ⟨_, h2⟩ | ⟨p', t', h1, h2, h3⟩
    · rw [show t.call (.setMetaBit 0 f) = some { t with b0 := f } from if_pos (by omega)] at h2; cases h2
    · rw [show t.call (.setMetaBit 0 f) = some { t with b0 := f } from if_pos (by omega)] at h2
      exact Or.inr ⟨p', t', h1, h2, h3⟩
  | set1 f =>
    rcases rep_setMetaBit hw p t 1 f h with ⟨_, h2⟩ | ⟨p', t', h1, h2, h3⟩
    · rw [show t.call (.setMetaBit 1 f) = some { t with b1 := f } from if_pos (by omega)] at h2; cases h2
    · rw [show t.call (.setMetaBit 1 f) = some { t with b1 := f } from if_pos (by omega)] at h2
      exact Or.inr ⟨p', t', h1, h2, h3⟩

/-- **C17** (a). `new` accepts exactly the pointers aligned to 4 bytes and starts without metadata. -/
theorem tagged_new (hw : 2 ≤ w) (v : BitVec w) (hv : v ≠ 0) :
    (v.toNat % 4 ≠ 0 → NonNull4.new v = none) ∧
    (v.toNat % 4 = 0 → ∃ p, NonNull4.new v = some p ∧ Shows p ⟨v, false, false⟩) := by
  have hmask : v &&& MASK_META w = 0 ↔ v.toNat % 4 = 0 := by
    rw [← BitVec.toNat_inj, BitVec.toNat_and, MASK_META, BitVec.toNat_ofNat]
    have h3 : 3 % 2 ^ w = 3 := Nat.mod_eq_of_lt (by
      calc 3 < 2 ^ 2 := by decide
        _ ≤ 2 ^ w := Nat.pow_le_pow_right (by decide) hw)
    rw [h3]
    have : v.toNat &&& 3 = v.toNat % 4 := Nat.and_two_pow_sub_one_eq_mod v.toNat 2
    rw [this]; simp
  constructor
  · intro h
    rw [NonNull4.new, if_neg (fun h' => h (hmask.mp h'))]
  · intro h
    refine ⟨⟨v⟩, by rw [NonNull4.new, if_pos (hmask.mpr h)], ?_⟩
    apply rep_shows hw
    have ha : Aligned v := ⟨h, hv⟩
    obtain ⟨a0, a1⟩ := aligned_bits ha
    exact ⟨ha, a0, a1, fun _ _ _ => rfl⟩

/-- **C17** (b). Every history of setters, started from `new`, is indistinguishable from a separate
address and two separate bits: pointer, metadata and single bits all read back as last set, bits beyond
the metadata are ignored, the pointer never becomes null, and the only panics are shifts by the word size
or more. -/
theorem tagged_history (hw : 2 ≤ w) (v : BitVec w) (p : NonNull4 w) (hv : v ≠ 0) (hp : NonNull4.new v = some p)
    (cs : List (Call w)) (hcs : ∀ v, Call.setPtr v ∈ cs → Aligned v) :
    (p.calls cs = none ∧ Tagged.calls ⟨v, false, false⟩ cs = none) ∨
    ∃ q t, p.calls cs = some q ∧ Tagged.calls ⟨v, false, false⟩ cs = some t ∧ Shows q t := by
  have hal : v.toNat % 4 = 0 := by
    apply Decidable.byContradiction
    intro hne
    rw [(tagged_new hw v hv).1 hne] at hp; cases hp
  have hpe : p = ⟨v⟩ := by
    rw [NonNull4.new] at hp
    split at hp
    · exact (Option.some.inj hp).symm
    · cases hp
  subst hpe
  have ha : Aligned v := ⟨hal, hv⟩
  obtain ⟨a0, a1⟩ := aligned_bits ha
  have hrep : Rep (⟨v⟩ : NonNull4 w) ⟨v, false, false⟩ := ⟨ha, a0, a1, fun _ _ _ => rfl⟩
  clear hp hal
  generalize (⟨v⟩ : NonNull4 w) = p at hrep
  generalize (⟨v, false, false⟩ : Tagged w) = t at hrep
  induction cs generalizing p t with
  | nil => exact Or.inr ⟨p, t, rfl, rfl, rep_shows hw p t hrep⟩
  | cons c cs ih =>
    rcases rep_call hw p t c (fun v h => hcs v (by simp [h])) hrep with ⟨h1, h2⟩ | ⟨p', t', h1, h2, h3⟩
    · exact Or.inl ⟨by simp [NonNull4.calls, h1], by simp [Tagged.calls, h2]⟩
    · simp only [NonNull4.calls, Tagged.calls, h1, h2, Option.bind_some]
      exact ih (fun v h => hcs v (by simp [h])) p' t' h3

example : ∃ p, NonNull4.new (0x1000#64) = some p ∧
    (p.calls [.setMeta 7#64, .setPtr 0x2004#64, .setMetaBit 0 false, .set1 false, .set1 true, .setMetaBit 5 true]).map
      (fun q => (q.getPtr, q.getMeta)) = some (0x2004#64, 2#64) := ⟨⟨0x1000#64⟩, by decide, by decide⟩

/-- **C50** (a). From container to field and back, for every address and every offset an object can have. -/
theorem container_of_field (offset p : BitVec w) (h : offset.toInt ≠ -2 ^ (w - 1)) :
    container_of_ptr offset (field_of_ptr offset p) = some p := by
  rw [container_of_ptr, if_neg h, field_of_ptr]
  simp only [wrapping_byte_offset, BitVec.ofInt_toInt, BitVec.ofInt_neg]
  rw [BitVec.add_assoc, BitVec.add_neg_eq_sub, BitVec.sub_self, BitVec.add_zero]

/-- **C50** (b). From field to container and back. -/
theorem field_of_container (offset p c : BitVec w) (h : container_of_ptr offset p = some c) :
    field_of_ptr offset c = p := by
  rw [container_of_ptr] at h
  split at h
  · cases h
  · have h := Option.some.inj h
    subst h
    simp only [field_of_ptr, wrapping_byte_offset, BitVec.ofInt_toInt, BitVec.ofInt_neg]
    rw [BitVec.add_assoc, BitVec.add_comm (-offset), BitVec.add_neg_eq_sub, BitVec.sub_self,
      BitVec.add_zero]

/-- **C50** (c). The field address is the container address plus the offset (no wrap for a field that
lies inside the address space). -/
theorem field_of_address (offset p : BitVec w) (h : p.toNat + offset.toNat < 2 ^ w) :
    (field_of_ptr offset p).toNat = p.toNat + offset.toNat := by
  rw [field_of_ptr, wrapping_byte_offset, BitVec.ofInt_toInt, BitVec.toNat_add, Nat.mod_eq_of_lt h]

example : container_of_ptr (8#64) (field_of_ptr 8#64 0xfffffffffffffffc#64) = some 0xfffffffffffffffc#64 := by
  decide

end Verif.Ffi
