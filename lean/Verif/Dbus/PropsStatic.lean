import Verif.Dbus.LemmasStatic
import Verif.Dbus.PropsSig
/-! # Properties of signatures in buffers of a size chosen by the caller (C80) -/
namespace Verif.Dbus

/-- C80. Signature literals exist for exactly the signatures of a type, and are what `Sig::new` gives; others are rejected by
a panic of the compiler. -/
theorem literal_iff (bs : List UInt8) (h : bs.length ≤ maxLength) :
    (∀ s, Sig.literal bs = .ok s ↔ Sig.new bs = .ok s) ∧ ((¬ ∃ t : Ty, bs = t.bytes) → Sig.literal bs = .fault) := by
  have hs : sizeForLength bs.length = some (bs.length * (kindFor bs.length).coeff) := sizeFor_ok (maxLength_eq ▸ h)
  have e : Sig.literal bs = match Sig.new bs with
      | .err _ => .fault
      | r => r := by
    unfold Sig.literal Sig.make Sig.new
    rw [hs]
    rfl
  refine ⟨fun s => ?_, fun hn => ?_⟩
  · rw [e]
    rcases new_returns bs h with ⟨r, hr⟩ | ⟨r, hr⟩ <;> rw [hr]
    simp
  · rcases new_returns bs h with ⟨r, hr⟩ | ⟨r, hr⟩
    · exact absurd ((accepts_iff bs h).mp ⟨r, hr⟩) hn
    · rw [e, hr]

example : Sig.literal (sb "a{sv}") = Sig.new (sb "a{sv}") ∧ Sig.literal (sb "a{sv") = .fault := by decide

/-- C80. What happens with a buffer that is too small: valid signatures panic; for invalid ones the error is returned, or
there is a panic as well. -/
theorem static_small (bs : List UInt8) (h : bs.length ≤ maxLength) (size need : Nat)
    (hn : sizeForLength bs.length = some need) (hs : size < need) :
    ((∃ t : Ty, bs = t.bytes) → sigParse size bs = .fault)
    ∧ ∀ e, Sig.new bs = .err e → sigParse size bs = .fault ∨ sigParse size bs = .err e := by
  rw [maxLength_eq] at h
  rw [sizeFor_ok h, Option.some.injEq] at hn
  have hk := coeff_pos (kindFor bs.length)
  have hlt : (size - size % (kindFor bs.length).coeff) / (kindFor bs.length).coeff < bs.length := by
    rw [Nat.div_lt_iff_lt_mul hk]; omega
  have hx := parse_ext (x := List.replicate (bs.length - (size - size % (kindFor bs.length).coeff) / (kindFor bs.length).coeff) none)
    (kindFor bs.length) (List.replicate ((size - size % (kindFor bs.length).coeff) / (kindFor bs.length).coeff) none) bs
  rw [List.replicate_append_replicate, Nat.add_sub_cancel' (Nat.le_of_lt hlt), parse_ok _ bs (List.replicate bs.length none) (by simp),
    if_neg (Nat.not_lt.mpr (kindFor_le h)), List.drop_of_length_le (by simp)] at hx
  have hp : ∀ b, (kindFor bs.length).parse
      (List.replicate ((size - size % (kindFor bs.length).coeff) / (kindFor bs.length).coeff) none) bs ≠ .ok b := by
    intro b hb
    rw [hb] at hx
    cases ha : aloop bs.length bs 0 [] with
    | error e => rw [ha] at hx; cases hx
    | ok t =>
      rw [ha] at hx
      have hx' : Res.ok (bufT (kindFor bs.length) t 0 0 ++ []) = Res.ok (b ++ List.replicate
        (bs.length - (size - size % (kindFor bs.length).coeff) / (kindFor bs.length).coeff) none) := hx
      rw [Res.ok.injEq, List.append_nil, bufT_map] at hx'
      have hi : (none : Option Node) ∈ b ++ List.replicate
          (bs.length - (size - size % (kindFor bs.length).coeff) / (kindFor bs.length).coeff) none :=
        List.mem_append_right _ (List.mem_replicate.mpr ⟨by omega, rfl⟩)
      rw [← hx'] at hi
      simp at hi
  have hh : (kindFor bs.length).parse
      (List.replicate ((size - size % (kindFor bs.length).coeff) / (kindFor bs.length).coeff) none) bs ≠ .hang := by
    intro hb
    rw [hb] at hx
    cases ha : aloop bs.length bs 0 [] with
    | error e => rw [ha] at hx; cases hx
    | ok t => rw [ha] at hx; cases hx
  unfold sigParse
  simp only
  rw [new_eq bs h]
  generalize (kindFor bs.length).parse
      (List.replicate ((size - size % (kindFor bs.length).coeff) / (kindFor bs.length).coeff) none) bs = r at hx hp hh ⊢
  refine ⟨?_, fun e he => ?_⟩
  · rintro ⟨t, rfl⟩
    rw [aloop_complete] at hx
    cases r with
    | ok b => exact absurd rfl (hp b)
    | err e => cases hx
    | fault => rfl
    | hang => exact absurd rfl hh
  · cases r with
    | ok b => exact absurd rfl (hp b)
    | err e' =>
      right
      cases ha : aloop bs.length bs 0 [] with
      | error e'' =>
        rw [ha] at hx he
        cases he
        cases hx
        rfl
      | ok t => rw [ha] at hx; cases hx
    | fault => exact .inl rfl
    | hang => exact absurd rfl hh

example : sigParse 1 (sb "as") = .fault ∧ sigParse 1 (sb "aX") = .err (.elementUnknown 1 88)
    ∧ sigParse 1 (sb "aaX") = .fault ∧ Sig.new (sb "aaX") = .err (.elementUnknown 2 88) := by decide

/-- C80, disagreement. With a buffer that is larger than necessary and divides into nodes, parsing succeeds but leaves all
further nodes uninitialised, although it is documented to initialise all of the buffer; with other sizes it never
returns. -/
theorem static_large (t : Ty) (h : t.bytes.length ≤ maxLength) (size need : Nat)
    (hn : sizeForLength t.bytes.length = some need) (hs : need < size) :
    ((t.size ≤ 31 ∨ size % 6 = 0) → ∃ b, sigParse size t.bytes = .ok b ∧ t.size < b.length
        ∧ ∀ i, t.size ≤ i → i < b.length → b[i]? = some none)
    ∧ (¬ (t.size ≤ 31 ∨ size % 6 = 0) → sigParse size t.bytes = .hang) := by
  rw [maxLength_eq] at h
  rw [sizeFor_ok h, Option.some.injEq] at hn
  have hk := coeff_pos (kindFor t.bytes.length)
  have hl : t.bytes.length = t.size := bytes_length t
  have hm : (t.size ≤ 31 ∨ size % 6 = 0) ↔ size % (kindFor t.bytes.length).coeff = 0 := by
    unfold kindFor
    rw [show Kind.node8.lengthMax = 31 by decide, hl]
    by_cases h8 : t.size ≤ 31
    · rw [if_pos h8]; exact ⟨fun _ => Nat.mod_one _, fun _ => .inl h8⟩
    · rw [if_neg h8]; exact ⟨fun h => h.resolve_left h8, .inr⟩
  have hge : t.bytes.length ≤ (size - size % (kindFor t.bytes.length).coeff) / (kindFor t.bytes.length).coeff := by
    rw [Nat.le_div_iff_mul_le hk]
    have := Nat.div_add_mod size (kindFor t.bytes.length).coeff
    have h1 : t.bytes.length ≤ size / (kindFor t.bytes.length).coeff := by
      rw [Nat.le_div_iff_mul_le hk]; omega
    have h2 := Nat.mul_le_mul_left (kindFor t.bytes.length).coeff h1
    rw [Nat.mul_comm] at h2
    omega
  have hp : (kindFor t.bytes.length).parse
      (List.replicate ((size - size % (kindFor t.bytes.length).coeff) / (kindFor t.bytes.length).coeff) none) t.bytes
      = .ok (bufT (kindFor t.bytes.length) t 0 0 ++ List.replicate
        ((size - size % (kindFor t.bytes.length).coeff) / (kindFor t.bytes.length).coeff - t.size) none) := by
    rw [parse_ok _ _ _ (by simpa using hge), if_neg (Nat.not_lt.mpr (kindFor_le h)), aloop_complete, toRes,
      List.drop_replicate, hl]
  rw [hm]
  refine ⟨fun h0 => ?_, fun h0 => ?_⟩
  · refine ⟨bufT (kindFor t.bytes.length) t 0 0 ++ List.replicate
      ((size - size % (kindFor t.bytes.length).coeff) / (kindFor t.bytes.length).coeff - t.size) none, ?_, ?_, ?_⟩
    · unfold sigParse
      simp only
      rw [hp, h0]
      rfl
    · rw [List.length_append, bufT_length, List.length_replicate]
      have : t.size < (size - size % (kindFor t.bytes.length).coeff) / (kindFor t.bytes.length).coeff := by
        rw [h0, Nat.sub_zero, Nat.lt_div_iff_mul_lt' ⟨size / (kindFor t.bytes.length).coeff, by
          have := Nat.div_add_mod size (kindFor t.bytes.length).coeff; omega⟩, Nat.mul_comm, ← hl]
        omega
      omega
    · intro i hi hlt
      rw [List.getElem?_append_right (by rw [bufT_length]; exact hi)]
      rw [List.length_append, bufT_length] at hlt
      rw [List.length_replicate] at hlt
      rw [bufT_length, List.getElem?_replicate, if_pos (by omega)]
  · unfold sigParse
    simp only
    rw [hp]
    simp only [Res.bind]
    rw [if_pos (Nat.pos_of_ne_zero h0)]

/-- C80, partial. `try_make` returns a signature exactly if the signature is valid and the buffer has precisely the size
that the API asks for; then it is the one of `Sig::new`. What it does otherwise is in `static_small` and `static_large`: a
larger buffer is used although it is not initialised, or the call does not return. -/
theorem try_make_partial (bs : List UInt8) (h : bs.length ≤ maxLength) (size need : Nat)
    (hn : sizeForLength bs.length = some need) (s : Sig) :
    Sig.tryMake size bs = .ok s ↔ size = need ∧ Sig.new bs = .ok s := by
  have hnew : Sig.tryMake need bs = Sig.new bs := by
    unfold Sig.tryMake Sig.new; rw [hn]; rfl
  constructor
  · intro ht
    rcases Nat.lt_trichotomy size need with hlt | rfl | hgt
    · obtain ⟨h1, h2⟩ := static_small bs h size need hn hlt
      unfold Sig.tryMake at ht
      rcases new_returns bs h with ⟨r, hr⟩ | ⟨e, he⟩
      · rw [h1 ((accepts_iff bs h).mp ⟨r, hr⟩)] at ht; cases ht
      · rcases h2 e he with h2 | h2 <;> (rw [h2] at ht; cases ht)
    · exact ⟨rfl, hnew ▸ ht⟩
    · exfalso
      by_cases hv : ∃ t : Ty, bs = t.bytes
      · obtain ⟨t, rfl⟩ := hv
        obtain ⟨h1, h2⟩ := static_large t h size need hn hgt
        unfold Sig.tryMake at ht
        by_cases hm : t.size ≤ 31 ∨ size % 6 = 0
        · obtain ⟨b, hb, hl, hu⟩ := h1 hm
          rw [hb] at ht
          have : b.assumeInit = none := by
            have hmem : none ∈ b := List.mem_of_getElem? (hu t.size (Nat.le_refl _) hl)
            clear hb hl hu ht h1 h2
            induction b with
            | nil => cases hmem
            | cons a b ih =>
              cases a with
              | none => rfl
              | some a =>
                have := ih (by simpa using hmem)
                simp [Buf.assumeInit, this]
          simp only [Res.bind, this, Res.ofOption] at ht
          cases ht
        · rw [h2 hm] at ht; cases ht
      · -- more room does not help
        have he : ∃ e, Sig.new bs = .err e :=
          (new_returns bs h).resolve_left fun hr => hv ((accepts_iff bs h).mp hr)
        obtain ⟨e, he⟩ := he
        rw [maxLength_eq] at h
        rw [sizeFor_ok h, Option.some.injEq] at hn
        have hk := coeff_pos (kindFor bs.length)
        have hge : bs.length ≤ (size - size % (kindFor bs.length).coeff) / (kindFor bs.length).coeff := by
          rw [Nat.le_div_iff_mul_le hk]
          have := Nat.div_add_mod size (kindFor bs.length).coeff
          have h1 : bs.length ≤ size / (kindFor bs.length).coeff := by
            rw [Nat.le_div_iff_mul_le hk]; omega
          have h2 := Nat.mul_le_mul_left (kindFor bs.length).coeff h1
          rw [Nat.mul_comm] at h2
          omega
        unfold Sig.tryMake sigParse at ht
        simp only at ht
        rw [parse_ok _ _ _ (by simpa using hge), if_neg (Nat.not_lt.mpr (kindFor_le h))] at ht
        rw [new_eq bs h] at he
        cases ha : aloop bs.length bs 0 [] with
        | error e' => rw [ha] at ht; cases ht
        | ok t => rw [ha] at he; cases he
  · rintro ⟨rfl, hr⟩
    rw [hnew, hr]

-- A buffer of two words for a signature of one code: the second word is never written.
example : ∃ b, sigParse 2 (sb "s") = .ok b ∧ b[1]? = some none := ⟨_, rfl, by decide⟩
example : Sig.tryMake 1 (sb "s") = Sig.new (sb "s") ∧ Sig.tryMake 2 (sb "s") = .fault ∧ Sig.tryMake 0 (sb "s") = .fault := by decide

end Verif.Dbus
