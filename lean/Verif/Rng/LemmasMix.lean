import Verif.Rng.Model
/-! # Lemmas about the mixing functions -/
namespace Verif.Rng

theorem xorshift_cancel (y x : U64) (k : Nat) (hk : 0 < k)
    (h : x ^^^ (x >>> k) = y ^^^ (y >>> k)) : x = y := by
  have hd : (x ^^^ y) = (x ^^^ y) >>> k := by
    rw [BitVec.ushiftRight_xor_distrib]
    have h1 : (x ^^^ (x >>> k)) ^^^ (y ^^^ (y >>> k)) = 0#64 := by rw [h, BitVec.xor_self]
    have h2 : (x ^^^ y) ^^^ (x >>> k ^^^ y >>> k) = 0#64 := by rw [← h1]; ac_rfl
    exact BitVec.xor_eq_zero_iff.mp h2
  have h0 : (x ^^^ y).toNat = (x ^^^ y).toNat / 2 ^ k := by
    conv => lhs; rw [hd]
    rw [BitVec.toNat_ushiftRight, Nat.shiftRight_eq_div_pow]
  have hz : (x ^^^ y).toNat = 0 := by
    rcases Nat.eq_zero_or_pos (x ^^^ y).toNat with h1 | h1
    · exact h1
    · have := Nat.div_lt_self h1 (Nat.one_lt_two_pow (by omega : k ≠ 0))
      omega
  exact BitVec.xor_eq_zero_iff.mp (BitVec.eq_of_toNat_eq (by simpa using hz))

theorem mul_cancel (c inv x y : U64) (hc : c * inv = 1#64) (h : x * c = y * c) : x = y := by
  have := congrArg (· * inv) h
  simpa [BitVec.mul_assoc, hc] using this

/-- Inverse of `x ^ (x >> k)` for `3 * k ≥ 64`. -/
def unxorshift (k : Nat) (y : U64) : U64 := y ^^^ (y >>> k) ^^^ (y >>> (2 * k))

theorem unxorshift_right (k : Nat) (hk : 64 ≤ 3 * k) (y : U64) :
    unxorshift k y ^^^ (unxorshift k y >>> k) = y := by
  have h3 : y >>> (3 * k) = 0#64 := by
    apply BitVec.eq_of_toNat_eq
    rw [BitVec.toNat_ushiftRight, Nat.shiftRight_eq_div_pow]
    have := y.isLt
    rw [Nat.div_eq_of_lt]; rfl
    exact Nat.lt_of_lt_of_le this (Nat.pow_le_pow_right (by decide) hk)
  have e1 : y >>> k >>> k = y >>> (2 * k) := by rw [← BitVec.shiftRight_add]; congr 1; omega
  have e2 : y >>> (2 * k) >>> k = y >>> (3 * k) := by rw [← BitVec.shiftRight_add]; congr 1; omega
  simp only [unxorshift, BitVec.ushiftRight_xor_distrib, e1, e2, h3, BitVec.xor_zero]
  have : y ^^^ y >>> k ^^^ y >>> (2 * k) ^^^ (y >>> k ^^^ y >>> (2 * k))
      = y ^^^ ((y >>> k ^^^ y >>> k) ^^^ (y >>> (2 * k) ^^^ y >>> (2 * k))) := by ac_rfl
  rw [this]; simp

/-- The inverse of `mix64`. -/
def unmix64 (v : U64) : U64 :=
  unxorshift 30 (unxorshift 27 (unxorshift 31 v * 0x319642b2d24d8ec3#64) * 0x96de1b173f119089#64)

theorem mix64_unmix64 (v : U64) : mix64 (unmix64 v) = v := by
  have i1 : 0x96de1b173f119089#64 * 0xbf58476d1ce4e5b9#64 = 1#64 := by decide
  have i2 : 0x319642b2d24d8ec3#64 * 0x94d049bb133111eb#64 = 1#64 := by decide
  simp only [mix64, unmix64]
  rw [unxorshift_right 30 (by decide), BitVec.mul_assoc, i1, BitVec.mul_one,
    unxorshift_right 27 (by decide), BitVec.mul_assoc, i2, BitVec.mul_one,
    unxorshift_right 31 (by decide)]

theorem mix64_inj {x y : U64} (h : mix64 x = mix64 y) : x = y := by
  simp only [mix64] at h
  have h := xorshift_cancel _ _ 31 (by decide) h
  have h := mul_cancel _ 0x319642b2d24d8ec3#64 _ _ (by decide) h
  have h := xorshift_cancel _ _ 27 (by decide) h
  have h := mul_cancel _ 0x96de1b173f119089#64 _ _ (by decide) h
  exact xorshift_cancel _ _ 30 (by decide) h

/-! ## Gamma -/

theorem length_filter_not {α : Type _} (l : List α) (p : α → Bool) :
    l.length = (l.filter p).length + (l.filter fun a => !p a).length := by
  induction l with
  | nil => rfl
  | cons a l ih => cases h : p a <;> simp [h] <;> omega

theorem count_ones_compl (v : U64) : count_ones (~~~v) = 64 - count_ones v := by
  have h := length_filter_not (List.range 64) (fun i => v.getLsbD i)
  simp only [count_ones]
  have : (List.range 64).filter (fun i => (~~~v).getLsbD i)
      = (List.range 64).filter (fun i => !v.getLsbD i) := by
    apply List.filter_congr
    intro i hi
    rw [BitVec.getLsbD_not]
    simp [List.mem_range.mp hi]
  rw [this]
  simp only [List.length_range] at h
  omega

theorem flip_transitions (v : U64) :
    (v ^^^ 0xaaaaaaaaaaaaaaaa#64) ^^^ ((v ^^^ 0xaaaaaaaaaaaaaaaa#64) >>> 1) = ~~~(v ^^^ (v >>> 1)) := by
  rw [BitVec.ushiftRight_xor_distrib]
  have h1 : 0xaaaaaaaaaaaaaaaa#64 ^^^ (0xaaaaaaaaaaaaaaaa#64 >>> 1) = BitVec.allOnes 64 := by decide
  have : v ^^^ 0xaaaaaaaaaaaaaaaa#64 ^^^ (v >>> 1 ^^^ 0xaaaaaaaaaaaaaaaa#64 >>> 1)
      = (v ^^^ v >>> 1) ^^^ (0xaaaaaaaaaaaaaaaa#64 ^^^ (0xaaaaaaaaaaaaaaaa#64 >>> 1)) := by ac_rfl
  rw [this, h1, BitVec.xor_allOnes]

theorem mixg_transitions (v : U64) : 24 ≤ count_ones (mixg v ^^^ (mixg v >>> 1)) := by
  simp only [mixg]
  split
  · rename_i h
    rw [flip_transitions, count_ones_compl]
    omega
  · rename_i h; omega

theorem mixg_bit0 (v : U64) : (mixg v).getLsbD 0 = true := by
  simp only [mixg]
  split <;> simp

theorem odd_of_bit0 (v : U64) (h : v.getLsbD 0 = true) : v.toNat % 2 = 1 := by
  simp only [BitVec.getLsbD, Nat.testBit_zero, decide_eq_true_eq] at h
  exact h

/-! ## Arithmetic sequences with odd step -/

theorem odd_coprime (g : Nat) (h : g % 2 = 1) : Nat.Coprime (2 ^ 64) g := by
  apply Nat.Coprime.pow_left
  rw [Nat.Coprime, Nat.gcd_rec, h]
  rfl

/-- Multiples of an odd number modulo `2^64` repeat exactly with period `2^64`. -/
theorem arith_eq_iff (s g : U64) (h : g.toNat % 2 = 1) (n m : Nat) :
    s + BitVec.ofNat 64 n * g = s + BitVec.ofNat 64 m * g ↔ n % 2 ^ 64 = m % 2 ^ 64 := by
  constructor
  · intro he
    have he : BitVec.ofNat 64 n * g = BitVec.ofNat 64 m * g := BitVec.add_right_inj s |>.mp he
    have h2 := congrArg BitVec.toNat he
    simp only [BitVec.toNat_mul, BitVec.toNat_ofNat] at h2
    rw [Nat.mod_mul_mod, Nat.mod_mul_mod] at h2
    -- wlog by ordering
    have key : ∀ a b : Nat, a ≤ b → (a * g.toNat) % 2 ^ 64 = (b * g.toNat) % 2 ^ 64 →
        a % 2 ^ 64 = b % 2 ^ 64 := by
      intro a b hab hm
      have hd : 2 ^ 64 ∣ (b * g.toNat - a * g.toNat) := by
        have := Nat.sub_mod_eq_zero_of_mod_eq hm.symm
        exact Nat.dvd_of_mod_eq_zero this
      rw [← Nat.sub_mul] at hd
      have hd2 : 2 ^ 64 ∣ (b - a) := (odd_coprime _ h).dvd_of_dvd_mul_right hd
      obtain ⟨c, hc⟩ := hd2
      omega
    rcases Nat.le_total n m with hnm | hnm
    · exact key n m hnm h2
    · exact (key m n hnm h2.symm).symm
  · intro he
    have : BitVec.ofNat 64 n = BitVec.ofNat 64 m := by
      apply BitVec.eq_of_toNat_eq; simpa using he
    rw [this]

end Verif.Rng
