import Mathlib.NumberTheory.LucasPrimality
import Mathlib.Tactic.NormNum.Prime
import Verif.Rng.LemmasXo
/-! # Primality of the factors of 2^256 - 1 (Pratt certificates evaluated by the kernel) -/
namespace Verif.Rng

/-- `b · a^e mod m`, for evaluation by the kernel (`n` bounds the number of bits of `e`). -/
def powmod (m : Nat) : (n a e b : Nat) → Nat
  | 0, _, _, b => b
  | n + 1, a, e, b =>
    force (if e % 2 = 1 then b * a % m else b) fun b =>
    force (a * a % m) fun a =>
    force (e / 2) fun e => powmod m n a e b

theorem powmod_zmod (m n a e b : Nat) (he : e < 2 ^ n) :
    ((powmod m n a e b : Nat) : ZMod m) = (b : ZMod m) * (a : ZMod m) ^ e := by
  induction n generalizing a e b with
  | zero =>
    have : e = 0 := by simpa using he
    subst this; simp [powmod]
  | succ n ih =>
    rw [powmod, force_eq, force_eq, force_eq, ih _ _ _ (by rw [pow_succ] at he; omega)]
    have h2 : ((a * a % m : Nat) : ZMod m) ^ (e / 2) = (a : ZMod m) ^ (2 * (e / 2)) := by
      rw [ZMod.natCast_mod, Nat.cast_mul, ← pow_two, ← pow_mul]
    rw [h2]
    by_cases h : e % 2 = 1
    · rw [if_pos h, ZMod.natCast_mod, Nat.cast_mul, mul_assoc, ← pow_succ']
      congr 2; omega
    · rw [if_neg h]
      congr 2; omega

theorem powmod_lt (m n a e b : Nat) (hm : 0 < m) (hb : b < m) : powmod m n a e b < m := by
  induction n generalizing a e b with
  | zero => exact hb
  | succ n ih =>
    rw [powmod, force_eq, force_eq, force_eq]
    apply ih
    split
    · exact Nat.mod_lt _ hm
    · exact hb

/-- The Lucas test as a computation. -/
def lucasCheck (p a : Nat) (qs : List Nat) : Bool :=
  powmod p 80 a (p - 1) 1 == 1 && qs.all fun q => powmod p 80 a ((p - 1) / q) 1 != 1

theorem lucas_of_check (p a : Nat) (qs : List Nat) (hp : 1 < p) (hlt : p < 2 ^ 80)
    (hq : ∀ q : Nat, q.Prime → q ∣ p - 1 → q ∈ qs) (h : lucasCheck p a qs = true) : p.Prime := by
  simp only [lucasCheck, Bool.and_eq_true, beq_iff_eq, List.all_eq_true, bne_iff_ne] at h
  obtain ⟨h1, h2⟩ := h
  have hone : ((1 : Nat) : ZMod p) = 1 := Nat.cast_one
  apply lucas_primality p (a : ZMod p)
  · have := powmod_zmod p 80 a (p - 1) 1 (by omega)
    rw [h1, hone, one_mul] at this
    exact this.symm
  · intro q hqp hqd heq
    have hne := h2 q (hq q hqp hqd)
    have hl := powmod_zmod p 80 a ((p - 1) / q) 1 (lt_of_le_of_lt (Nat.div_le_self _ _) (by omega))
    rw [hone, one_mul, heq, ← hone, ZMod.natCast_eq_natCast_iff] at hl
    have hlt1 := powmod_lt p 80 a ((p - 1) / q) 1 (by omega) hp
    rw [Nat.ModEq, Nat.mod_eq_of_lt hlt1, Nat.mod_eq_of_lt hp] at hl
    exact hne hl

/-- Every prime factor of a product of powers of primes is one of them. -/
theorem mem_of_prime_dvd (q : Nat) (hq : q.Prime) (fs : List (Nat × Nat))
    (hp : ∀ f ∈ fs, f.1.Prime) (h : q ∣ (fs.map fun f => f.1 ^ f.2).prod) : q ∈ fs.map (·.1) := by
  induction fs with
  | nil => simp at h; exact absurd h hq.one_lt.ne'
  | cons f fs ih =>
    simp only [List.map_cons, List.prod_cons] at h
    simp only [List.map_cons, List.mem_cons]
    rcases (hq.dvd_mul).mp h with h | h
    · exact Or.inl ((Nat.prime_dvd_prime_iff_eq hq (hp f (by simp))).mp (hq.dvd_of_dvd_pow h))
    · exact Or.inr (ih (fun f hf => hp f (by simp [hf])) h)

theorem pratt (p a : Nat) (fs : List (Nat × Nat)) (hp : 1 < p) (hlt : p < 2 ^ 80)
    (hprod : (fs.map fun f => f.1 ^ f.2).prod = p - 1) (hf : ∀ f ∈ fs, f.1.Prime)
    (h : lucasCheck p a (fs.map (·.1)) = true) : p.Prime :=
  lucas_of_check p a _ hp hlt (fun q hq hd => mem_of_prime_dvd q hq fs hf (hprod ▸ hd)) h

theorem prime_2 : Nat.Prime 2 := by norm_num
theorem prime_3 : Nat.Prime 3 := by norm_num
theorem prime_5 : Nat.Prime 5 := by norm_num
theorem prime_7 : Nat.Prime 7 := by norm_num
theorem prime_11 : Nat.Prime 11 := by norm_num
theorem prime_17 : Nat.Prime 17 := by norm_num
theorem prime_47 : Nat.Prime 47 := by norm_num
theorem prime_71 : Nat.Prime 71 := by norm_num
theorem prime_139 : Nat.Prime 139 := by norm_num
theorem prime_181 : Nat.Prime 181 := by norm_num
theorem prime_347 : Nat.Prime 347 := by norm_num
theorem prime_367 : Nat.Prime 367 := by norm_num
theorem prime_373 : Nat.Prime 373 := by norm_num
theorem prime_449 : Nat.Prime 449 := by norm_num
theorem prime_727 : Nat.Prime 727 := by norm_num
theorem prime_823 : Nat.Prime 823 := by norm_num
theorem prime_1783 : Nat.Prime 1783 := by
  apply pratt 1783 10 [(2, 1), (3, 4), (11, 1)]
    (by decide +kernel) (by decide +kernel) (by decide +kernel)
  · simp [prime_2, prime_3, prime_11]
  · decide +kernel
theorem prime_2203 : Nat.Prime 2203 := by
  apply pratt 2203 5 [(2, 1), (3, 1), (367, 1)]
    (by decide +kernel) (by decide +kernel) (by decide +kernel)
  · simp [prime_2, prime_3, prime_367]
  · decide +kernel
theorem prime_12497 : Nat.Prime 12497 := by
  apply pratt 12497 3 [(2, 4), (11, 1), (71, 1)]
    (by decide +kernel) (by decide +kernel) (by decide +kernel)
  · simp [prime_2, prime_11, prime_71]
  · decide +kernel
theorem prime_16657 : Nat.Prime 16657 := by
  apply pratt 16657 5 [(2, 4), (3, 1), (347, 1)]
    (by decide +kernel) (by decide +kernel) (by decide +kernel)
  · simp [prime_2, prime_3, prime_347]
  · decide +kernel
theorem prime_17449 : Nat.Prime 17449 := by
  apply pratt 17449 14 [(2, 3), (3, 1), (727, 1)]
    (by decide +kernel) (by decide +kernel) (by decide +kernel)
  · simp [prime_2, prime_3, prime_727]
  · decide +kernel
theorem prime_52673 : Nat.Prime 52673 := by
  apply pratt 52673 3 [(2, 6), (823, 1)]
    (by decide +kernel) (by decide +kernel) (by decide +kernel)
  · simp [prime_2, prime_823]
  · decide +kernel
theorem prime_65537 : Nat.Prime 65537 := by
  apply pratt 65537 3 [(2, 16)]
    (by decide +kernel) (by decide +kernel) (by decide +kernel)
  · simp [prime_2]
  · decide +kernel
theorem prime_166571 : Nat.Prime 166571 := by
  apply pratt 166571 2 [(2, 1), (5, 1), (16657, 1)]
    (by decide +kernel) (by decide +kernel) (by decide +kernel)
  · simp [prime_2, prime_5, prime_16657]
  · decide +kernel
theorem prime_274177 : Nat.Prime 274177 := by
  apply pratt 274177 5 [(2, 8), (3, 2), (7, 1), (17, 1)]
    (by decide +kernel) (by decide +kernel) (by decide +kernel)
  · simp [prime_2, prime_3, prime_7, prime_17]
  · decide +kernel
theorem prime_1896229 : Nat.Prime 1896229 := by
  apply pratt 1896229 2 [(2, 2), (3, 2), (52673, 1)]
    (by decide +kernel) (by decide +kernel) (by decide +kernel)
  · simp [prime_2, prime_3, prime_52673]
  · decide +kernel
theorem prime_2998279 : Nat.Prime 2998279 := by
  apply pratt 2998279 3 [(2, 1), (3, 2), (166571, 1)]
    (by decide +kernel) (by decide +kernel) (by decide +kernel)
  · simp [prime_2, prime_3, prime_166571]
  · decide +kernel
theorem prime_6700417 : Nat.Prime 6700417 := by
  apply pratt 6700417 5 [(2, 7), (3, 1), (17449, 1)]
    (by decide +kernel) (by decide +kernel) (by decide +kernel)
  · simp [prime_2, prime_3, prime_17449]
  · decide +kernel
theorem prime_6939437 : Nat.Prime 6939437 := by
  apply pratt 6939437 2 [(2, 2), (7, 1), (139, 1), (1783, 1)]
    (by decide +kernel) (by decide +kernel) (by decide +kernel)
  · simp [prime_2, prime_7, prime_139, prime_1783]
  · decide +kernel
theorem prime_55515497 : Nat.Prime 55515497 := by
  apply pratt 55515497 3 [(2, 3), (6939437, 1)]
    (by decide +kernel) (by decide +kernel) (by decide +kernel)
  · simp [prime_2, prime_6939437]
  · decide +kernel
theorem prime_18533742247 : Nat.Prime 18533742247 := by
  apply pratt 18533742247 6 [(2, 1), (3, 3), (181, 1), (1896229, 1)]
    (by decide +kernel) (by decide +kernel) (by decide +kernel)
  · simp [prime_2, prime_3, prime_181, prime_1896229]
  · decide +kernel
theorem prime_733803839347 : Nat.Prime 733803839347 := by
  apply pratt 733803839347 2 [(2, 1), (3, 1), (2203, 1), (55515497, 1)]
    (by decide +kernel) (by decide +kernel) (by decide +kernel)
  · simp [prime_2, prime_3, prime_2203, prime_55515497]
  · decide +kernel
theorem prime_67280421310721 : Nat.Prime 67280421310721 := by
  apply pratt 67280421310721 3 [(2, 8), (5, 1), (47, 1), (373, 1), (2998279, 1)]
    (by decide +kernel) (by decide +kernel) (by decide +kernel)
  · simp [prime_2, prime_5, prime_47, prime_373, prime_2998279]
  · decide +kernel
theorem prime_116503103764643 : Nat.Prime 116503103764643 := by
  apply pratt 116503103764643 2 [(2, 1), (7, 1), (449, 1), (18533742247, 1)]
    (by decide +kernel) (by decide +kernel) (by decide +kernel)
  · simp [prime_2, prime_7, prime_449, prime_18533742247]
  · decide +kernel
theorem prime_59649589127497217 : Nat.Prime 59649589127497217 := by
  apply pratt 59649589127497217 3 [(2, 9), (116503103764643, 1)]
    (by decide +kernel) (by decide +kernel) (by decide +kernel)
  · simp [prime_2, prime_116503103764643]
  · decide +kernel
theorem prime_5704689200685129054721 : Nat.Prime 5704689200685129054721 := by
  apply pratt 5704689200685129054721 21 [(2, 9), (3, 5), (5, 1), (12497, 1), (733803839347, 1)]
    (by decide +kernel) (by decide +kernel) (by decide +kernel)
  · simp [prime_2, prime_3, prime_5, prime_12497, prime_733803839347]
  · decide +kernel

end Verif.Rng
