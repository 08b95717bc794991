import Verif.Rng.LemmasPow
import Verif.Rng.LemmasPrime
import Mathlib.Data.Fintype.EquivFin
/-! # The period of `step` -/
namespace Verif.Rng

/-- `x^e · acc` from the table of squares. -/
def powTab : List Nat → Nat → Nat → Nat
  | [], _, acc => acc
  | t :: l, e, acc => force (if e % 2 = 1 then mulmod acc t else acc) (powTab l (e / 2))

theorem powTab_isPow (l : List Nat) (i e acc n : Nat) (hacc : IsPow acc n)
    (hl : ∀ j (hj : j < l.length), IsPow l[j] (2 ^ (i + j))) :
    IsPow (powTab l e acc) (n + 2 ^ i * (e % 2 ^ l.length)) := by
  induction l generalizing i e acc n with
  | nil => simpa [powTab, Nat.mod_one] using hacc
  | cons t l ih =>
    rw [powTab, force_eq]
    have ht := hl 0 (by simp)
    simp only [List.getElem_cons_zero, Nat.add_zero] at ht
    have hl' : ∀ j (hj : j < l.length), IsPow l[j] (2 ^ (i + 1 + j)) := by
      intro j hj
      have := hl (j + 1) (by simpa using hj)
      simpa [Nat.add_assoc, Nat.add_comm 1 j] using this
    have hm : e % 2 ^ (l.length + 1) = e % 2 + 2 * (e / 2 % 2 ^ l.length) := by
      rw [Nat.pow_succ, Nat.mul_comm, Nat.mod_mul]
    have hd : ∀ b, n + 2 ^ i * (b + 2 * (e / 2 % 2 ^ l.length))
        = n + 2 ^ i * b + 2 ^ (i + 1) * (e / 2 % 2 ^ l.length) := by
      intro b
      rw [Nat.mul_add, Nat.pow_succ, ← Nat.mul_assoc, Nat.add_assoc]
    rw [List.length_cons, hm, hd]
    by_cases h : e % 2 = 1
    · rw [if_pos h, h, Nat.mul_one]
      exact ih (i + 1) (e / 2) _ _ (hacc.mul ht) hl'
    · have h0 : e % 2 = 0 := by omega
      rw [if_neg h, h0, Nat.mul_zero, Nat.add_zero]
      exact ih (i + 1) (e / 2) _ _ hacc hl'

/-- The number of non-zero states. -/
def N : Nat := 2 ^ 256 - 1

/-- A starting state. -/
def e0 : St := ⟨1, 0, 0, 0⟩

/-- `step^n e0 ≠ e0`, as a computation. -/
def movesCheck (n : Nat) : Bool := force (powTab sqTable n 1 ^^^ 1) fun p => !sumLoopN p 256 0 1 0 0 0 0 0 0 0

theorem moves_of_check (n : Nat) (hn : n < 2 ^ 257) (h : movesCheck n = true) : steps n e0 ≠ e0 := by
  rw [movesCheck, force_eq] at h
  have hp := powTab_isPow sqTable 0 n 1 0 isPow_zero (fun j hj => by
    rw [Nat.zero_add]; exact sqTable_isPow j hj)
  rw [sqTable_length, Nat.mod_eq_of_lt hn, Nat.zero_add, Nat.pow_zero, Nat.one_mul] at hp
  have hs := sumLoopN_act (powTab sqTable n 1 ^^^ 1) 256 e0
  have hs' : sumLoopN (powTab sqTable n 1 ^^^ 1) 256 0 1 0 0 0 0 0 0 0
      = decide (act (powTab sqTable n 1 ^^^ 1) 256 e0 = .zero) := hs
  rw [hs', act_pxor, act_one, hp.2] at h
  simp only [Bool.not_eq_true', decide_eq_false_iff_not] at h
  intro heq
  rw [heq] at h
  exact h (St.xor_self _)

def primes : List Nat :=
  [3, 5, 17, 257, 641, 65537, 274177, 6700417, 67280421310721, 59649589127497217, 5704689200685129054721]

theorem N_factors : (primes.map fun q => q).prod = N := by decide +kernel

theorem moves_check : primes.all (fun q => movesCheck (N / q)) = true := by decide +kernel

theorem primes_prime : ∀ q ∈ primes, q.Prime := by
  simp [primes, prime_3, prime_5, prime_17, prime_65537, prime_274177, prime_6700417,
    prime_67280421310721, prime_59649589127497217, prime_5704689200685129054721]
  norm_num

theorem mem_primes {q : Nat} (hq : q.Prime) (hd : q ∣ N) : q ∈ primes := by
  have := mem_of_prime_dvd q hq (primes.map fun p => (p, 1)) (by
    intro f hf
    obtain ⟨p, hp, rfl⟩ := List.mem_map.mp hf
    exact primes_prime p hp) (by
    rw [List.map_map]
    have e : ((fun f : Nat × Nat => f.1 ^ f.2) ∘ fun p => (p, 1)) = fun p => p := by
      funext p; simp
    rw [e, N_factors]; exact hd)
  rw [List.map_map] at this
  obtain ⟨p, hp, rfl⟩ := List.mem_map.mp this
  exact hp

theorem sqTable_last : sqTable[256]? = some 2 := by decide +kernel

theorem steps_N (s : St) : steps N s = s := by
  have hi : 256 < sqTable.length := by rw [sqTable_length]; decide
  have h := (sqTable_isPow 256 hi).2 s
  have hv : sqTable[256] = 2 := by
    have := sqTable_last
    rw [List.getElem?_eq_getElem hi] at this
    exact Option.some.inj this
  rw [hv, act_x] at h
  have e : (2 : Nat) ^ 256 = N + 1 := by decide +kernel
  rw [e, steps_succ, steps_step] at h
  exact (step_inj h).symm

theorem N_pos : 0 < N := by decide +kernel
theorem N_lt : N < 2 ^ 257 := by decide +kernel

attribute [irreducible] N

theorem steps_mul (n k : Nat) (s : St) (h : steps n s = s) : steps (n * k) s = s := by
  induction k with
  | zero => rfl
  | succ k ih => rw [Nat.mul_succ, steps_add, h, ih]

/-- The return times of any state are the multiples of the least one. -/
theorem returns_dvd (s : St) (d : Nat) (hd : 0 < d) (hs : steps d s = s)
    (hmin : ∀ m, 0 < m → m < d → steps m s ≠ s) (n : Nat) : steps n s = s ↔ d ∣ n := by
  constructor
  · intro h
    have hm : steps (n % d) s = s := by
      have e := Nat.mod_add_div n d
      rw [← e, steps_add, steps_mul d _ s hs] at h
      exact h
    by_contra hnd
    exact hmin (n % d) (Nat.pos_of_ne_zero (fun h0 => hnd (Nat.dvd_of_mod_eq_zero h0))) (Nat.mod_lt _ hd) hm
  · rintro ⟨k, rfl⟩
    exact steps_mul d k s hs

theorem e0_period (n : Nat) : steps n e0 = e0 ↔ N ∣ n := by
  classical
  have hex : ∃ d, 0 < d ∧ steps d e0 = e0 := ⟨N, N_pos, steps_N e0⟩
  let d := Nat.find hex
  obtain ⟨hd, hs⟩ := Nat.find_spec hex
  have hmin : ∀ m, 0 < m → m < d → steps m e0 ≠ e0 := fun m h0 hm h => Nat.find_min hex hm ⟨h0, h⟩
  have hret := returns_dvd e0 d hd hs hmin
  obtain ⟨c, hc⟩ := (hret N).mp (steps_N e0)
  have hc1 : c = 1 := by
    by_contra hne
    obtain ⟨q, hq, hqc⟩ := Nat.exists_prime_and_dvd hne
    obtain ⟨r, hr⟩ := hqc
    have hqN : q ∣ N := by rw [hc, hr]; exact ⟨d * r, by ring⟩
    have hmem := mem_primes hq hqN
    have hchk := List.all_eq_true.mp moves_check q hmem
    apply moves_of_check (N / q) (lt_of_le_of_lt (Nat.div_le_self _ _) N_lt) hchk
    rw [hret]
    have : N / q = d * r := by
      rw [hc, hr, show d * (q * r) = q * (d * r) by ring, Nat.mul_div_cancel_left _ hq.pos]
    exact ⟨r, this⟩
  rw [hret, hc, hc1, Nat.mul_one]

/-- A state as a number. -/
def packN (s : St) : Nat := tableNat s.s0 s.s1 s.s2 s.s3

theorem packN_inj {s t : St} (h : packN s = packN t) : s = t := by
  obtain ⟨a, b, c, d⟩ := s
  obtain ⟨a', b', c', d'⟩ := t
  simp only [packN, tableNat] at h
  have h1 := a.isLt; have h2 := a'.isLt; have h3 := b.isLt; have h4 := b'.isLt
  have h5 := c.isLt; have h6 := c'.isLt; have h7 := d.isLt; have h8 := d'.isLt
  have e1 : a.toNat = a'.toNat := by omega
  have e2 : b.toNat = b'.toNat := by omega
  have e3 : c.toNat = c'.toNat := by omega
  have e4 : d.toNat = d'.toNat := by omega
  rw [BitVec.eq_of_toNat_eq e1, BitVec.eq_of_toNat_eq e2, BitVec.eq_of_toNat_eq e3, BitVec.eq_of_toNat_eq e4]

theorem packN_le (s : St) : packN s ≤ N := by
  unfold N
  simp only [packN, tableNat]
  have h1 := s.s0.isLt; have h3 := s.s1.isLt
  have h5 := s.s2.isLt; have h7 := s.s3.isLt
  omega

theorem packN_pos {s : St} (h : s ≠ .zero) : 0 < packN s := by
  apply Nat.pos_of_ne_zero
  intro h0
  exact h (packN_inj (h0.trans (by decide +kernel : packN .zero = 0).symm))

theorem e0_ne : e0 ≠ .zero := by decide

theorem fin_pigeonhole (n : Nat) (f : Fin n → Fin n) (hinj : Function.Injective f) (y : Fin n) :
    ∃ x, f x = y := Finite.surjective_of_injective hinj y

/-- Every non-zero state lies on the orbit of `e0`. -/
theorem orbit (s : St) (h : s ≠ .zero) : ∃ k, k < N ∧ steps k e0 = s := by
  have hpos : ∀ k, 0 < packN (steps k e0) := fun k => packN_pos (steps_ne_zero k e0_ne)
  let f : Fin N → Fin N := fun k =>
    ⟨packN (steps k.val e0) - 1, by have := packN_le (steps k.val e0); have := hpos k.val; omega⟩
  have hord : ∀ i j : Nat, i < j → j < N → steps i e0 ≠ steps j e0 := by
    intro i j hij hj heq
    have e : j = i + (j - i) := by omega
    rw [e, steps_add] at heq
    have h1 := (e0_period (j - i)).mp (steps_inj heq).symm
    have := Nat.le_of_dvd (by omega) h1
    omega
  have hinj : Function.Injective f := by
    intro i j hij
    have h1 : packN (steps i.val e0) - 1 = packN (steps j.val e0) - 1 := congrArg Fin.val hij
    have h2 := hpos i.val; have h3 := hpos j.val
    have h4 : steps i.val e0 = steps j.val e0 := packN_inj (by omega)
    rcases Nat.lt_trichotomy i.val j.val with hl | hl | hl
    · exact absurd h4 (hord _ _ hl j.isLt)
    · exact Fin.ext hl
    · exact absurd h4.symm (hord _ _ hl i.isLt)
  have hp := packN_pos h
  have hle := packN_le s
  obtain ⟨k, hk⟩ := fin_pigeonhole N f hinj ⟨packN s - 1, by omega⟩
  refine ⟨k.val, k.isLt, ?_⟩
  have h1 : packN (steps k.val e0) - 1 = packN s - 1 := congrArg Fin.val hk
  have h2 := hpos k.val
  exact packN_inj (by omega)

theorem period (s : St) (h : s ≠ .zero) (n : Nat) : steps n s = s ↔ N ∣ n := by
  obtain ⟨k, _, rfl⟩ := orbit s h
  rw [← e0_period n, ← steps_add, Nat.add_comm, steps_add]
  constructor
  · exact fun h => steps_inj h
  · intro h; rw [h]

end Verif.Rng
