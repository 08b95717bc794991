import sys; sys.path.insert(0,'/verif/tools')
from pratt import *
from collections import Counter
done={}
for p in [65537,6700417,274177,67280421310721,59649589127497217,5704689200685129054721]: cert(p,done)
out='''import Mathlib.NumberTheory.LucasPrimality
import Mathlib.Tactic.NormNum.Prime
import Verif.Rng.LemmasXo
/-! # Primality of the factors of 2^256 - 1 (Pratt certificates evaluated by the kernel) -/
namespace Verif.Rng

/-- `b · a^e mod m`, for evaluation by the kernel (`n` bounds the number of bits of `e`). -/
def powmod (m : Nat) : (n a e b : Nat) → Nat
  | 0, _, _, b => b
  | n + 1, a, e, b =>
    force (if e % 2 = 1 then b * a % m else b) fun b =>
    force (a * a % m) fun a =>
    force (e / 2) fun e => powmod m n a e b

theorem powmod_zmod (m n a e b : Nat) (he : e < 2 ^ n) :
    ((powmod m n a e b : Nat) : ZMod m) = (b : ZMod m) * (a : ZMod m) ^ e := by
  induction n generalizing a e b with
  | zero =>
    have : e = 0 := by simpa using he
    subst this; simp [powmod]
  | succ n ih =>
    rw [powmod, force_eq, force_eq, force_eq, ih _ _ _ (by rw [pow_succ] at he; omega)]
    have h2 : ((a * a % m : Nat) : ZMod m) ^ (e / 2) = (a : ZMod m) ^ (2 * (e / 2)) := by
      rw [ZMod.natCast_mod, Nat.cast_mul, ← pow_two, ← pow_mul]
    rw [h2]
    by_cases h : e % 2 = 1
    · rw [if_pos h, ZMod.natCast_mod, Nat.cast_mul, mul_assoc, ← pow_succ']
      congr 2; omega
    · rw [if_neg h]
      congr 2; omega

theorem powmod_lt (m n a e b : Nat) (hm : 0 < m) (hb : b < m) : powmod m n a e b < m := by
  induction n generalizing a e b with
  | zero => exact hb
  | succ n ih =>
    rw [powmod, force_eq, force_eq, force_eq]
    apply ih
    split
    · exact Nat.mod_lt _ hm
    · exact hb

/-- The Lucas test as a computation. -/
def lucasCheck (p a : Nat) (qs : List Nat) : Bool :=
  powmod p 80 a (p - 1) 1 == 1 && qs.all fun q => powmod p 80 a ((p - 1) / q) 1 != 1

theorem lucas_of_check (p a : Nat) (qs : List Nat) (hp : 1 < p) (hlt : p < 2 ^ 80)
    (hq : ∀ q : Nat, q.Prime → q ∣ p - 1 → q ∈ qs) (h : lucasCheck p a qs = true) : p.Prime := by
  simp only [lucasCheck, Bool.and_eq_true, beq_iff_eq, List.all_eq_true, bne_iff_ne] at h
  obtain ⟨h1, h2⟩ := h
  have hone : ((1 : Nat) : ZMod p) = 1 := Nat.cast_one
  apply lucas_primality p (a : ZMod p)
  · have := powmod_zmod p 80 a (p - 1) 1 (by omega)
    rw [h1, hone, one_mul] at this
    exact this.symm
  · intro q hqp hqd heq
    have hne := h2 q (hq q hqp hqd)
    have hl := powmod_zmod p 80 a ((p - 1) / q) 1 (lt_of_le_of_lt (Nat.div_le_self _ _) (by omega))
    rw [hone, one_mul, heq, ← hone, ZMod.natCast_eq_natCast_iff] at hl
    have hlt1 := powmod_lt p 80 a ((p - 1) / q) 1 (by omega) hp
    rw [Nat.ModEq, Nat.mod_eq_of_lt hlt1, Nat.mod_eq_of_lt hp] at hl
    exact hne hl

/-- Every prime factor of a product of powers of primes is one of them. -/
theorem mem_of_prime_dvd (q : Nat) (hq : q.Prime) (fs : List (Nat × Nat))
    (hp : ∀ f ∈ fs, f.1.Prime) (h : q ∣ (fs.map fun f => f.1 ^ f.2).prod) : q ∈ fs.map (·.1) := by
  induction fs with
  | nil => simp at h; exact absurd h hq.one_lt.ne'
  | cons f fs ih =>
    simp only [List.map_cons, List.prod_cons] at h
    simp only [List.map_cons, List.mem_cons]
    rcases (hq.dvd_mul).mp h with h | h
    · exact Or.inl ((Nat.prime_dvd_prime_iff_eq hq (hp f (by simp))).mp (hq.dvd_of_dvd_pow h))
    · exact Or.inr (ih (fun f hf => hp f (by simp [hf])) h)

theorem pratt (p a : Nat) (fs : List (Nat × Nat)) (hp : 1 < p) (hlt : p < 2 ^ 80)
    (hprod : (fs.map fun f => f.1 ^ f.2).prod = p - 1) (hf : ∀ f ∈ fs, f.1.Prime)
    (h : lucasCheck p a (fs.map (·.1)) = true) : p.Prime :=
  lucas_of_check p a _ hp hlt (fun q hq hd => mem_of_prime_dvd q hq fs hf (hprod ▸ hd)) h

'''
for p in sorted(done):
    if done[p] is None:
        out+=f"theorem prime_{p} : Nat.Prime {p} := by norm_num\n"
    else:
        a,f=done[p]; c=sorted(Counter(f).items())
        fs="["+", ".join(f"({q}, {e})" for q,e in c)+"]"
        prs=", ".join(f"prime_{q}" for q,e in c)
        out+=f'''theorem prime_{p} : Nat.Prime {p} := by
  apply pratt {p} {a} {fs}
    (by decide +kernel) (by decide +kernel) (by decide +kernel)
  · simp [{prs}]
  · decide +kernel
'''
out+="\nend Verif.Rng\n"
open('/verif/lean/Verif/Rng/LemmasPrime.lean','w').write(out)
