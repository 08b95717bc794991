import Verif.Rng.SpecTell
import Mathlib.Data.Nat.Count
/-! # Helper lemmas: periods of sequences, and how often a value occurs in them -/
namespace Verif.Rng.Tell

theorem period_mul {α : Type} {f : Nat → α} {n : Nat} (h : ∀ i, f (i + n) = f i) (k i : Nat) : f (i + k * n) = f i := by
  induction k with
  | zero => simp
  | succ k ih => rw [Nat.succ_mul, ← Nat.add_assoc, h, ih]

/-- A sequence with two periods has their greatest common divisor as a period. -/
theorem period_gcd {α : Type} {f : Nat → α} (n N : Nat) : (∀ i, f (i + n) = f i) → (∀ i, f (i + N) = f i) → ∀ i, f (i + Nat.gcd n N) = f i := by
  induction n, N using Nat.gcd.induction with
  | H0 N => intro _ h i; rw [Nat.gcd_zero_left]; exact h i
  | H1 m n hm ih =>
    intro h1 h2 i
    rw [Nat.gcd_rec]
    refine ih ?_ h1 i
    intro i
    have e := period_mul h1 (n / m) (i + n % m)
    rw [Nat.add_assoc, Nat.mul_comm, Nat.mod_add_div, h2] at e
    exact e.symm

/-- In several periods a value occurs as often as in one, times their number. -/
theorem count_periods {α : Type} [DecidableEq α] {f : Nat → α} {g : Nat} (h : ∀ i, f (i + g) = f i) (v : α) (k : Nat) :
    Nat.count (fun i => f i = v) (k * g) = k * Nat.count (fun i => f i = v) g := by
  induction k with
  | zero => simp
  | succ k ih =>
    rw [Nat.succ_mul, Nat.count_add', Nat.succ_mul, ← ih]
    simp only [h]

/-- If one value occurs once more than another in a period, then no other period is shorter. -/
theorem period_least {α : Type} [DecidableEq α] {f : Nat → α} {N n : Nat} (hp : ∀ i, f (i + N) = f i) (hn : ∀ i, f (i + n) = f i) {v w : α}
    (hc : Nat.count (fun i => f i = v) N + 1 = Nat.count (fun i => f i = w) N) : N ∣ n := by
  have hg := period_gcd n N hn hp
  obtain ⟨k, hk⟩ := Nat.gcd_dvd_right n N
  rw [Nat.mul_comm] at hk
  rw [hk, count_periods hg, count_periods hg] at hc
  have h1 : k ∣ 1 := (Nat.dvd_add_right (Nat.dvd_mul_right k _)).mp (hc ▸ Nat.dvd_mul_right k _)
  rw [Nat.dvd_one] at h1
  rw [h1, Nat.one_mul] at hk
  rw [hk]
  exact Nat.gcd_dvd_left n N

theorem ncard_count (p : Nat → Prop) [DecidablePred p] (N : Nat) : {n : Nat | n < N ∧ p n}.ncard = Nat.count p N := by
  rw [Nat.count_eq_card_filter_range, ← Set.ncard_coe_finset]
  congr 1
  ext n
  simp

theorem afterCalls_add (a b : Nat) (s : St) : afterCalls (a + b) s = afterCalls a (afterCalls b s) := by
  induction b generalizing s with
  | zero => rfl
  | succ b ih => rw [Nat.add_succ, afterCalls, ih]; rfl

/-- `next64()` is called `n` times before. -/
theorem reach_after {s : St} (h : XoReach s) (n : Nat) : XoReach (afterCalls n s) := by
  induction n generalizing s with
  | zero => exact h
  | succ n ih => exact ih (.next s h)

theorem xo_outputs_period_of (N A n : Nat) (s : St) (hA : 0 < A) (hN : afterCalls N s = s)
    (h0 : {n : Nat | n < N ∧ xoOut s n = 0}.ncard = A - 1) (h1 : {n : Nat | n < N ∧ xoOut s n = 1}.ncard = A)
    (hn : ∀ i, xoOut s (i + n) = xoOut s i) : N ∣ n := by
  have hp : ∀ i, xoOut s (i + N) = xoOut s i := by
    intro i
    unfold xoOut
    rw [afterCalls_add, hN]
  rw [ncard_count] at h0 h1
  exact period_least hp hn (v := 0) (w := 1) (by rw [h0, h1]; omega)

theorem splits_state (g : SplitMix64) (n : Nat) : g.afterSplits n = g.after (2 * n) := by
  induction n with
  | zero => rfl
  | succ n ih => rw [SplitMix64.afterSplits, ih]; rfl

end Verif.Rng.Tell
