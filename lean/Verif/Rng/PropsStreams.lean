import Verif.Rng.PropsXo
/-! # Property theorems: non-overlapping streams of Xoshiro256++ (C51) -/
namespace Verif.Rng

/-- `k` calls of `jump128()`. -/
def threads : Nat → St → St
  | 0, s => s
  | k + 1, s => jump128 (threads k s)

/-- `k` calls of `jump192()`. -/
def machines : Nat → St → St
  | 0, s => s
  | k + 1, s => jump192 (machines k s)

/-- The generator after `a` calls of `jump192()` and `b` calls of `jump128()`: the way to hand out
streams to machines (`a`) and to threads on them (`b`). -/
def worker (a b : Nat) (s : St) : St := threads b (machines a s)

theorem worker_eq (a b : Nat) (s : St) : worker a b s = steps (a * 2 ^ 192 + b * 2 ^ 128) s := by
  have ht : ∀ k s, threads k s = steps (k * 2 ^ 128) s := by
    intro k s
    induction k with
    | zero => rw [Nat.zero_mul]; rfl
    | succ k ih =>
      rw [threads, ih, jump128_is_2_128_calls, afterCalls_eq, ← steps_add]
      congr 1; omega
  have hm : ∀ k s, machines k s = steps (k * 2 ^ 192) s := by
    intro k s
    induction k with
    | zero => rw [Nat.zero_mul]; rfl
    | succ k ih =>
      rw [machines, ih, jump192_is_2_192_calls, afterCalls_eq, ← steps_add]
      congr 1; omega
  rw [worker, ht, hm, ← steps_add, Nat.add_comm]

theorem steps_eq_of_lt {s : St} (hs : s ≠ ⟨0, 0, 0, 0⟩) {m n : Nat} (hmn : m < n) (hn : n ≤ N) :
    steps m s = steps n s ↔ m = 0 ∧ n = N := by
  have e : n = m + (n - m) := by omega
  constructor
  · intro he
    rw [e, steps_add] at he
    have := Nat.le_of_dvd (by omega) ((period s hs (n - m)).mp (steps_inj he).symm)
    omega
  · rintro ⟨rfl, rfl⟩
    rw [steps_N]; rfl

/-- Three digits of a number. -/
theorem digits_eq {a b i c d j : Nat} (hb : b < 2 ^ 64) (hd : d < 2 ^ 64) (hi : i < 2 ^ 128)
    (hj : j < 2 ^ 128) (h : a * 2 ^ 192 + b * 2 ^ 128 + i = c * 2 ^ 192 + d * 2 ^ 128 + j) :
    a = c ∧ b = d ∧ i = j := by
  omega

/-- **C51** (d). 2^64 times 2^64 streams of 2^128 numbers: two states of them are never the same,
with the one exception that the very last state of the last stream is the first state of the first
stream (the period is 2^256 - 1, not 2^256). -/
theorem streams_disjoint (s : St) (h : XoReach s) (a b i c d j : Nat)
    (ha : a < 2 ^ 64) (hb : b < 2 ^ 64) (hi : i < 2 ^ 128)
    (hc : c < 2 ^ 64) (hd : d < 2 ^ 64) (hj : j < 2 ^ 128) :
    afterCalls i (worker a b s) = afterCalls j (worker c d s) ↔
      (a = c ∧ b = d ∧ i = j) ∨
      (a = 0 ∧ b = 0 ∧ i = 0 ∧ c = 2 ^ 64 - 1 ∧ d = 2 ^ 64 - 1 ∧ j = 2 ^ 128 - 1) ∨
      (c = 0 ∧ d = 0 ∧ j = 0 ∧ a = 2 ^ 64 - 1 ∧ b = 2 ^ 64 - 1 ∧ i = 2 ^ 128 - 1) := by
  have hs := xo_state_nonzero s h
  have hN : N = 2 ^ 256 - 1 := by unfold N; rfl
  simp only [worker_eq, afterCalls_eq, ← steps_add]
  rw [Nat.add_comm i, Nat.add_comm j]
  rcases Nat.lt_trichotomy (a * 2 ^ 192 + b * 2 ^ 128 + i) (c * 2 ^ 192 + d * 2 ^ 128 + j) with hl | hl | hl
  · rw [steps_eq_of_lt hs hl (by omega)]
    omega
  · rw [hl]
    exact iff_of_true rfl (.inl (digits_eq hb hd hi hj hl))
  · rw [eq_comm, steps_eq_of_lt hs hl (by omega)]
    omega

example : worker 1 2 ⟨1, 2, 3, 4⟩ = jump128 (jump128 (jump192 ⟨1, 2, 3, 4⟩)) := by
  simp only [worker, threads, machines]

end Verif.Rng
