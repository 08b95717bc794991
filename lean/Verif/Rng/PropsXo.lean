import Verif.Rng.LemmasPeriod
/-! # Property theorems: Xoshiro256++ (C10, C11, C51) -/
namespace Verif.Rng

/-- Every state an API user can bring a `Xoshiro256pp` into. -/
inductive XoReach : St → Prop
  | seed (s : St) : XoReach (with_seed s)
  | mix (m : SplitMix64) : XoReach (from_splitmix64 m).1
  | next (s : St) : XoReach s → XoReach (next64 s).2
  | jump128 (s : St) : XoReach s → XoReach (jump128 s)
  | jump192 (s : St) : XoReach s → XoReach (jump192 s)

/-- The state after `n` calls of `next64()`. -/
def afterCalls : Nat → St → St
  | 0, s => s
  | n + 1, s => afterCalls n (next64 s).2

/-- The values returned by the first `n` calls of `next64()`. -/
def outputs : Nat → St → List U64
  | 0, _ => []
  | n + 1, s => (next64 s).1 :: outputs n (next64 s).2

theorem afterCalls_eq (n : Nat) (s : St) : afterCalls n s = steps n s := by
  induction n generalizing s with
  | zero => rfl
  | succ n ih => rw [afterCalls, ih]; rfl

theorem with_seed_ne_zero (s : St) : with_seed s ≠ ⟨0, 0, 0, 0⟩ := by
  rw [with_seed]
  split
  · decide
  · rename_i h
    intro he
    rw [he] at h
    exact h ⟨rfl, rfl, rfl, rfl⟩

/-- **C10** (a). No reachable state is all-zero. -/
theorem xo_state_nonzero (s : St) (h : XoReach s) : s ≠ ⟨0, 0, 0, 0⟩ := by
  induction h with
  | seed s => exact with_seed_ne_zero s
  | mix m => exact with_seed_ne_zero _
  | next s _ ih => exact step_ne_zero ih
  | jump128 s _ ih => rw [Verif.Rng.jump128, step128_steps]; exact steps_ne_zero _ ih
  | jump192 s _ ih => rw [Verif.Rng.jump192, step192_steps]; exact steps_ne_zero _ ih

/-- **C10** (b). Drawing a number maps states one-to-one. -/
theorem xo_next_injective (s t : St) : (next64 s).2 = (next64 t).2 ↔ s = t :=
  ⟨step_inj, fun h => h ▸ rfl⟩

/-- **C10** (c). ... and onto: every state has a predecessor. -/
theorem xo_next_surjective (t : St) : ∃ s, (next64 s).2 = t := by
  refine ⟨steps (N - 1) t, ?_⟩
  show step (steps (N - 1) t) = t
  rw [← steps_step, ← steps_succ, Nat.sub_add_cancel N_pos, steps_N]

/-- A seed that is not all zero is used as it is. -/
theorem xo_seed_verbatim (s : St) (h : s ≠ ⟨0, 0, 0, 0⟩) : with_seed s = s := by
  rw [with_seed, if_neg]
  rintro ⟨h0, h1, h2, h3⟩
  exact h (by cases s; simp_all)

example : XoReach (next64 (with_seed ⟨0, 0, 0, 0⟩)).2 := .next _ (.seed _)

/-- **C11** (a). `jump128()` equals 2^128 calls of `next64()`, for every state. -/
theorem jump128_is_2_128_calls (s : St) : jump128 s = afterCalls (2 ^ 128) s := by
  rw [afterCalls_eq]; exact step128_steps s

/-- **C11** (b). `jump192()` equals 2^192 calls of `next64()`, for every state. -/
theorem jump192_is_2_192_calls (s : St) : jump192 s = afterCalls (2 ^ 192) s := by
  rw [afterCalls_eq]; exact step192_steps s

theorem steps_comm (m n : Nat) (s : St) : steps m (steps n s) = steps n (steps m s) := by
  rw [← steps_add, Nat.add_comm, steps_add]

/-- **C11** (c). Jumps commute with drawing numbers and with one another. -/
theorem jumps_commute (s : St) (n : Nat) :
    jump128 (afterCalls n s) = afterCalls n (jump128 s) ∧
    jump192 (afterCalls n s) = afterCalls n (jump192 s) ∧
    jump128 (jump192 s) = jump192 (jump128 s) := by
  simp only [Verif.Rng.jump128, Verif.Rng.jump192, step128_steps, step192_steps, afterCalls_eq]
  exact ⟨steps_comm _ _ _, steps_comm _ _ _, steps_comm _ _ _⟩

/-- **C51** (a). From every reachable state the generator returns to that state after exactly
`2^256 - 1` calls and its multiples, and never earlier. -/
theorem xo_full_period (s : St) (h : XoReach s) (n : Nat) :
    afterCalls n s = s ↔ (2 ^ 256 - 1) ∣ n := by
  rw [afterCalls_eq, period s (xo_state_nonzero s h)]
  unfold N
  exact Iff.rfl

/-- **C51** (b). From every reachable state every other non-zero state is reached, at exactly one
position below `2^256 - 1`. -/
theorem xo_visits_everything_once (s t : St) (h : XoReach s) (ht : t ≠ ⟨0, 0, 0, 0⟩) :
    ∃ n, (n < 2 ^ 256 - 1 ∧ afterCalls n s = t) ∧
      ∀ m, m < 2 ^ 256 - 1 → afterCalls m s = t → m = n := by
  have hs := xo_state_nonzero s h
  have hN : N = 2 ^ 256 - 1 := by unfold N; rfl
  rw [← hN]
  simp only [afterCalls_eq]
  have huniq : ∀ a b, a < b → b < N → steps a s ≠ steps b s := by
    intro a b hab hb he
    have e : b = a + (b - a) := by omega
    rw [e, steps_add] at he
    have := Nat.le_of_dvd (by omega) ((period s hs (b - a)).mp (steps_inj he).symm)
    omega
  obtain ⟨i, hi, rfl⟩ := orbit s hs
  obtain ⟨j, hj, rfl⟩ := orbit t ht
  have key : ∃ n, n < N ∧ steps n (steps i e0) = steps j e0 := by
    by_cases hij : i ≤ j
    · exact ⟨j - i, by omega, by rw [← steps_add, Nat.sub_add_cancel hij]⟩
    · refine ⟨j + N - i, by omega, ?_⟩
      rw [← steps_add, Nat.sub_add_cancel (by omega), steps_add, steps_N]
  obtain ⟨n, hn, hne⟩ := key
  refine ⟨n, ⟨hn, hne⟩, ?_⟩
  intro m hm hme
  rcases Nat.lt_trichotomy m n with hl | hl | hl
  · exact absurd (hme.trans hne.symm) (huniq m n hl hn)
  · exact hl
  · exact absurd (hne.trans hme.symm) (huniq n m hl hm)

/-- **C51** (c). The streams behind successive `jump128()` calls do not overlap: the first 2^128
states of a generator and those of its jumped copy are disjoint. -/
theorem jump128_streams_disjoint (s : St) (h : XoReach s) (i j : Nat)
    (hi : i < 2 ^ 128) (hj : j < 2 ^ 128) :
    afterCalls i s ≠ afterCalls j (jump128 s) := by
  have hs := xo_state_nonzero s h
  rw [jump128_is_2_128_calls]
  simp only [afterCalls_eq]
  rw [← steps_add]
  intro he
  have e : j + 2 ^ 128 = i + (j + 2 ^ 128 - i) := by omega
  rw [e, steps_add] at he
  have hd := (period s hs (j + 2 ^ 128 - i)).mp (steps_inj he).symm
  have hN : N = 2 ^ 256 - 1 := by unfold N; rfl
  rw [hN] at hd
  have := Nat.le_of_dvd (by omega) hd
  omega

example : XoReach ⟨1, 2, 3, 4⟩ := by
  have := XoReach.seed ⟨1, 2, 3, 4⟩
  rwa [xo_seed_verbatim _ (by decide)] at this

-- The published test vector of the reference implementation for the seed (1, 2, 3, 4).
#guard outputs 4 ⟨1, 2, 3, 4⟩ = [41943041#64, 58720359#64, 3588806011781223#64, 3591011842654386#64]

end Verif.Rng
