import Verif.Rng.LemmasMix
import Mathlib.Data.Fintype.EquivFin
/-! # Property theorems: Mix64 and SplitMix64 (C07, C08, C09, C12) -/
namespace Verif.Rng

/-- The generator after `n` calls of `next64`. -/
def SplitMix64.after (g : SplitMix64) : Nat → SplitMix64
  | 0 => g
  | n + 1 => (g.after n).next64.2

/-- The `n`-th (from 0) value returned by successive `next64` calls. -/
def SplitMix64.out (g : SplitMix64) (n : Nat) : U64 := (g.after n).next64.1

def Mix64.after (g : Mix64) : Nat → Mix64
  | 0 => g
  | n + 1 => (g.after n).next64.2

def Mix64.out (g : Mix64) (n : Nat) : U64 := (g.after n).next64.1

/-- The `SplitMix64` generators a program can obtain through the API. -/
inductive Reach : SplitMix64 → Prop
  | with_seed (s) : Reach (SplitMix64.with_seed s)
  | from_mix64 (m) : Reach (SplitMix64.from_mix64 m)
  | mix_split (m : Mix64) : Reach m.split.1
  | next32 {g : SplitMix64} : Reach g → Reach g.next32.2
  | next64 {g : SplitMix64} : Reach g → Reach g.next64.2
  | child {g : SplitMix64} : Reach g → Reach g.split.1
  | parent {g : SplitMix64} : Reach g → Reach g.split.2

theorem gamma_odd : GAMMA.toNat % 2 = 1 := by decide

theorem mixg_odd (v : U64) : (mixg v).toNat % 2 = 1 := odd_of_bit0 _ (mixg_bit0 v)

theorem reach_odd {g : SplitMix64} (h : Reach g) : g.gamma.toNat % 2 = 1 := by
  induction h with
  | with_seed s => exact gamma_odd
  | from_mix64 m => exact gamma_odd
  | mix_split m => exact mixg_odd _
  | next32 _ ih => exact ih
  | next64 _ ih => exact ih
  | child _ _ => exact mixg_odd _
  | parent _ ih => exact ih

theorem after_state (g : SplitMix64) (n : Nat) :
    g.after n = { mix := { state := g.mix.state + BitVec.ofNat 64 n * g.gamma }, gamma := g.gamma } := by
  induction n with
  | zero => simp [SplitMix64.after]
  | succ n ih =>
    rw [SplitMix64.after, ih]
    simp only [SplitMix64.next64, Mix64.step]
    rw [BitVec.ofNat_add, BitVec.add_mul, BitVec.add_assoc]
    simp

theorem out_eq (g : SplitMix64) (n : Nat) :
    g.out n = mix64 ((g.mix.state + g.gamma) + BitVec.ofNat 64 n * g.gamma) := by
  rw [SplitMix64.out, after_state]
  simp only [SplitMix64.next64, Mix64.step]
  congr 1
  ac_rfl

/-- **C07.** For every generator obtainable through the API, two outputs of `next64` coincide exactly if
their positions differ by a multiple of 2^64. -/
theorem splitmix64_out_eq_iff (g : SplitMix64) (h : Reach g) (n m : Nat) :
    g.out n = g.out m ↔ n % 2 ^ 64 = m % 2 ^ 64 := by
  rw [out_eq, out_eq, ← arith_eq_iff (g.mix.state + g.gamma) g.gamma (reach_odd h) n m]
  exact ⟨mix64_inj, fun h => by rw [h]⟩

/-- **C07.** Within 2^64 outputs every 64-bit value occurs (hence, with the above, exactly once). -/
theorem splitmix64_out_surjective (g : SplitMix64) (h : Reach g) (v : U64) :
    ∃ n, n < 2 ^ 64 ∧ g.out n = v := by
  have inj : Function.Injective (fun n : Fin (2 ^ 64) => (g.out n.val).toFin) := by
    intro a b hab
    have h1 : g.out a.val = g.out b.val := BitVec.toFin_inj.mp hab
    have h2 := (splitmix64_out_eq_iff g h a.val b.val).mp h1
    rw [Nat.mod_eq_of_lt a.isLt, Nat.mod_eq_of_lt b.isLt] at h2
    exact Fin.ext h2
  obtain ⟨n, hn⟩ := Finite.surjective_of_injective inj v.toFin
  exact ⟨n.val, n.isLt, BitVec.toFin_inj.mp hn⟩

-- A generator split twice, advanced in between, is covered.
example : Reach ((SplitMix64.with_seed 5).split.1.next64.2.split.1) :=
  .child (.next64 (.child (.with_seed 5)))

/-- `mix64` is a permutation of the 64-bit values: each value has exactly one preimage. -/
theorem mix64_bijective (v : U64) : ∃ x, mix64 x = v ∧ ∀ y, mix64 y = v → y = x :=
  ⟨unmix64 v, mix64_unmix64 v, fun y hy => mix64_inj (by rw [hy, mix64_unmix64])⟩

/-- **C08.** Every gamma produced by a split is odd and has at least 24 positions `i` where bit `i`
differs from bit `i + 1` (bit 64 counting as zero). -/
theorem mixg_quality (v : U64) :
    (mixg v).toNat % 2 = 1 ∧
    24 ≤ ((List.range 64).filter fun i => (mixg v).getLsbD i != (mixg v).getLsbD (i + 1)).length := by
  refine ⟨mixg_odd v, ?_⟩
  have h := mixg_transitions v
  simp only [count_ones] at h
  have e : (List.range 64).filter (fun i => (mixg v ^^^ mixg v >>> 1).getLsbD i)
      = (List.range 64).filter fun i => (mixg v).getLsbD i != (mixg v).getLsbD (i + 1) := by
    apply List.filter_congr
    intro i hi
    rw [BitVec.getLsbD_xor, BitVec.getLsbD_ushiftRight, Nat.add_comm 1 i]
  rwa [e] at h

/-- **C08** for both split functions, as seen from the child generator. -/
theorem split_gamma_quality (g : SplitMix64) (m : Mix64) (c : SplitMix64)
    (hc : c = g.split.1 ∨ c = m.split.1) :
    c.gamma.toNat % 2 = 1 ∧
    24 ≤ ((List.range 64).filter fun i => c.gamma.getLsbD i != c.gamma.getLsbD (i + 1)).length := by
  rcases hc with rfl | rfl <;> exact mixg_quality _

-- The correction branch is really taken for some inputs (state 0 mixes to gamma 1 before correction).
example : mixg 0 = 0xaaaaaaaaaaaaaaab#64 := by decide +kernel

theorem mix_after_state (g : Mix64) (n : Nat) :
    g.after n = { state := g.state + BitVec.ofNat 64 n * GAMMA } := by
  induction n with
  | zero => simp [Mix64.after]
  | succ n ih =>
    rw [Mix64.after, ih]
    simp only [Mix64.next64, Mix64.step]
    rw [BitVec.ofNat_add, BitVec.add_mul, BitVec.add_assoc]
    simp

/-- **C09.** `SplitMix64` with the same seed yields exactly the `Mix64` sequence, from any point. -/
theorem mix64_splitmix64_agree (m : Mix64) (seed : U64) (n : Nat) :
    (SplitMix64.with_seed seed).out n = (Mix64.with_seed seed).out n ∧
    (SplitMix64.from_mix64 m).out n = m.out n ∧
    ((SplitMix64.from_mix64 m).after n).next32.1 = (m.after n).next32.1 := by
  refine ⟨?_, ?_, ?_⟩
  · rw [SplitMix64.out, Mix64.out, after_state, mix_after_state]; rfl
  · rw [SplitMix64.out, Mix64.out, after_state, mix_after_state]; rfl
  · rw [after_state, mix_after_state]; rfl

/-- **C09.** Splitting advances the parent exactly as two `next64` calls do, and the child starts from
the parent's next output. -/
theorem split_advances_two (g : SplitMix64) (m : Mix64) :
    g.split.2 = g.after 2 ∧ m.split.2 = m.after 2 ∧
    g.split.1.mix.state = g.out 0 ∧ m.split.1.mix.state = m.out 0 := by
  refine ⟨rfl, rfl, rfl, rfl⟩

/-- **C09.** A child is told by its parent: it starts from the parent's next output, and its gamma is drawn from the state one step
further, at which the parent is left. -/
theorem split_child (g : SplitMix64) (m : Mix64) :
    g.split.1 = ⟨⟨g.out 0⟩, mixg (g.after 2).mix.state⟩ ∧ m.split.1 = ⟨⟨m.out 0⟩, mixg (m.after 2).state⟩ := ⟨rfl, rfl⟩

-- The gamma is not that of the state the seed was drawn from.
example : (SplitMix64.with_seed 0).split.1.gamma ≠ mixg ((SplitMix64.with_seed 0).after 1).mix.state := by decide +kernel

/-- `next32` and `next64` advance a generator in the same way. -/
theorem next32_advances (g : SplitMix64) (m : Mix64) :
    g.next32.2 = g.next64.2 ∧ m.next32.2 = m.next64.2 := ⟨rfl, rfl⟩

/-- The compile-time assertion of `MIX64_0` (rng.rs 66-70) holds. -/
theorem mix64_0_nonzero :
    MIX64_0.s0 ≠ 0 ∧ MIX64_0.s1 ≠ 0 ∧ MIX64_0.s2 ≠ 0 ∧ MIX64_0.s3 ≠ 0 := by decide +kernel

theorem with_seed_repeat (v : U64) :
    with_seed (repeat4 v) = if v = 0 then MIX64_0 else repeat4 v := by
  by_cases h : v = 0
  · subst h; rfl
  · rw [with_seed, if_neg (fun hh => h hh.1), if_neg h]

/-- What C12 asks for: the four words are successive outputs. -/
def SeededBySuccessive (s : St) (g : SplitMix64) : Prop :=
  s.s0 = g.out 0 ∧ s.s1 = g.out 1 ∧ s.s2 = g.out 2 ∧ s.s3 = g.out 3

/-- **C12 is false**, for *every* generator: the four state words are all equal, whereas successive
outputs always differ. -/
theorem from_splitmix64_not_successive (g : SplitMix64) (h : Reach g) :
    ¬ SeededBySuccessive (from_splitmix64 g).1 g := by
  intro ⟨h0, h1, _, _⟩
  have hne : g.out 0 ≠ g.out 1 := by
    intro he
    have := (splitmix64_out_eq_iff g h 0 1).mp he
    simp at this
  apply hne
  rw [← h0, ← h1]
  simp only [from_splitmix64, with_seed_repeat]
  split <;> rfl

/-- **C12 is false** for the built-in zero seed, too. -/
theorem mix64_0_not_successive : ¬ SeededBySuccessive MIX64_0 (SplitMix64.with_seed 0) := by
  intro ⟨h0, h1, _, _⟩
  have := (splitmix64_out_eq_iff _ (.with_seed 0) 0 1).mp (by rw [← h0, ← h1]; rfl)
  simp at this

/-- **C12 (partial).** What does hold: only the first output is used, for the first word (unless it is
zero), and the mixer advances by one step. -/
theorem from_splitmix64_first_partial (g : SplitMix64) :
    (from_splitmix64 g).2 = g.after 1 ∧
    (from_splitmix64 g).1 = (if g.out 0 = 0 then repeat4 ((SplitMix64.with_seed 0).out 0)
      else repeat4 (g.out 0)) := by
  refine ⟨rfl, ?_⟩
  simp only [from_splitmix64, with_seed_repeat]
  rfl

example : (from_splitmix64 (SplitMix64.with_seed 0)).1 = repeat4 0xe220a8397b1dcdaf#64 := by
  decide +kernel

end Verif.Rng
