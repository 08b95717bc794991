import Verif.Rng.LemmasEqui
/-! # Property theorems: how often a number is drawn in a full period (C67) -/
namespace Verif.Rng

/-- **C67** (a). Take any one, two or three numbers `w`. In a full period of a reachable generator,
the positions at which the next calls of `next64()` return exactly `w` are equally many for every
`w`: 2^192 for one number, 2^128 for two, 2^64 for three - and one less if the numbers are all
zero. -/
theorem xo_equidistributed (s : St) (h : XoReach s) (w : List U64) (hw : w.length ≤ 3) :
    {n : Nat | n < 2 ^ 256 - 1 ∧ outputs w.length (afterCalls n s) = w}.ncard =
      2 ^ (256 - 64 * w.length) - if ∀ x ∈ w, x = 0 then 1 else 0 := by
  rw [count_positions s h (fun t => outputs w.length t = w)]
  have hc := count w hw
  have hz : (⟨0, 0, 0, 0⟩ : St) ∈ {t : St | outputs w.length t = w} ↔ ∀ x ∈ w, x = 0 := by
    show outputs w.length ⟨0, 0, 0, 0⟩ = w ↔ _
    rw [outputs_zero, eq_comm, List.eq_replicate_iff]
    simp
  by_cases hw0 : ∀ x ∈ w, x = 0
  · rw [if_pos hw0, Set.ncard_diff_singleton_of_mem (hz.mpr hw0), hc]
  · rw [if_neg hw0, Set.sdiff_singleton_eq_self (fun hm => hw0 (hz.mp hm)), hc]
    rfl

/-- **C67** (b). The same for single numbers, spelled out: every number is drawn, and every number
other than zero equally often. -/
theorem xo_every_number_drawn (s : St) (h : XoReach s) (v : U64) :
    {n : Nat | n < 2 ^ 256 - 1 ∧ (next64 (afterCalls n s)).1 = v}.ncard =
      if v = 0 then 2 ^ 192 - 1 else 2 ^ 192 := by
  have := xo_equidistributed s h [v] (by simp)
  have e : {n : Nat | n < 2 ^ 256 - 1 ∧ (next64 (afterCalls n s)).1 = v} =
      {n : Nat | n < 2 ^ 256 - 1 ∧ outputs [v].length (afterCalls n s) = [v]} := by
    ext n
    simp [outputs]
  rw [e, this]
  by_cases hv : v = 0
  · rw [if_pos hv, if_pos (by simpa using hv)]; rfl
  · rw [if_neg hv, if_neg (by simpa using hv)]; rfl

-- Reachable: a generator seeded and jumped; its first three numbers, and with them a `w` that the
-- theorem is about.
example : XoReach (jump128 (with_seed ⟨1, 2, 3, 4⟩)) := .jump128 _ (.seed _)
example : outputs 3 ⟨1, 2, 3, 4⟩ = [41943041, 58720359, 3588806011781223] := by decide +kernel

/-- **C67** (c). `SplitMix64::next64()`: in 2^64 calls every 64-bit number is returned exactly
once. -/
theorem splitmix64_every_number_once (g : SplitMix64) (h : Reach g) (v : U64) :
    {n : Nat | n < 2 ^ 64 ∧ (g.after n).next64.1 = v}.ncard = 1 := by
  have e : ∀ n, (g.after n).next64.1 =
      mix64 ((g.mix.state + g.gamma) + BitVec.ofNat 64 n * g.gamma) := out_eq g
  simp only [e]
  rw [count_mix g h mix64 (fun _ _ => mix64_inj) (fun y => y = v)]
  exact Set.ncard_singleton v

/-- **C67** (d). `SplitMix64::next32()`: in 2^64 calls every 32-bit number is returned exactly 2^32
times. -/
theorem splitmix64_32_equidistributed (g : SplitMix64) (h : Reach g) (v : BitVec 32) :
    {n : Nat | n < 2 ^ 64 ∧ (g.after n).next32.1 = v}.ncard = 2 ^ 32 := by
  have e : ∀ n, (g.after n).next32.1 =
      (mix32w ((g.mix.state + g.gamma) + BitVec.ofNat 64 n * g.gamma) >>> 32).setWidth 32 := by
    intro n
    rw [after_state]
    have : g.mix.state + BitVec.ofNat 64 n * g.gamma + g.gamma =
        (g.mix.state + g.gamma) + BitVec.ofNat 64 n * g.gamma := by ac_rfl
    rw [← this]
    rfl
  simp only [e]
  rw [count_mix g h mix32w (fun _ _ => mix32w_inj) (fun y => (y >>> 32).setWidth 32 = v)]
  exact count_upper v

example : Reach ((SplitMix64.with_seed 5).split.1.next32.2) := .next32 (.child (.with_seed 5))

end Verif.Rng
