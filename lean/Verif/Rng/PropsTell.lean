import Verif.Rng.LemmasTell
/-! # Property theorems: what generators return tells them apart (C133) -/
namespace Verif.Rng

/-- **C133** (a). Not only the states but also the numbers that a generator returns repeat after
`2^256 - 1` calls and its multiples only. -/
theorem xo_outputs_period (s : St) (h : XoReach s) (n : Nat) :
    (∀ i, xoOut s (i + n) = xoOut s i) ↔ (2 ^ 256 - 1) ∣ n := by
  constructor
  · refine Tell.xo_outputs_period_of _ (2 ^ 192) n s (Nat.two_pow_pos _) ((xo_full_period s h _).mpr (Nat.dvd_refl _)) ?_ ?_
    · have := xo_every_number_drawn s h 0
      rw [if_pos rfl] at this
      exact this
    · have := xo_every_number_drawn s h 1
      rw [if_neg (by decide)] at this
      exact this
  · intro hd i
    unfold xoOut
    rw [Tell.afterCalls_add, (xo_full_period s h n).mpr hd]

/-- **C133** (b). Two generators return the same numbers only if they are in the same state; it takes
no more than a period to see that. -/
theorem xo_outputs_tell (s t : St) (hs : XoReach s) (ht : XoReach t) :
    (∀ i, i < 2 ^ 256 - 1 → xoOut s i = xoOut t i) ↔ s = t := by
  constructor
  · intro h
    obtain ⟨n, ⟨hn, e⟩, -⟩ := xo_visits_everything_once s t hs (xo_state_nonzero t ht)
    have hall : ∀ i, xoOut s (i + n) = xoOut s i := by
      intro i
      have e1 : xoOut s (i + n) = xoOut t i := by unfold xoOut; rw [Tell.afterCalls_add, e]
      have hm : ∀ u, XoReach u → ∀ N, N = 2 ^ 256 - 1 → xoOut u i = xoOut u (i % N) := by
        intro u hu N hN
        have hp : ∀ j, xoOut u (j + N) = xoOut u j := (xo_outputs_period u hu N).mpr (hN ▸ Nat.dvd_refl _)
        have := Tell.period_mul hp (i / N) (i % N)
        rw [Nat.mul_comm, Nat.mod_add_div] at this
        exact this
      generalize hN : 2 ^ 256 - 1 = N at h hm hn
      rw [e1, hm t ht N rfl, hm s hs N rfl]
      exact (h _ (Nat.mod_lt _ (by omega))).symm
    have hd := (xo_outputs_period s hs n).mp hall
    generalize 2 ^ 256 - 1 = N at hd hn
    have hz := Nat.eq_zero_of_dvd_of_lt hd hn
    rw [hz] at e
    exact e
  · rintro rfl _ _
    rfl

/-- **C133** (c). So generators with different seeds are different, but for the seed that is all zero,
which is replaced by one that can be given as well. -/
theorem xo_seeds_tell (s t : St) : (∀ i, xoOut (with_seed s) i = xoOut (with_seed t) i) ↔
    s = t ∨ (s = ⟨0, 0, 0, 0⟩ ∧ t = MIX64_0) ∨ (s = MIX64_0 ∧ t = ⟨0, 0, 0, 0⟩) := by
  have hz : with_seed ⟨0, 0, 0, 0⟩ = MIX64_0 := by
    have := with_seed_repeat 0
    rw [if_pos rfl] at this
    exact this
  have hm : with_seed MIX64_0 = MIX64_0 := xo_seed_verbatim _ (by decide)
  have hx : (∀ i, xoOut (with_seed s) i = xoOut (with_seed t) i) ↔ with_seed s = with_seed t :=
    ⟨fun h => (xo_outputs_tell _ _ (.seed s) (.seed t)).mp (fun i _ => h i), fun h i => by rw [h]⟩
  rw [hx]
  constructor
  · intro h
    by_cases h1 : s = ⟨0, 0, 0, 0⟩
    · by_cases h2 : t = ⟨0, 0, 0, 0⟩
      · exact .inl (h1.trans h2.symm)
      · rw [h1, hz, xo_seed_verbatim t h2] at h
        exact .inr (.inl ⟨h1, h.symm⟩)
    · by_cases h2 : t = ⟨0, 0, 0, 0⟩
      · rw [h2, hz, xo_seed_verbatim s h1] at h
        exact .inr (.inr ⟨h, h2⟩)
      · rw [xo_seed_verbatim s h1, xo_seed_verbatim t h2] at h
        exact .inl h
  · rintro (rfl | ⟨rfl, rfl⟩ | ⟨rfl, rfl⟩)
    · rfl
    · rw [hz, hm]
    · rw [hz, hm]

/-- Jumping changes the numbers. -/
example (s : St) (h : XoReach s) : ∃ i, xoOut (jump128 s) i ≠ xoOut s i := by
  by_contra hc
  have hc : ∀ i, xoOut (jump128 s) i = xoOut s i := fun i => by
    by_contra hn
    exact hc ⟨i, hn⟩
  have := (xo_outputs_tell _ _ (.jump128 s h) h).mp (fun i _ => hc i)
  have hd := jump128_streams_disjoint s h 0 0 (by decide) (by decide)
  exact hd this.symm

/-! ## SplitMix64 -/

/-- **C133** (d). Two numbers in a row tell the state of a SplitMix64, whatever its gamma is. -/
theorem splitmix64_two_tell (g h : SplitMix64) : (g.out 0 = h.out 0 ∧ g.out 1 = h.out 1) ↔ g = h := by
  constructor
  · rintro ⟨h0, h1⟩
    rw [out_eq, out_eq] at h0 h1
    have h0 := mix64_inj h0
    have h1 := mix64_inj h1
    obtain ⟨⟨a⟩, b⟩ := g
    obtain ⟨⟨c⟩, d⟩ := h
    simp only [BitVec.zero_mul, BitVec.add_zero, BitVec.one_mul] at h0 h1
    rw [h0] at h1
    have hb : b = d := (BitVec.add_right_inj _).mp h1
    subst hb
    have ha : a = c := (BitVec.add_left_inj _).mp h0
    rw [ha]
  · rintro rfl; exact ⟨rfl, rfl⟩

/-- **C133** (e). Generators with the same gamma, such as all those that are made from seeds, are at
every call different if they are different at all. -/
theorem splitmix64_all_differ (g h : SplitMix64) (hg : g.gamma = h.gamma) (n : Nat) :
    g.out n = h.out n ↔ g = h := by
  constructor
  · intro e
    rw [out_eq, out_eq] at e
    have e := mix64_inj e
    rw [hg] at e
    obtain ⟨⟨a⟩, b⟩ := g
    obtain ⟨⟨c⟩, d⟩ := h
    have hg : b = d := hg
    subst hg
    have ha : a = c := (BitVec.add_left_inj _).mp ((BitVec.add_left_inj _).mp e)
    rw [ha]
  · rintro rfl; rfl

/-- **C133** (f). The generators that one generator is split into are all different, for 2^63 calls of
`split()`. -/
theorem children_differ (g : SplitMix64) (h : Reach g) (i j : Nat) (hi : i < 2 ^ 63) (hj : j < 2 ^ 63) :
    (g.afterSplits i).split.1 = (g.afterSplits j).split.1 ↔ i = j := by
  constructor
  · intro e
    have e := congrArg (fun c : SplitMix64 => c.mix.state) e
    have hs : ∀ k, (g.afterSplits k).split.1.mix.state = g.out (2 * k) := by
      intro k
      rw [Tell.splits_state]
      rfl
    simp only [hs] at e
    have := (splitmix64_out_eq_iff g h _ _).mp e
    omega
  · rintro rfl; rfl

/-! ## Examples -/

example : XoReach (with_seed ⟨1, 2, 3, 4⟩) ∧ XoReach (jump192 (with_seed ⟨1, 2, 3, 4⟩)) := ⟨.seed _, .jump192 _ (.seed _)⟩

-- Generators with different seeds may return the same numbers for a while: here for one call.
example : xoOut (with_seed ⟨1, 2, 3, 4⟩) 0 = xoOut (with_seed ⟨1, 7, 8, 4⟩) 0 ∧
    xoOut (with_seed ⟨1, 2, 3, 4⟩) 1 ≠ xoOut (with_seed ⟨1, 7, 8, 4⟩) 1 := by decide +kernel

-- One number does not tell a SplitMix64 if its gamma is not known.
example : (SplitMix64.with_ 5 1).out 0 = (SplitMix64.with_ 3 3).out 0 ∧ (SplitMix64.with_ 5 1).out 1 ≠ (SplitMix64.with_ 3 3).out 1 := by
  decide +kernel

-- The first two children of a generator.
example : (SplitMix64.with_seed 1).split.1 ≠ ((SplitMix64.with_seed 1).afterSplits 1).split.1 := by decide +kernel

end Verif.Rng
