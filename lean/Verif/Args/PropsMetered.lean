import Verif.Args.LemmasMetered
import Verif.Args.Props
/-! # Property theorems: comparisons of a whole run (C118) -/
namespace Verif.Args
variable {σ R : Type}

/-- C118. What is counted is what the parser does. -/
theorem parse_counted (h : σ → Event → σ × Option R) (sc : Schema) (args : List Bytes) (s : σ) :
    (parseM h sc args s).1 = parse h stdSearcher sc args s := by
  rw [parseM, parse]
  simp only [parse_cursorM_fst]
  rfl

/-- C118. A run with any arguments and any behaviour of the reports: if no two of `N` commands have the same path, none has more than
`F` flags, and no path is longer than `D`, then every argument that begins with two dashes costs at most `2 (D + 2)` binary searches
among `F` flags, and all others together at most `D + 1` binary searches among the commands and `D N` further comparisons. -/
theorem parse_comparisons (h : σ → Event → σ × Option R) (so : Sorter) (cs : List Command) (hd : (cs.map (·.path)).Nodup)
    (F D : Nat) (hF : ∀ c ∈ cs, c.flags.length ≤ F) (hD : ∀ c ∈ cs, c.path.length ≤ D) (args : List Bytes) (s : σ) :
    (parseM h (compile so cs) args s).2
      ≤ dashed args * (2 * ((D + 2) * (clog F + 1))) + (D + 1) * (clog cs.length + 1) + D * cs.length := by
  have hp := so.perm (fun a b : Command => cmpPath a.path b.path)
    (cs.map fun c => { c with flags := FlagSet_compile so c.flags })
  have hpaths : ((compile so cs).cmds.map (·.path)).Perm (cs.map (·.path)) := by
    have := hp.map (·.path)
    rw [List.map_map] at this
    exact this
  have hmem : ∀ c ∈ (compile so cs).cmds, ∃ c' ∈ cs, c'.path = c.path ∧ c'.flags.length = c.flags.length := by
    intro c hc
    obtain ⟨c', hc', rfl⟩ := List.mem_map.mp (hp.mem_iff.mp hc)
    exact ⟨c', hc', rfl, (so.perm _ _).length_eq.symm⟩
  have := parse_cursorM_le h (compile_compiled so cs) (hpaths.nodup_iff.mpr hd) (F := F) (D := D)
    (fun c hc => by obtain ⟨c', h1, _, h3⟩ := hmem c hc; rw [← h3]; exact hF c' h1)
    (fun c hc => by obtain ⟨c', h1, h2, _⟩ := hmem c hc; rw [← h2]; exact hD c' h1)
    (args.length + 1) [] (.inl rfl) true true args s
  rw [length_compile] at this
  rw [parseM, cursor_with_eq]
  simp only [wordsLeft, List.length_nil, Nat.sub_zero] at this
  exact Nat.le_trans this (by omega)

theorem count_range (k n : Nat) : (List.range n).countP (fun i => decide (k + 1 ≤ i + 1)) = n - k := by
  induction n with
  | zero => simp
  | succ n ih =>
    rw [List.range_succ, List.countP_append, ih, List.countP_singleton]
    split <;> rename_i hk <;> simp at hk <;> omega

theorem replicate_prefix (k n : Nat) (a : Bytes) : (List.replicate k a).isPrefixOf (List.replicate n a) = decide (k ≤ n) := by
  by_cases h : k ≤ n
  · rw [decide_eq_true h, List.isPrefixOf_iff_prefix]
    exact ⟨List.replicate (n - k) a, by rw [List.replicate_append_replicate]; congr 1; omega⟩
  · rw [decide_eq_false h]
    refine Bool.eq_false_iff.mpr fun hp => h ?_
    have := (List.isPrefixOf_iff_prefix.mp hp).length_le
    simpa using this

theorem matching_chain_at (k n : Nat) : matching (chain n) (List.replicate (k + 1) [0x61]) = n - k := by
  rw [matching, chain, List.countP_map, ← count_range k n]
  congr 1
  funext i
  exact replicate_prefix (k + 1) (i + 1) [0x61]

theorem chain_cost (h : σ → Event → σ × Option R) (so : Sorter) (n m : Nat) (hm : m ≤ n) (fuel : Nat) (hf : m < fuel) (s : σ) :
    m * (m + 1) ≤ 2 * (parse_cursorM h (compile so (chain n)) fuel
      ⟨false, false, cursorOf (compile so (chain n)).cmds (List.replicate (n - m) [0x61])⟩ (List.replicate m [0x61]) s).2 := by
  induction m generalizing fuel with
  | zero => omega
  | succ m ih =>
    obtain ⟨fuel, rfl⟩ : ∃ f, fuel = f + 1 := ⟨fuel - 1, by omega⟩
    have hc := compile_compiled so (chain n)
    have ext : ∀ k, k < n → Extends (compile so (chain n)).cmds (List.replicate (k + 1) [0x61]) = true := by
      intro k hk
      have h1 : matching (compile so (chain n)).cmds (List.replicate (k + 1) [0x61]) = n - k := by
        rw [matching_compile, matching_chain_at]
      have h2 : 0 < matching (compile so (chain n)).cmds (List.replicate (k + 1) [0x61]) := by omega
      obtain ⟨c, hcm, hp⟩ := List.countP_pos_iff.mp h2
      exact List.any_eq_true.mpr ⟨c, hcm, hp⟩
    have hr : Reach (compile so (chain n)).cmds (List.replicate (n - (m + 1)) [0x61]) := by
      rcases Nat.eq_zero_or_pos (n - (m + 1)) with h0 | h0
      · rw [h0]; exact .inl rfl
      · have := ext (n - (m + 1) - 1) (by omega)
        rw [show n - (m + 1) - 1 + 1 = n - (m + 1) by omega] at this
        exact .inr this
    have hw : List.replicate (n - (m + 1)) ([0x61] : Bytes) ++ [[0x61]] = List.replicate (n - m) [0x61] := by
      rw [show [([0x61] : Bytes)] = List.replicate 1 [0x61] from rfl, List.replicate_append_replicate]
      congr 1; omega
    have hlow := (word_fast_partial hc hr [0x61]).2
    rw [hw, show n - m = n - (m + 1) + 1 by omega, matching_compile, matching_chain_at] at hlow
    have hext := ext (n - (m + 1)) (by omega)
    rw [show n - (m + 1) + 1 = n - m by omega] at hext
    have ih' := ih (by omega) fuel (by omega)
    have hstep : (parse_cursorM h (compile so (chain n)) (fuel + 1)
        ⟨false, false, cursorOf (compile so (chain n)).cmds (List.replicate (n - (m + 1)) [0x61])⟩ (List.replicate (m + 1) [0x61]) s)
        = charge (parse_commandM h (compile so (chain n)) ⟨false, false, cursorOf (compile so (chain n)).cmds (List.replicate (n - (m + 1)) [0x61])⟩ s [0x61] (some [0x61])).2
          ((parse_commandM h (compile so (chain n)) ⟨false, false, cursorOf (compile so (chain n)).cmds (List.replicate (n - (m + 1)) [0x61])⟩ s [0x61] (some [0x61])).1.bindM
            fun s p => parse_cursorM h (compile so (chain n)) fuel p (List.replicate m [0x61]) s) := by
      rw [List.replicate_succ, parse_cursorM, if_neg (by simp)]
      have e1 : (if (false : Bool) = true then none else split_flag [0x61]) = none := by decide +kernel
      have e2 : isUtf8 [0x61] = true := by decide +kernel
      simp only [e1, e2, if_true]
      rfl
    rw [hstep, parse_commandM_fst, parse_command]
    simp only []
    rw [enter_eq stdSearcher hc.sorted hr, hw, if_pos hext]
    show _ ≤ 2 * ((enterM (compile so (chain n)) (cursorOf (compile so (chain n)).cmds (List.replicate (n - (m + 1)) [0x61])) [0x61]).2 + (parse_cursorM h (compile so (chain n)) fuel
      ⟨false, false, cursorOf (compile so (chain n)).cmds (List.replicate (n - m) [0x61])⟩ (List.replicate m [0x61]) s).2)
    have e : (m + 1) * (m + 1 + 1) = m * (m + 1) + 2 * (m + 1) := by grind
    omega

/-- C118. The last term is needed: with `n` commands, no two of which have the same path, the `n` words of the longest one take at
least `n (n + 1) / 2` comparisons, which is not bounded by the number of words times any power of the logarithm. -/
theorem words_quadratic (h : σ → Event → σ × Option R) (so : Sorter) (n : Nat) (s : σ) :
    (chain n).length = n ∧ ((chain n).map (·.path)).Nodup
    ∧ n * (n + 1) ≤ 2 * (parseM h (compile so (chain n)) (List.replicate n [0x61]) s).2 := by
  refine ⟨by simp [chain], chain_distinct n, ?_⟩
  have := chain_cost h so n n (Nat.le_refl _) ((List.replicate n ([0x61] : Bytes)).length + 1) (by simp) s
  rw [Nat.sub_self] at this
  rw [parseM, cursor_with_eq]
  exact this

/-! ## Examples -/

/-- `parse_comparisons`: the bound, and what a run takes, for the commands of the example of C19. -/
example : (demo.map (·.path)).Nodup ∧ (∀ c ∈ demo, c.flags.length ≤ 2) ∧ (∀ c ∈ demo, c.path.length ≤ 2)
    ∧ dashed [b "remote", b "add", b "--url", b "x", b "--no-verbose"] = 2
    ∧ (parseM record (compile insertSorter demo) [b "remote", b "add", b "--url", b "x", b "--no-verbose"] []).2 ≤ 100
    ∧ 0 < (parseM record (compile insertSorter demo) [b "remote", b "add", b "--url", b "x", b "--no-verbose"] []).2 :=
  ⟨by decide +kernel, by decide +kernel, by decide +kernel, by decide +kernel, by decide +kernel, by decide +kernel⟩

#guard (parseM record (compile insertSorter (chain 20)) (List.replicate 20 [0x61]) []).2 ≥ 210

end Verif.Args
