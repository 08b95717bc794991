import Verif.Args.LemmasLookup
/-! # Properties: how long looking up commands and flags takes

C102: parse.rs 213-214 says that the search for a command is suitably fast, with logarithmic behavior. -/
namespace Verif.Args

/-- What `clog` is: the least power of two that is enough. -/
theorem clog_least (n : Nat) : n ≤ 2 ^ clog n ∧ ∀ k, n ≤ 2 ^ k → clog n ≤ k := clog_spec n

example : clog 0 = 0 ∧ clog 1 = 0 ∧ clog 2 = 1 ∧ clog 3 = 2 ∧ clog 4 = 2 ∧ clog 5 = 3 ∧ clog 1024 = 10 := by decide +kernel

/-- C102. What is counted is what the parser does. -/
theorem lookups_counted (sc : Schema) (cur : Cursor) (name : Bytes) :
    (enterM sc cur name).1 = enter stdSearcher sc cur name
    ∧ (find_flagM sc cur name).1 = find_flag stdSearcher sc cur name
    ∧ (resolve_flagM sc cur name).1 = resolve_flag stdSearcher sc cur name :=
  ⟨enterM_fst .., find_flagM_fst .., resolve_flagM_fst ..⟩

/-- C102. The exact number of comparisons for one more word: those of the binary search among all commands. If some command
begins with the words, then also one for every such command except one, and one more if there is a command in front of them. -/
theorem word_comparisons {sc : Schema} (hc : Compiled sc) {words : Path} (hr : Reach sc.cmds words) (name : Bytes) :
    (enterM sc (cursorOf sc.cmds words) name).2 = probes sc.cmds.length +
      (if matching sc.cmds (words ++ [name]) = 0 then 0
       else matching sc.cmds (words ++ [name]) - 1 + if atFront sc.cmds (words ++ [name]) then 0 else 1) := by
  unfold enterM
  rw [key_eq hr]
  simp only []
  rw [binarySearchM_eq]
  have hpart : Partitioned (fun c : Command => compare_prefix c.path words name) sc.cmds := by
    have := hc.sorted.partitioned (words ++ [name])
    have hf : (fun c : Command => compare_prefix c.path words name) = fun c => prefixCmp (words ++ [name]) c.path := by
      funext c; rw [compare_prefix_eq]
    rw [hf]; exact this
  cases hb : binarySearch (fun c : Command => compare_prefix c.path words name) sc.cmds with
  | none =>
    have h0 : matching sc.cmds (words ++ [name]) = 0 := by
      rw [matching, List.countP_eq_zero]
      intro c hcm
      rw [← matches_eq]
      exact stdSearcher.missing _ _ hpart hb c hcm
    simp only []
    rw [if_pos h0]; rfl
  | some i =>
    obtain ⟨c, hi, he⟩ := stdSearcher.found _ _ _ hpart hb
    rw [matches_eq] at he
    simp only []
    rw [backUpM_snd hc.sorted words name i c hi he]
    have h1 := matching_split hi he
    have h2 : matching (sc.cmds.drop (i + 1)) (words ++ [name]) = 0 := by
      rw [matching, List.countP_eq_zero]
      intro d hd
      obtain ⟨j, hj⟩ := List.mem_iff_getElem?.mp hd
      rw [List.getElem?_drop] at hj
      rw [← matches_eq, binarySearch_last _ _ hpart i hb _ d (by omega) hj]
      simp
    have hne : matching sc.cmds (words ++ [name]) ≠ 0 := by omega
    rw [if_neg hne, h1, h2]
    omega

/-- C102. The number of comparisons for one more word is logarithmic in the number of commands, but for the commands that begin
with the words: it is also at least and at most in proportion to those. -/
theorem word_fast_partial {sc : Schema} (hc : Compiled sc) {words : Path} (hr : Reach sc.cmds words) (name : Bytes) :
    (enterM sc (cursorOf sc.cmds words) name).2 ≤ clog sc.cmds.length + 1 + matching sc.cmds (words ++ [name])
    ∧ matching sc.cmds (words ++ [name]) ≤ (enterM sc (cursorOf sc.cmds words) name).2 := by
  rw [word_comparisons hc hr]
  have h : matching sc.cmds (words ++ [name]) ≤ sc.cmds.length := List.countP_le_length
  unfold probes
  constructor
  · split <;> split <;> first | omega | (split <;> omega)
  · split <;> split <;> first | omega | (split <;> omega)

/-- C102. Whichever of the matching commands a search finds: backing up from it compares at most once per matching command. -/
theorem backing_up_bounded {sc : Schema} (hc : Compiled sc) (words : Path) (name : Bytes) (i : Nat) (c : Command)
    (hi : sc.cmds[i]? = some c) (hp : words ++ [name] <+: c.path) :
    (backUpM sc words name i).2 ≤ matching sc.cmds (words ++ [name]) := by
  rw [← List.isPrefixOf_iff_prefix] at hp
  rw [backUpM_snd hc.sorted words name i c hi hp, matching_split hi hp]
  split <;> omega

/-- C102. A word that no command continues with is rejected with logarithmically many comparisons. -/
theorem unknown_word_fast {sc : Schema} (hc : Compiled sc) {words : Path} (hr : Reach sc.cmds words) (name : Bytes)
    (hn : ∀ c ∈ sc.cmds, ¬ words ++ [name] <+: c.path) :
    (enterM sc (cursorOf sc.cmds words) name).2 ≤ clog sc.cmds.length + 1 := by
  have h0 : matching sc.cmds (words ++ [name]) = 0 := by
    rw [matching, List.countP_eq_zero]
    intro c hcm
    rw [List.isPrefixOf_iff_prefix]
    exact hn c hcm
  have := (word_fast_partial hc hr name).1
  omega

/-- Commands `a`, `a a`, `a a a`, … -/
def chain (n : Nat) : List Command := (List.range n).map fun i => { path := List.replicate (i + 1) [0x61], flags := [] }

theorem chain_distinct (n : Nat) : ((chain n).map (·.path)).Nodup := by
  rw [chain, List.map_map, List.nodup_iff_pairwise_ne, List.pairwise_map]
  refine List.Pairwise.imp ?_ List.pairwise_lt_range
  intro a b hab he
  have := congrArg List.length he
  simp at this
  omega

theorem matching_compile (so : Sorter) (cs : List Command) (words : Path) :
    matching (compile so cs).cmds words = matching cs words := by
  have h := (so.perm (fun a b : Command => cmpPath a.path b.path)
    (cs.map fun c => { c with flags := FlagSet_compile so c.flags })).countP_eq (fun c => words.isPrefixOf c.path)
  rw [List.countP_map] at h
  exact h

theorem length_compile (so : Sorter) (cs : List Command) : (compile so cs).cmds.length = cs.length := by
  have h := (so.perm (fun a b : Command => cmpPath a.path b.path)
    (cs.map fun c => { c with flags := FlagSet_compile so c.flags })).length_eq
  rw [List.length_map] at h
  exact h

theorem matching_chain (n : Nat) : matching (chain n) [[0x61]] = n := by
  rw [matching, List.countP_eq_length.mpr]
  · simp [chain]
  · intro c hc
    obtain ⟨i, _, rfl⟩ := List.mem_map.mp hc
    rw [List.isPrefixOf_iff_prefix]
    exact ⟨List.replicate i [0x61], rfl⟩

/-- C102. The claim of the code does not hold: entering the first word can take as many comparisons as there are commands,
although no two have the same path. -/
theorem word_not_logarithmic (so : Sorter) (n : Nat) :
    (compile so (chain n)).cmds.length = n ∧ ((chain n).map (·.path)).Nodup
    ∧ n ≤ (enterM (compile so (chain n)) (Cursor_with (compile so (chain n))) [0x61]).2 := by
  refine ⟨by rw [length_compile]; simp [chain], chain_distinct n, ?_⟩
  have h := (word_fast_partial (compile_compiled so (chain n)) (words := []) (.inl rfl) [0x61]).2
  rw [cursor_with_eq]
  rw [List.nil_append, matching_compile, matching_chain] at h
  exact h

theorem pow_beats (c : Nat) : c * (2 * c + 1) < 2 ^ (2 * c) := by
  induction c with
  | zero => decide
  | succ c ih =>
    have e : 2 ^ (2 * (c + 1)) = 4 * 2 ^ (2 * c) := by rw [show 2 * (c + 1) = 2 * c + 1 + 1 by omega, Nat.pow_succ, Nat.pow_succ]; omega
    rw [e]
    rcases Nat.lt_or_ge c 1 with h | h
    · have : c = 0 := by omega
      subst this; decide
    · have h1 : 4 * (c * (2 * c + 1)) + 4 ≤ 4 * 2 ^ (2 * c) := by omega
      have h2 : (c + 1) * (2 * (c + 1) + 1) = c * (2 * c + 1) + 4 * c + 3 := by grind
      have h3 : 3 * c ≤ c * (2 * c + 1) := by
        rw [Nat.mul_comm 3 c]; exact Nat.mul_le_mul_left c (by omega)
      rw [h2]
      generalize c * (2 * c + 1) = x at *
      generalize 2 ^ (2 * c) = y at *
      omega

/-- C102. No factor makes the logarithm a bound: for each there are commands for which one word takes longer. -/
theorem word_no_factor (so : Sorter) (k : Nat) : ∃ cs : List Command, (cs.map (·.path)).Nodup
    ∧ k * (clog cs.length + 1) < (enterM (compile so cs) (Cursor_with (compile so cs)) [0x61]).2 := by
  refine ⟨chain (2 ^ (2 * k)), chain_distinct _, ?_⟩
  obtain ⟨_, _, h⟩ := word_not_logarithmic so (2 ^ (2 * k))
  have hl : (chain (2 ^ (2 * k))).length = 2 ^ (2 * k) := by simp [chain]
  have hcl : clog (2 ^ (2 * k)) ≤ 2 * k := (clog_spec _).2 _ (Nat.le_refl _)
  rw [hl]
  refine Nat.lt_of_lt_of_le (Nat.lt_of_le_of_lt (Nat.mul_le_mul_left k (Nat.succ_le_succ hcl)) (pow_beats k)) h

/-- C102. Looking for a flag takes no more comparisons than binary searches among the flags of every command in scope, and exactly
these if there is no such flag. -/
theorem flag_comparisons {sc : Schema} (hc : Compiled sc) {words : Path} {i : Nat} (ha : anchor sc.cmds words = some i)
    (name : Bytes) :
    (find_flagM sc (cursorOf sc.cmds words) name).2 ≤ ((inScope sc.cmds i).map fun c => probes c.flags.length).sum
    ∧ ((find_flagM sc (cursorOf sc.cmds words) name).1 = some none →
        (find_flagM sc (cursorOf sc.cmds words) name).2 = ((inScope sc.cmds i).map fun c => probes c.flags.length).sum) := by
  obtain ⟨⟨a, hi, _⟩, _⟩ := anchor_some.mp ha
  have hlt := (List.getElem?_eq_some_iff.mp hi).1
  have e : find_flagM sc (cursorOf sc.cmds words) name = findLoopM sc name (sc.cmds.length + 1) (some i) := by
    rw [find_flagM, cursorOf, ha]; rfl
  rw [e]
  exact findLoopM_snd hc name i _ (by omega) a hi

/-- C102. If no two commands have the same path and none has more than `F` flags, a flag after some words takes at most two
comparisons per step of the logarithm of `F`, for each of these words and two more commands: with and without `no-`. -/
theorem flag_fast {sc : Schema} (hc : Compiled sc) (hd : (sc.cmds.map (·.path)).Nodup) (F : Nat)
    (hF : ∀ c ∈ sc.cmds, c.flags.length ≤ F) (words : Path) (name : Bytes) :
    (resolve_flagM sc (cursorOf sc.cmds words) name).2 ≤ 2 * ((words.length + 2) * (clog F + 1)) := by
  have one : ∀ nm, (find_flagM sc (cursorOf sc.cmds words) nm).2 ≤ (words.length + 2) * (clog F + 1) := by
    intro nm
    cases ha : anchor sc.cmds words with
    | none =>
      rw [find_flagM, cursorOf, ha]
      exact Nat.zero_le _
    | some i =>
      refine Nat.le_trans (flag_comparisons hc ha nm).1 ?_
      have h1 := flagProbes_le (inScope sc.cmds i) F fun c hcm => by
        rw [inScope] at hcm
        exact hF c (List.mem_of_mem_take (List.mem_filter.mp hcm).1)
      have h2 := inScope_length hd ha
      have h3 : probes F ≤ clog F + 1 := by unfold probes; split <;> omega
      exact Nat.le_trans h1 (Nat.mul_le_mul h2 h3)
  have h1 := one name
  unfold resolve_flagM
  revert h1
  generalize find_flagM sc (cursorOf sc.cmds words) name = r
  obtain ⟨r, n⟩ := r
  intro h1
  simp only [] at h1
  cases r with
  | none => simp only []; omega
  | some o =>
    cases o with
    | some v => simp only []; omega
    | none =>
      cases stripPrefix sNo name with
      | none => simp only []; omega
      | some st =>
        have h2 := one st
        simp only []
        omega

/-! ## Examples -/

/-- `list`, `remote add` with flags `f`, `g`, `h`, and `remote del`. -/
def lookupExample : Schema where
  cmds := [⟨[[0x6c]], [], none⟩, ⟨[[0x72], [0x61]], [⟨[0x66], .set, none⟩, ⟨[0x67], .set, none⟩, ⟨[0x68], .toggle, none⟩], none⟩, ⟨[[0x72], [0x64]], [], none⟩]
  ups := [none, none, none]

/-- The hypotheses are met, with costs as stated: `remote` compares 2 + 1 times in the search, once with `remote add` and once
with `list`; an unknown flag after it compares three times, and six times if it begins with `no-`. -/
example : Compiled lookupExample ∧ (lookupExample.cmds.map (·.path)).Nodup
    ∧ (enterM lookupExample (Cursor_with lookupExample) [0x72]).2 = 5
    ∧ matching lookupExample.cmds [[0x72]] = 2 ∧ atFront lookupExample.cmds [[0x72]] = false
    ∧ Reach lookupExample.cmds [[0x72]]
    ∧ anchor lookupExample.cmds [[0x72]] = some 1
    ∧ (resolve_flagM lookupExample (cursorOf lookupExample.cmds [[0x72]]) [0x78]).2 = 3
    ∧ (resolve_flagM lookupExample (cursorOf lookupExample.cmds [[0x72]]) [0x6e, 0x6f, 0x2d, 0x78]).2 = 6 := by
  refine ⟨⟨?_, ?_, ?_⟩, ?_, by decide +kernel, by decide +kernel, by decide +kernel, .inr (by decide +kernel), by decide +kernel,
    by decide +kernel, by decide +kernel⟩
  · unfold Sorted; decide +kernel
  · decide +kernel
  · decide +kernel
  · decide +kernel

example : (enterM lookupExample (Cursor_with lookupExample) [0x78]).2 = 3 := by decide +kernel

/-- The hypotheses of `word_fast_partial`, `backing_up_bounded` and `unknown_word_fast`, as instances. -/
example : (enterM lookupExample (Cursor_with lookupExample) [0x72]).2 ≤ 5 ∧ (backUpM lookupExample [] [0x72] 2).2 ≤ 2
    ∧ (enterM lookupExample (cursorOf lookupExample.cmds [[0x72]]) [0x78]).2 ≤ 3 := by
  have hc : Compiled lookupExample := by
    refine ⟨?_, by decide +kernel, by decide +kernel⟩
    unfold Sorted; decide +kernel
  have h1 := (word_fast_partial hc (.inl rfl) [0x72]).1
  have h2 := backing_up_bounded hc [] [0x72] 2 ⟨[[0x72], [0x64]], [], none⟩ rfl (by decide +kernel)
  have h3 := unknown_word_fast hc (words := [[0x72]]) (.inr (by decide +kernel)) [0x78] (by decide +kernel)
  have m : matching lookupExample.cmds ([] ++ [[0x72]]) = 2 := by decide +kernel
  have k : clog lookupExample.cmds.length = 2 := by decide +kernel
  rw [m] at h1 h2
  rw [k] at h1 h3
  exact ⟨h1, h2, h3⟩

end Verif.Args
