import Verif.Args.ModelLookup
import Verif.Args.SpecLookup
import Verif.Args.LemmasParse
import Verif.Args.LemmasCost
/-! # Lemmas: the number of comparisons of a lookup -/
namespace Verif.Args

variable {α : Type}

theorem clog_spec (n : Nat) : n ≤ 2 ^ clog n ∧ ∀ k, n ≤ 2 ^ k → clog n ≤ k := by
  unfold clog
  split
  · exact ⟨by simpa using ‹n ≤ 1›, fun k _ => Nat.zero_le k⟩
  · have h0 : n - 1 ≠ 0 := by omega
    refine ⟨?_, fun k hk => ?_⟩
    · have := (Nat.log2_lt (k := Nat.log2 (n - 1) + 1) h0).mp (Nat.lt_succ_self _)
      omega
    · have := (Nat.log2_lt (k := k) h0).mpr (by omega)
      omega

theorem clog_step (n : Nat) (h : ¬ n ≤ 1) : clog n = clog (n - n / 2) + 1 := by
  have h1 := clog_spec n
  have h2 := clog_spec (n - n / 2)
  have a : clog n ≤ clog (n - n / 2) + 1 := h1.2 _ (by rw [Nat.pow_succ]; omega)
  have hp : 0 < clog n := by
    apply Nat.pos_of_ne_zero
    intro e; rw [e] at h1; simp at h1; omega
  obtain ⟨k, hk⟩ : ∃ k, clog n = k + 1 := ⟨clog n - 1, by omega⟩
  have b : clog (n - n / 2) ≤ k := h2.2 k (by
    have := h1.1; rw [hk, Nat.pow_succ] at this; omega)
  omega

theorem clog_mono {n m : Nat} (h : n ≤ m) : clog n ≤ clog m :=
  (clog_spec n).2 _ (Nat.le_trans h (clog_spec m).1)

theorem probes_mono {n m : Nat} (h : n ≤ m) : probes n ≤ probes m := by
  have := clog_mono h
  unfold probes
  split <;> split <;> omega

/-! ## The binary search -/

theorem bisectM_fst (f : α → Ordering) (l : List α) (base size : Nat) :
    (bisectM f l base size).1 = bisect f l base size := by
  induction size using Nat.strongRecOn generalizing base with
  | ind size ih =>
    rw [bisectM, bisect]
    by_cases h : size ≤ 1
    · rw [if_pos h, if_pos h]
    · rw [if_neg h, if_neg h]
      cases l[base + size / 2]? with
      | none => rfl
      | some a => exact ih (size - size / 2) (by omega) _

theorem bisectM_snd (f : α → Ordering) (l : List α) (base size : Nat) (h : base + size ≤ l.length) :
    (bisectM f l base size).2 = clog size := by
  induction size using Nat.strongRecOn generalizing base with
  | ind size ih =>
    rw [bisectM]
    by_cases hs : size ≤ 1
    · rw [if_pos hs]; simp [clog, hs]
    · rw [if_neg hs, List.getElem?_eq_getElem (by omega), clog_step size hs]
      simp only []
      rw [ih _ (by omega)]
      split <;> omega

theorem bisect_lt (f : α → Ordering) (l : List α) (base size : Nat) (hs : 0 < size) (h : base + size ≤ l.length) :
    ∃ i, bisect f l base size = some i ∧ i < l.length := by
  induction size using Nat.strongRecOn generalizing base with
  | ind size ih =>
    rw [bisect]
    by_cases hs' : size ≤ 1
    · rw [if_pos hs']; exact ⟨base, rfl, by omega⟩
    · rw [if_neg hs', List.getElem?_eq_getElem (by omega)]
      simp only []
      exact ih _ (by omega) _ (by omega) (by split <;> omega)

theorem binarySearchM_eq (f : α → Ordering) (l : List α) :
    binarySearchM f l = (binarySearch f l, probes l.length) := by
  unfold binarySearchM binarySearch probes
  by_cases h : l.length = 0
  · rw [if_pos h, if_pos h, if_pos h]
  · rw [if_neg h, if_neg h, if_neg h]
    obtain ⟨i, hi, hil⟩ := bisect_lt f l 0 l.length (by omega) (by omega)
    have e : bisectM f l 0 l.length = (some i, clog l.length) := by
      rw [← hi, ← bisectM_fst, ← bisectM_snd f l 0 l.length (by omega)]
    rw [e, hi]
    simp only [List.getElem?_eq_getElem hil]

/-- Everything behind what the search finds is greater. -/
theorem binarySearch_last (f : α → Ordering) (l : List α) (hp : Partitioned f l) (i : Nat) (h : binarySearch f l = some i)
    (j : Nat) (a : α) (hj : i < j) (ha : l[j]? = some a) : f a = .gt := by
  unfold binarySearch at h
  split at h
  · cases h
  · obtain ⟨i', hi, hil, _, h2⟩ := bisect_spec f l hp 0 l.length (by omega) (by omega) (.inl rfl)
      fun j a hj ha => by rw [List.getElem?_eq_none (by omega)] at ha; cases ha
    rw [hi] at h
    simp only [List.getElem?_eq_getElem hil] at h
    split at h
    · cases h; exact h2 j a hj ha
    · cases h

/-! ## Commands -/

theorem backUpM_fst (sc : Schema) (k : Path) (name : Bytes) (i : Nat) :
    (backUpM sc k name i).1 = backUp sc k name i := by
  induction i with
  | zero => rfl
  | succ i ih =>
    rw [backUpM, backUp]
    cases hc : sc.cmds[i]? with
    | none => rfl
    | some c =>
      simp only [Option.bind_eq_bind, Option.bind_some]
      split
      · exact ih
      · rfl

theorem enterM_fst (sc : Schema) (cur : Cursor) (name : Bytes) :
    (enterM sc cur name).1 = enter stdSearcher sc cur name := by
  unfold enterM enter
  cases hk : key sc cur with
  | none => rfl
  | some k =>
    simp only [Option.bind_eq_bind, Option.bind_some]
    rw [binarySearchM_eq]
    show _ = match binarySearch _ _ with | none => _ | some i => _
    cases hb : binarySearch (fun c : Command => compare_prefix c.path k name) sc.cmds with
    | none => rfl
    | some i =>
      simp only [backUpM_fst]
      cases backUp sc k name i <;> rfl

theorem matches_eq (k : Path) (name : Bytes) (c : Command) :
    compare_prefix c.path k name = .eq ↔ (k ++ [name]).isPrefixOf c.path = true := by
  rw [compare_prefix_eq, prefixCmp_eq_iff, List.isPrefixOf_iff_prefix]

theorem countP_take_succ (p : α → Bool) (l : List α) (i : Nat) (a : α) (h : l[i]? = some a) :
    (l.take (i + 1)).countP p = (l.take i).countP p + if p a then 1 else 0 := by
  rw [List.take_add_one, h, List.countP_append]
  simp [List.countP_cons]

/-- The walk from a matching command compares once for each matching command in front of it, and once more if there is another
command in front of those. -/
theorem backUpM_snd {sc : Schema} (hs : Sorted sc.cmds) (k : Path) (name : Bytes) (i : Nat) (c : Command)
    (hi : sc.cmds[i]? = some c) (hp : (k ++ [name]).isPrefixOf c.path = true) :
    (backUpM sc k name i).2 = matching (sc.cmds.take i) (k ++ [name])
      + if atFront sc.cmds (k ++ [name]) then 0 else 1 := by
  induction i generalizing c with
  | zero =>
    have : atFront sc.cmds (k ++ [name]) = true := by
      rw [atFront, List.head?_eq_getElem?, hi]; exact hp
    rw [this]; rfl
  | succ i ih =>
    have hlt : i + 1 < sc.cmds.length := (List.getElem?_eq_some_iff.mp hi).1
    obtain ⟨d, hd⟩ : ∃ d, sc.cmds[i]? = some d := ⟨sc.cmds[i]'(by omega), List.getElem?_eq_getElem _⟩
    rw [backUpM, hd]
    simp only []
    by_cases he : compare_prefix d.path k name = .eq
    · rw [if_pos he]
      rw [matches_eq] at he
      simp only []
      have h := countP_take_succ (fun c : Command => (k ++ [name]).isPrefixOf c.path) sc.cmds i d hd
      rw [he] at h
      rw [ih d hd he]
      unfold matching
      rw [h]
      simp only [if_true]
      omega
    · rw [if_neg he]
      rw [matches_eq] at he
      have hno : ∀ j e, j < i + 1 → sc.cmds[j]? = some e → ¬ (k ++ [name]).isPrefixOf e.path = true := by
        intro j e hj hje hpe
        rw [List.isPrefixOf_iff_prefix] at he hpe hp
        exact he (hs.contiguous hje hd hi (by omega) (by omega) hpe hp)
      have h0 : matching (sc.cmds.take (i + 1)) (k ++ [name]) = 0 := by
        rw [matching, List.countP_eq_zero]
        intro e hm
        obtain ⟨j, hj⟩ := List.mem_iff_getElem?.mp hm
        rw [List.getElem?_take] at hj
        split at hj
        · exact hno j e ‹_› hj
        · cases hj
      have hf : atFront sc.cmds (k ++ [name]) = false := by
        rw [atFront, List.head?_eq_getElem?]
        cases h0 : sc.cmds[0]? with
        | none => rfl
        | some e =>
          exact Bool.eq_false_iff.mpr (hno 0 e (by omega) h0)
      rw [h0, hf]; rfl

theorem matching_split {S : List Command} {words : Path} {i : Nat} {c : Command} (hi : S[i]? = some c)
    (hp : words.isPrefixOf c.path = true) :
    matching S words = matching (S.take i) words + 1 + matching (S.drop (i + 1)) words := by
  have e : S = S.take (i + 1) ++ S.drop (i + 1) := (List.take_append_drop _ _).symm
  have h := countP_take_succ (fun c : Command => words.isPrefixOf c.path) S i c hi
  rw [hp] at h
  have h3 : matching S words = matching (S.take (i + 1)) words + matching (S.drop (i + 1)) words := by
    conv => lhs; rw [e]
    exact List.countP_append ..
  rw [h3]
  simp only [matching] at *
  simp only [if_true] at h
  omega

theorem matching_zero {S : List Command} {words : Path} : matching S words = 0 ↔ Extends S words = false := by
  rw [matching, List.countP_eq_zero, Extends, List.any_eq_false]

/-! ## Flags -/

theorem findLoopM_fst (sc : Schema) (name : Bytes) (f : Nat) :
    ∀ o, (findLoopM sc name f o).1 = findLoop stdSearcher sc name f o := by
  induction f with
  | zero => intro o; cases o <;> rfl
  | succ f ih =>
    intro o
    cases o with
    | none => rfl
    | some idx =>
      rw [findLoopM, findLoop]
      cases hc : sc.cmds[idx]? with
      | none => rfl
      | some c =>
        simp only [Option.bind_eq_bind, Option.bind_some]
        rw [binarySearchM_eq]
        show _ = match binarySearch _ _ with | some v => _ | none => _
        cases hb : binarySearch (fun fl : Flag => cmpStr fl.name name) c.flags with
        | some v => rfl
        | none =>
          simp only []
          cases hu : up_from sc idx with
          | none => rfl
          | some up => exact ih up

theorem find_flagM_fst (sc : Schema) (cur : Cursor) (name : Bytes) :
    (find_flagM sc cur name).1 = find_flag stdSearcher sc cur name := findLoopM_fst _ _ _ _

theorem resolve_flagM_fst (sc : Schema) (cur : Cursor) (flag : Bytes) :
    (resolve_flagM sc cur flag).1 = resolve_flag stdSearcher sc cur flag := by
  unfold resolve_flagM resolve_flag
  have h := find_flagM_fst sc cur flag
  revert h
  generalize find_flagM sc cur flag = r
  obtain ⟨r, n⟩ := r
  intro h
  simp only [] at h
  rw [← h]
  cases r with
  | none => rfl
  | some o =>
    cases o with
    | some v => rfl
    | none =>
      simp only [Option.bind_eq_bind, Option.bind_some]
      cases stripPrefix sNo flag with
      | none => rfl
      | some s => simp only [find_flagM_fst]

/-- The comparisons for the flags of some commands. -/
def flagProbes (cs : List Command) : Nat := (cs.map fun c => probes c.flags.length).sum

theorem filter_take_skip (p : Command → Bool) (S : List Command) (v n : Nat) (hv : v ≤ n)
    (h : ∀ j c, v ≤ j → j < n → S[j]? = some c → p c = false) : (S.take n).filter p = (S.take v).filter p := by
  induction n with
  | zero => have : v = 0 := by omega
            rw [this]
  | succ n ih =>
    by_cases e : v = n + 1
    · rw [e]
    · rw [List.take_add_one, List.filter_append, ih (by omega) fun j c h1 h2 => h j c h1 (by omega)]
      cases hc : S[n]? with
      | none => simp
      | some c => simp [h n c (by omega) (by omega) hc]

/-- The commands in scope of one are itself and those in scope of its link. -/
theorem inScope_step {S : List Command} (hs : Sorted S) {i : Nat} {a : Command} (hi : S[i]? = some a) :
    inScope S i = (match upSpec S i with | none => [] | some v => inScope S v) ++ [a] := by
  have hu : upSpec S i = lastBelow S (fun d => d.path.isPrefixOf a.path) i := by rw [upSpec, hi]
  have h1 : inScope S i = ((S.take i).filter fun c => c.path.isPrefixOf a.path) ++ [a] := by
    rw [inScope, hi, List.take_add_one, hi, List.filter_append]
    have : a.path.isPrefixOf a.path = true := List.isPrefixOf_iff_prefix.mpr (List.prefix_refl _)
    simp [this]
  rw [h1]
  congr 1
  cases hv : upSpec S i with
  | none =>
    rw [hu, lastBelow_none] at hv
    simp only []
    rw [List.filter_eq_nil_iff]
    intro c hc
    obtain ⟨j, hj⟩ := List.mem_iff_getElem?.mp hc
    rw [List.getElem?_take] at hj
    split at hj
    · rw [hv j c ‹_› hj]; simp
    · cases hj
  | some v =>
    rw [hu, lastBelow_some] at hv
    obtain ⟨hvi, ⟨cv, hcv, hpv⟩, hmax⟩ := hv
    simp only []
    rw [filter_take_skip _ S (v + 1) i (by omega) fun j c h1 h2 hc => hmax j c (by omega) h2 hc]
    rw [inScope, hcv]
    apply List.filter_congr
    intro c hc
    obtain ⟨j, hj⟩ := List.mem_iff_getElem?.mp hc
    rw [List.getElem?_take] at hj
    split at hj
    · simp only [Option.map_some, Option.getD_some]
      rw [Bool.eq_iff_iff, List.isPrefixOf_iff_prefix, List.isPrefixOf_iff_prefix]
      rw [List.isPrefixOf_iff_prefix] at hpv
      constructor
      · intro h
        exact hs.contiguous hj hcv hi (by omega) (by omega) (List.prefix_refl _) h
      · intro h; exact h.trans hpv
    · cases hj

theorem flagProbes_append (a b : List Command) : flagProbes (a ++ b) = flagProbes a + flagProbes b := by
  simp [flagProbes]

/-- The comparisons of the loop: at most those for all commands in scope, and exactly those if there is no such flag. -/
theorem findLoopM_snd {sc : Schema} (hc : Compiled sc) (name : Bytes) (i f : Nat) (hf : i < f) (a : Command)
    (hi : sc.cmds[i]? = some a) :
    (findLoopM sc name f (some i)).2 ≤ flagProbes (inScope sc.cmds i)
    ∧ ((findLoopM sc name f (some i)).1 = some none → (findLoopM sc name f (some i)).2 = flagProbes (inScope sc.cmds i)) := by
  induction i using Nat.strongRecOn generalizing f a with
  | ind i ih =>
    obtain ⟨g, rfl⟩ : ∃ g, f = g + 1 := ⟨f - 1, by omega⟩
    have hlt : i < sc.cmds.length := (List.getElem?_eq_some_iff.mp hi).1
    rw [findLoopM, hi]
    simp only []
    rw [binarySearchM_eq, inScope_step hc.sorted hi, flagProbes_append]
    have hone : flagProbes [a] = probes a.flags.length := by simp [flagProbes]
    rw [hone]
    cases hb : binarySearch (fun fl : Flag => cmpStr fl.name name) a.flags with
    | some v => exact ⟨Nat.le_add_left _ _, fun h => by cases h⟩
    | none =>
      simp only []
      rw [up_from, hc.ups i hlt]
      simp only []
      cases hu : upSpec sc.cmds i with
      | none =>
        have e : findLoopM sc name g none = (some none, 0) := by cases g <;> rfl
        rw [e]
        exact ⟨by simp [flagProbes], fun _ => by simp [flagProbes]⟩
      | some v =>
        have hu' := hu
        rw [show upSpec sc.cmds i = lastBelow sc.cmds (fun d => d.path.isPrefixOf a.path) i by rw [upSpec, hi],
          lastBelow_some] at hu'
        obtain ⟨hvi, ⟨cv, hcv, _⟩, _⟩ := hu'
        obtain ⟨h1, h2⟩ := ih v hvi g (by omega) cv hcv
        simp only []
        exact ⟨by omega, fun h => by rw [h2 h]; omega⟩

theorem flagProbes_le (cs : List Command) (F : Nat) (h : ∀ c ∈ cs, c.flags.length ≤ F) :
    flagProbes cs ≤ cs.length * probes F := by
  induction cs with
  | nil => simp [flagProbes]
  | cons c cs ih =>
    have h1 := ih fun d hd => h d (List.mem_cons_of_mem _ hd)
    have h2 := probes_mono (h c List.mem_cons_self)
    have e : flagProbes (c :: cs) = probes c.flags.length + flagProbes cs := by simp [flagProbes]
    rw [e, List.length_cons, Nat.add_mul]
    omega

/-- If no two commands have the same path, at most two more commands than words are in scope. -/
theorem inScope_length {S : List Command} (hd : (S.map (·.path)).Nodup) {words : Path} {i : Nat}
    (ha : anchor S words = some i) : (inScope S i).length ≤ words.length + 2 := by
  obtain ⟨⟨a, hi, hp⟩, hmin⟩ := anchor_some.mp ha
  have h1 : inScope S i = ((S.take i).filter fun c => c.path.isPrefixOf a.path) ++ [a] := by
    rw [inScope, hi, List.take_add_one, hi, List.filter_append]
    have : a.path.isPrefixOf a.path = true := List.isPrefixOf_iff_prefix.mpr (List.prefix_refl _)
    simp [this]
  rw [h1, List.length_append, List.length_singleton]
  generalize hl : (S.take i).filter (fun c => c.path.isPrefixOf a.path) = l
  have hmem : ∀ c ∈ l, c.path <+: words := by
    intro c hc
    rw [← hl, List.mem_filter, List.isPrefixOf_iff_prefix] at hc
    obtain ⟨hc, hpc⟩ := hc
    obtain ⟨j, hj⟩ := List.mem_iff_getElem?.mp hc
    rw [List.getElem?_take] at hj
    split at hj
    · rcases List.prefix_or_prefix_of_prefix hpc hp with h | h
      · exact h
      · exact absurd h (hmin j c ‹_› hj)
    · cases hj
  have hnd : (l.map (·.path)).Nodup := by
    have hsub : l.Sublist S := by rw [← hl]; exact (List.filter_sublist).trans (List.take_sublist _ _)
    exact (hsub.map _).nodup hd
  have hnl : (l.map (·.path.length)).Nodup := by
    rw [List.nodup_iff_pairwise_ne, List.pairwise_map] at hnd ⊢
    refine List.Pairwise.imp_of_mem ?_ hnd
    intro c d hc hd' hne he
    apply hne
    have e1 := List.prefix_iff_eq_take.mp (hmem c hc)
    have e2 := List.prefix_iff_eq_take.mp (hmem d hd')
    rw [e1, e2, he]
  have := nodup_length (words.length + 1) (l.map (·.path.length)) hnl fun k hk => by
    obtain ⟨c, hc, rfl⟩ := List.mem_map.mp hk
    have := (hmem c hc).length_le
    omega
  rw [List.length_map] at this
  omega

end Verif.Args
