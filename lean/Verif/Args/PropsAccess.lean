import Verif.Args.LemmasAccess
/-! # Property theorems: reading a schema (C115) -/
namespace Verif.Args

variable {σ R α : Type}

/-- C115. Whatever is given on the command line and whatever the caller's reports do: every place that a report names can be read
with `command_at` and `flag_at`, and holds what the report is about; so can the command that was selected. -/
theorem reported_places (so : Sorter) (se : Searcher) (cs : List Command) (h : σ → Event → σ × Option R) (args : List Bytes)
    (s : σ) :
    (∃ log stopped, (parse (logged h) se (compile so cs) args (s, [])).log = some (log, stopped)
      ∧ ∀ e ∈ log, Placed (compile so cs) e)
    ∧ ∀ s' i, parse h se (compile so cs) args s = .ok s' i → ∃ cmd, command_at (compile so cs) i = some cmd := by
  constructor
  · obtain ⟨find, hf, log, stopped, hl, rest, hr, _⟩ := reports_in_order so se cs σ R h args s
    refine ⟨log, stopped, hl, fun e he => ?_⟩
    have hm : e ∈ events (compile so cs).cmds (items (compile so cs).cmds find [] true true args) := by
      rw [hr]; exact List.mem_append_left _ he
    rw [events, List.mem_append] at hm
    rcases hm with hm | hm
    · obtain ⟨it, hit, hev⟩ := List.mem_filterMap.mp hm
      cases it with
      | report used e' =>
        cases hev
        exact items_placed hf _ _ _ _ used e hit
      | command _ => cases hev
      | terminator => cases hev
    · unfold endEvents at hm
      split at hm
      · rw [List.mem_singleton] at hm; subst hm; exact selected_place ‹_›
      · cases hm
  · intro s' i hp
    obtain ⟨find, hf, hq⟩ := parse_refines so se cs
    rw [hq, specResult] at hp
    split at hp
    · cases hp
    · split at hp
      · cases hp; exact selected_place ‹_›
      · cases hp

/-- C115. What was registered is what can be read: the places from 0 to the length hold exactly the given commands, each with
exactly its flags, and all other places panic. -/
theorem registered_places (so : Sorter) (cs : List Command) :
    (compile so cs).len = cs.length
    ∧ ((compile so cs).is_empty = true ↔ cs = [])
    ∧ (∀ i, (command_at (compile so cs) i).isSome = true ↔ i < cs.length)
    ∧ (∃ l : List Command, l.Perm cs ∧ l.length = (compile so cs).len
      ∧ ∀ i c, l[i]? = some c → ∃ d, command_at (compile so cs) i = some d ∧ d.path = c.path ∧ d.help_short = c.help_short
        ∧ FlagSet_len d.flags = c.flags.length
        ∧ (FlagSet_is_empty d.flags = true ↔ c.flags = [])
        ∧ (∃ fs : List Flag, fs.Perm c.flags ∧ ∀ j, flag_at (compile so cs) (i, j) = fs[j]?)) := by
  have hp := so.perm (fun a b : Command => cmpPath a.path b.path)
    (cs.map fun c => { c with flags := FlagSet_compile so c.flags })
  have hl : (compile so cs).cmds.length = cs.length := by
    have := hp.length_eq
    rw [List.length_map] at this
    exact this
  refine ⟨hl, ?_, fun i => ?_, ?_⟩
  · show (compile so cs).cmds.isEmpty = true ↔ _
    rw [List.isEmpty_iff, ← List.length_eq_zero_iff, ← List.length_eq_zero_iff, hl]
  · show ((compile so cs).cmds[i]?).isSome = true ↔ _
    rw [← hl]; simp
  · -- undo the map along the permutation
    obtain ⟨l, h1, h2⟩ := perm_unmap _ hp cs rfl
    have h2' : (compile so cs).cmds = l.map fun c => { c with flags := FlagSet_compile so c.flags } := h2
    refine ⟨l, h1, by rw [h1.length_eq]; exact hl.symm, fun i c hc => ?_⟩
    have hd : command_at (compile so cs) i = some { c with flags := FlagSet_compile so c.flags } := by
      rw [command_at, h2', List.getElem?_map, hc]; rfl
    have hperm : (FlagSet_compile so c.flags).Perm c.flags := so.perm _ _
    refine ⟨_, hd, rfl, rfl, hperm.length_eq, ?_, FlagSet_compile so c.flags, hperm, fun j => ?_⟩
    · show (FlagSet_compile so c.flags).isEmpty = true ↔ _
      rw [List.isEmpty_iff, ← List.length_eq_zero_iff, ← List.length_eq_zero_iff, hperm.length_eq]
    · rw [flag_at, hd]; rfl

/-- C115. However iterators are made, cloned and advanced: each goes through the commands in the order of their places, from 0 or
from the place it was asked to begin at, and then yields nothing any more; clones go on from where the original was, and neither
affects the other. Only a beginning behind the end panics. -/
theorem iterators_are_places (sc : Schema) (ops : List IterOp) :
    iterRun sc [] ops = posRun (command_at sc) sc.len [] ops :=
  iterRun_eq sc ops [] [] ⟨rfl, fun i it p h => by cases h⟩

/-- C115. The same for the flags of a command: the `k`-th call yields the flag at place `k`, and nothing behind the last one. -/
theorem flag_iterator (fs : List Flag) (k : Nat) :
    ((Nat.repeat (fun it : SetIter Flag => it.next.2) k (FlagSet_iter fs)).next).1 = FlagSet_flag_at fs k := by
  have key : ∀ k, (Nat.repeat (fun it : SetIter Flag => it.next.2) k (FlagSet_iter fs)).rest = fs.drop k := by
    intro k
    induction k with
    | zero => rfl
    | succ k ih =>
      rw [Nat.repeat, SetIter.next]
      by_cases hk : k < fs.length
      · rw [ih, List.drop_eq_getElem_cons hk]
      · rw [ih, List.drop_eq_nil_of_le (Nat.le_of_not_lt hk), List.drop_eq_nil_of_le (by omega)]
  rw [SetIter.next, key k]
  unfold FlagSet_flag_at
  by_cases hk : k < fs.length
  · rw [List.drop_eq_getElem_cons hk, List.getElem?_eq_getElem hk]
  · rw [List.drop_eq_nil_of_le (Nat.le_of_not_lt hk), List.getElem?_eq_none (Nat.le_of_not_lt hk)]

/-- C115. Whatever the caller's closure does, whether it is consistent or not: `search_by` never goes out of bounds; it succeeds only
with a place at which the closure said `Equal`, when it was called last; and the place of a failure is one at which an element
could be inserted. It calls the closure once per step of the logarithm of the length, and once more. -/
theorem search_by_safe (f : σ → α → Ordering × σ) (l : List α) (s : σ) :
    ∃ r s', search_by f l s = some (r, s')
      ∧ (∀ i, r = .ok i → ∃ a t, l[i]? = some a ∧ f t a = (.eq, s'))
      ∧ (∀ i, r = .error i → i ≤ l.length)
      ∧ search_by (counting f) l (s, 0) = some (r, (s', probes l.length)) := by
  by_cases h0 : l.length = 0
  · refine ⟨.error 0, s, by rw [search_by, if_pos h0], ?_, ?_, by rw [search_by, if_pos h0, h0]; rfl⟩
    · intro i h; cases h
    · intro i h; cases h; omega
  · obtain ⟨i, t, h1, h2⟩ := searchLoop_run f l s 0 l.length (by omega) (by omega)
    have h3 := searchLoop_counting f l s 0 0 l.length (by omega)
    rw [h1] at h3
    have hi := List.getElem?_eq_getElem h2
    have hpr : probes l.length = clog l.length + 1 := by rw [probes, if_neg h0]
    have e1 : search_by f l s = if (f t l[i]).1 = .eq then some (.ok i, (f t l[i]).2)
        else some (.error (i + if (f t l[i]).1 = .lt then 1 else 0), (f t l[i]).2) := by
      rw [search_by, if_neg h0, h1]
      simp only [hi]
    have e2 : search_by (counting f) l (s, 0) = if (f t l[i]).1 = .eq then some (.ok i, ((f t l[i]).2, probes l.length))
        else some (.error (i + if (f t l[i]).1 = .lt then 1 else 0), ((f t l[i]).2, probes l.length)) := by
      rw [search_by, if_neg h0, h3]
      simp only [Option.map_some, hi, counting, Nat.zero_add, hpr]
      rfl
    rw [e1, e2]
    by_cases he : (f t l[i]).1 = .eq
    · refine ⟨.ok i, (f t l[i]).2, by rw [if_pos he], ?_, ?_, by rw [if_pos he]⟩
      · intro j hj; cases hj; exact ⟨l[i], t, hi, by rw [← he]⟩
      · intro j hj; cases hj
    · refine ⟨_, _, by rw [if_neg he], ?_, ?_, by rw [if_neg he]⟩
      · intro j hj; cases hj
      · intro j hj; cases hj; split <;> omega

/-- C115. With a closure that says `Less` in front, then `Equal`, then `Greater`: `search_by` finds an element for which it says
`Equal` if there is one, and otherwise the place between those that are `Less` and those that are `Greater`. -/
theorem search_by_finds (f : α → Ordering) (l : List α) (hp : Partitioned f l) :
    (∃ i a, search_by (fun (_ : Unit) a => (f a, ())) l () = some (.ok i, ()) ∧ l[i]? = some a ∧ f a = .eq)
    ∨ (∃ i, search_by (fun (_ : Unit) a => (f a, ())) l () = some (.error i, ()) ∧ i ≤ l.length
        ∧ ∀ j a, l[j]? = some a → f a = if j < i then .lt else .gt) := by
  by_cases h0 : l.length = 0
  · refine .inr ⟨0, by rw [search_by, if_pos h0], Nat.zero_le _, fun j a h => ?_⟩
    rw [List.getElem?_eq_none (by omega)] at h; cases h
  · obtain ⟨i, h1, h2, h3, h4⟩ := bisect_spec f l hp 0 l.length (by omega) (by omega) (.inl rfl)
      fun j a hj ha => by rw [List.getElem?_eq_none (by omega)] at ha; cases ha
    have hi := List.getElem?_eq_getElem h2
    have e : search_by (fun (_ : Unit) a => (f a, ())) l () = if f l[i] = .eq then some (.ok i, ())
        else some (.error (i + if f l[i] = .lt then 1 else 0), ()) := by
      rw [search_by, if_neg h0, searchLoop_pure, h1]
      simp only [Option.map_some, hi]
    rw [e]
    have hpw := List.pairwise_iff_getElem.mp hp
    cases hc : f l[i] with
    | eq => exact .inl ⟨i, l[i], rfl, hi, hc⟩
    | lt =>
      refine .inr ⟨i + 1, rfl, h2, fun j a ha => ?_⟩
      obtain ⟨hj, rfl⟩ := List.getElem?_eq_some_iff.mp ha
      rcases Nat.lt_trichotomy j i with hlt | rfl | hgt
      · rw [if_pos (by omega)]; exact (hpw j i hj h2 hlt).1 hc
      · rw [if_pos (by omega)]; exact hc
      · rw [if_neg (by omega)]; exact h4 j _ hgt ha
    | gt =>
      refine .inr ⟨i, rfl, Nat.le_of_lt h2, fun j a ha => ?_⟩
      obtain ⟨hj, rfl⟩ := List.getElem?_eq_some_iff.mp ha
      have : i = 0 := by
        rcases h3 with h3 | ⟨a, ha', hg⟩
        · exact h3
        · rw [hi] at ha'; cases ha'; exact absurd hc hg
      subst this
      rw [if_neg (by omega)]
      rcases Nat.eq_zero_or_pos j with rfl | hgt
      · exact hc
      · exact h4 j _ hgt ha

/-- C115. Searching a command by its path and a flag by its name: found if and only if registered. -/
theorem search_registered (so : Sorter) (cs : List Command) :
    (∀ path, (∃ i d, search_by (fun (_ : Unit) (c : Command) => (cmpPath c.path path, ())) (compile so cs).cmds () = some (.ok i, ())
        ∧ command_at (compile so cs) i = some d ∧ d.path = path) ↔ ∃ c ∈ cs, c.path = path)
    ∧ ∀ k c name, command_at (compile so cs) k = some c →
      ((∃ j fl, search_by (fun (_ : Unit) (fl : Flag) => (cmpStr fl.name name, ())) c.flags () = some (.ok j, ())
        ∧ flag_at (compile so cs) (k, j) = some fl ∧ fl.name = name) ↔ ∃ fl ∈ c.flags, fl.name = name) := by
  have hc := compile_compiled so cs
  constructor
  · intro path
    have hmem : (∃ c ∈ cs, c.path = path) ↔ ∃ c ∈ (compile so cs).cmds, c.path = path := by
      have := (compile_perm so cs).1.mem_iff (a := path)
      simp only [List.mem_map] at this
      exact this.symm
    rw [hmem]
    constructor
    · rintro ⟨i, d, _, h2, h3⟩
      exact ⟨d, List.mem_of_getElem? h2, h3⟩
    · rintro ⟨c, hcm, rfl⟩
      rcases search_by_finds _ _ (paths_partitioned hc.sorted c.path) with ⟨i, a, h1, h2, h3⟩ | ⟨i, h1, _, h3⟩
      · exact ⟨i, a, h1, h2, Std.LawfulEqCmp.eq_of_compare h3⟩
      · obtain ⟨j, hj⟩ := List.mem_iff_getElem?.mp hcm
        have := h3 j c hj
        rw [Std.ReflCmp.compare_self (cmp := cmpPath)] at this
        split at this <;> cases this
  · intro k c name hk
    have hf := hc.flags c (List.mem_of_getElem? hk)
    have hfl : ∀ j, flag_at (compile so cs) (k, j) = c.flags[j]? := fun j => by rw [flag_at, hk]; rfl
    constructor
    · rintro ⟨j, fl, _, h2, h3⟩
      rw [hfl] at h2
      exact ⟨fl, List.mem_of_getElem? h2, h3⟩
    · rintro ⟨fl, hm, rfl⟩
      rcases search_by_finds _ _ (names_partitioned c.flags fl.name hf) with ⟨i, a, h1, h2, h3⟩ | ⟨i, h1, _, h3⟩
      · exact ⟨i, a, h1, by rw [hfl]; exact h2, Std.LawfulEqCmp.eq_of_compare h3⟩
      · obtain ⟨j, hj⟩ := List.mem_iff_getElem?.mp hm
        have := h3 j fl hj
        rw [Std.ReflCmp.compare_self (cmp := cmpStr)] at this
        split at this <;> cases this

/-! ## Examples -/

/-- `reported_places`: reports for a flag of the command, one of its parent that is turned off, and one of the root. -/
example : (match parse record linearSearcher (compile insertSorter demo)
      [b "remote", b "add", b "--url=x", b "--no-verbose", b "--help", b "p"] [] with
    | .ok l i => some (l, i)
    | _ => none)
    = some ([.parse 2 0 2 (b "url") (b "x"), .toggle 1 0 2 (b "no-verbose") false, .set 0 0 2 (b "help"),
        .parameter 2 (some (b "p")), .parameter 2 none], 2)
    ∧ flag_at (compile insertSorter demo) (2, 0) = some ⟨b "url", .parse, none⟩
    ∧ flag_at (compile insertSorter demo) (1, 0) = some ⟨b "verbose", .toggle, none⟩
    ∧ flag_at (compile insertSorter demo) (1, 1) = none
    ∧ (command_at (compile insertSorter demo) 2).map (·.path) = some [b "remote", b "add"]
    ∧ command_at (compile insertSorter demo) 4 = none := by decide +kernel

/-- `iterators_are_places`: an iterator that is cloned half-way, one that begins at the last command, one that begins at the end,
and one that begins behind it. -/
example :
    (iterRun (compile insertSorter demo) [] [.iter, .next 0, .next 0, .clone 0, .next 0, .next 0, .next 0, .next 0, .next 1]).map
      (fun l => l.map fun o => o.map fun c => c.map fun c => c.path)
      = some [none, some (some []), some (some [b "remote"]), none, some (some [b "remote", b "add"]), some (some [b "remove"]),
          some none, some none, some (some [b "remote", b "add"])]
    ∧ (iterRun (compile insertSorter demo) [] [.iterFrom 3, .next 0, .next 0]).map
      (fun l => l.map fun o => o.map fun c => c.map fun c => c.path) = some [none, some (some [b "remove"]), some none]
    ∧ iterRun (compile insertSorter demo) [] [.iterFrom 4, .next 0] = some [none, some none]
    ∧ iterRun (compile insertSorter demo) [] [.iterFrom 5] = none :=
  ⟨by decide +kernel, by decide +kernel, by decide +kernel, by decide +kernel⟩

/-- `search_by_safe`, with a closure that contradicts itself: it says `Less`, `Equal`, `Less`, `Equal`, … whatever it is given. -/
example : (search_by (fun (n : Nat) (_ : Nat) => (if n % 2 = 0 then .lt else .eq, n + 1)) [7, 7, 7, 7] 0).map
      (fun r => (r.1.toOption, r.2)) = some (none, 3)
    ∧ (search_by (fun (n : Nat) (_ : Nat) => (if n % 2 = 0 then .lt else .eq, n + 1)) [7, 7] 0).map
      (fun r => (r.1.toOption, r.2)) = some (some 1, 2) := by decide +kernel

/-- `search_by_finds`: 4 is there, and 5 would be between 4 and 6. -/
example : Partitioned (fun a => compare a 5) [2, 4, 6, 8]
    ∧ (match search_by (fun (_ : Unit) a => (compare a 4, ())) [2, 4, 6, 8] () with | some (.ok i, _) => i == 1 | _ => false) = true
    ∧ (match search_by (fun (_ : Unit) a => (compare a 5, ())) [2, 4, 6, 8] () with | some (.error i, _) => i == 2 | _ => false) = true := by
  refine ⟨by unfold Partitioned; decide, by decide +kernel, by decide +kernel⟩

end Verif.Args
