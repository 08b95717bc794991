import Verif.Args.Props
/-! # Property theorems: flags in complete command sets (C20)

C20 fails where the command words so far are no registered path (`flag_of_unselected_command`). This cannot happen if the
registered paths are closed under prefixes, that is, if there is a command at every node of the command tree. For such
command sets C20 holds of every run. -/
namespace Verif.Args

/-- There is a command at every node of the tree, including the root. -/
def Complete (cs : List Command) : Prop :=
  (∃ d ∈ cs, d.path = []) ∧ ∀ c ∈ cs, ∀ p, p <+: c.path → ∃ d ∈ cs, d.path = p

/-! ## Lemmas -/

/-- The command words taken at any time in a run are the start of some registered path. -/
theorem words_extend (S : List Command) (find : Path → Bytes → Option (Nat × Nat)) (args : List Bytes) (words : Path)
    (cmds flags : Bool) : (∃ c ∈ S, words <+: c.path) →
    ∀ before rest, items S find words cmds flags args = before ++ rest →
      ∃ c ∈ S, words ++ commandWords before <+: c.path := by
  refine items_induct S find (fun words _ _ _ its => (∃ c ∈ S, words <+: c.path) →
    ∀ before rest, its = before ++ rest → ∃ c ∈ S, words ++ commandWords before <+: c.path)
    ?_ ?_ ?_ ?_ ?_ words cmds flags args
  · intro w c f hw before rest h
    cases before with
    | nil => simpa [commandWords] using hw
    | cons b before => cases h
  · intro w c a r _ ih hw before rest h
    cases before with
    | nil => simpa [commandWords] using hw
    | cons b before =>
      rw [List.cons_append, List.cons.injEq] at h
      obtain ⟨rfl, h⟩ := h
      exact ih hw before rest h
  · intro w f a r _ hx _ ih hw before rest h
    cases before with
    | nil => simpa [commandWords] using hw
    | cons b before =>
      rw [List.cons_append, List.cons.injEq] at h
      obtain ⟨rfl, h⟩ := h
      have hw' : ∃ c ∈ S, w ++ [a] <+: c.path := by
        unfold Extends at hx
        rw [List.any_eq_true] at hx
        obtain ⟨c, hc, hp⟩ := hx
        exact ⟨c, hc, List.isPrefixOf_iff_prefix.mp hp⟩
      obtain ⟨c, hc, hp⟩ := ih hw' before rest h
      have e : commandWords (.command a :: before) = a :: commandWords before := rfl
      refine ⟨c, hc, ?_⟩
      rw [e]
      simpa using hp
  · intro w c f a r _ ih hw before rest h
    cases before with
    | nil => simpa [commandWords] using hw
    | cons b before =>
      rw [List.cons_append, List.cons.injEq] at h
      obtain ⟨hb, h⟩ := h
      have e : commandWords (b :: before) = commandWords before := by rw [← hb]; rfl
      rw [e]
      exact ih hw before rest h
  · intro w c a used e r _ _ ih hw before rest h
    cases before with
    | nil => simpa [commandWords] using hw
    | cons b before =>
      rw [List.cons_append, List.cons.injEq] at h
      obtain ⟨hb, h⟩ := h
      have e : commandWords (b :: before) = commandWords before := by rw [← hb]; rfl
      rw [e]
      exact ih hw before rest h

/-! ## Theorem -/

/-- **C20 (partial).** If there is a command at every node of the tree, then in every run a flag is reported only to a command
whose path is a prefix of the command words before it. This command defines the flag, under the name as given or without
its `no-`, and no command on the way with a longer path does. Missing: command sets with gaps. -/
theorem flags_on_path_complete_partial (so : Sorter) (se : Searcher) (cs : List Command) (hd : (cs.map (·.path)).Nodup)
    (hcomplete : Complete cs) :
    ∃ find, FlagLookup (compile so cs).cmds find ∧
      (∀ (σ R : Type) (h : σ → Event → σ × Option R) (args : List Bytes) (s : σ),
        parse h se (compile so cs) args s =
          specResult h s (compile so cs).cmds (items (compile so cs).cmds find [] true true args)) ∧
      ∀ args before used e after,
        items (compile so cs).cmds find [] true true args = before ++ .report used e :: after →
        ∀ cc ff, (∃ at_ n, e = .set cc ff at_ n) ∨ (∃ at_ n b, e = .toggle cc ff at_ n b) ∨
          (∃ at_ n v, e = .parse cc ff at_ n v) →
        ∃ a given v c fl, used.head? = some a ∧ shape a = .long given v ∧
          (given = fl.name ∨ given = noDash ++ fl.name) ∧
          (compile so cs).cmds[cc]? = some c ∧ c.flags[ff]? = some fl ∧
          c.path <+: commandWords before ∧
          ∀ d ∈ (compile so cs).cmds, d.path <+: commandWords before → hasFlag fl.name d = true →
            d.path.length ≤ c.path.length := by
  obtain ⟨find, hf, href⟩ := parse_refines so se cs
  refine ⟨find, hf, href, ?_⟩
  intro args before used e after hi cc ff he
  obtain ⟨given, v, neg, ⟨a, ha, hs⟩, hr⟩ := flag_reports_come_from_lookup _ find [] true true args before used e after hi cc ff he
  rw [List.nil_append] at hr
  have hperm := (compile_perm so cs).1
  have hroot : ∃ c ∈ (compile so cs).cmds, [] <+: c.path := by
    obtain ⟨d, hd', _⟩ := hcomplete.1
    have : d.path ∈ (compile so cs).cmds.map (·.path) := hperm.mem_iff.mpr (List.mem_map_of_mem hd')
    obtain ⟨c, hc, _⟩ := List.mem_map.mp this
    exact ⟨c, hc, List.nil_prefix⟩
  have hw : ∃ c ∈ cs, c.path = commandWords before := by
    obtain ⟨c, hc, hp⟩ := words_extend _ find args [] true true hroot before _ hi
    have : c.path ∈ cs.map (·.path) := hperm.mem_iff.mp (List.mem_map_of_mem hc)
    obtain ⟨c', hc', hpp⟩ := List.mem_map.mp this
    exact hcomplete.2 c' hc' _ (by rw [hpp]; simpa using hp)
  have hlook : ∀ name, find (commandWords before) name = some (cc, ff) →
      (given = name ∨ given = noDash ++ name) → ∃ a given v c fl, used.head? = some a ∧ shape a = .long given v ∧
          (given = fl.name ∨ given = noDash ++ fl.name) ∧
          (compile so cs).cmds[cc]? = some c ∧ c.flags[ff]? = some fl ∧
          c.path <+: commandWords before ∧
          ∀ d ∈ (compile so cs).cmds, d.path <+: commandWords before → hasFlag fl.name d = true →
            d.path.length ≤ c.path.length := by
    intro name hn hg
    have hp := flags_on_path_partial so cs hd find hf _ hw name
    rw [hn] at hp
    obtain ⟨c, fl, h1, h2, h3, h4, h5⟩ := hp
    exact ⟨a, given, v, c, fl, ha, hs, by rw [h4]; exact hg, h1, h3, h2, by rw [h4]; exact h5⟩
  unfold resolve at hr
  cases hfind : find (commandWords before) given with
  | some x =>
    rw [hfind] at hr
    simp only [Option.some.injEq, Prod.mk.injEq] at hr
    exact hlook given (by rw [hfind, hr.1]) (Or.inl rfl)
  | none =>
    rw [hfind] at hr
    simp only at hr
    split at hr
    · rename_i bare
      cases hb : find (commandWords before) bare with
      | none => rw [hb] at hr; cases hr
      | some x =>
        rw [hb] at hr
        simp only [Option.map_some, Option.some.injEq, Prod.mk.injEq] at hr
        exact hlook bare (by rw [hb, hr.1]) (Or.inr rfl)
    · cases hr

/-! ## The hypotheses are met -/

/-- A root command, a command below it and one below that. -/
def tree : List Command :=
  [⟨[], [⟨b "verbose", .toggle, none⟩], none⟩, ⟨[b "foo"], [⟨b "bar", .set, none⟩], none⟩,
    ⟨[b "foo", b "baz"], [⟨b "bar", .set, none⟩], none⟩]
example : (tree.map (·.path)).Nodup := by decide +kernel
example : Complete tree := by
  refine ⟨⟨_, List.mem_cons_self, rfl⟩, ?_⟩
  intro c hc p hp
  simp only [tree, List.mem_cons, List.not_mem_nil, or_false] at hc
  rcases hc with rfl | rfl | rfl
  · exact ⟨_, List.mem_cons_self, (List.prefix_nil.mp hp).symm⟩
  · rcases List.prefix_cons_iff.mp hp with rfl | ⟨t, rfl, ht⟩
    · exact ⟨_, List.mem_cons_self, rfl⟩
    · rw [List.prefix_nil.mp ht]
      exact ⟨_, List.mem_cons_of_mem _ List.mem_cons_self, rfl⟩
  · rcases List.prefix_cons_iff.mp hp with rfl | ⟨t, rfl, ht⟩
    · exact ⟨_, List.mem_cons_self, rfl⟩
    · rcases List.prefix_cons_iff.mp ht with rfl | ⟨u, rfl, hu⟩
      · exact ⟨_, List.mem_cons_of_mem _ List.mem_cons_self, rfl⟩
      · rw [List.prefix_nil.mp hu]
        exact ⟨_, List.mem_cons_of_mem _ (List.mem_cons_of_mem _ List.mem_cons_self), rfl⟩
-- `--no-verbose` goes to the root, `--bar` to the innermost command.
#guard parse record linearSearcher (compile insertSorter tree) [b "foo", b "--no-verbose", b "baz", b "--bar"] [] =
  .ok [.toggle 0 0 1 (b "no-verbose") false, .set 2 0 2 (b "bar"), .parameter 2 none] 2

end Verif.Args
