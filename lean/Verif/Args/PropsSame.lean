import Verif.Args.LemmasSame
import Verif.Args.Props
import Verif.Args.ModelHelp
/-! # Properties: what a command line means does not depend on chance

C123. -/
namespace Verif.Args

/-- C123. The same commands and flags, given in any order and sorted by any sort that the standard library may use, make the same
schema, as long as their names are distinct. -/
theorem schema_same (so so' : Sorter) (cs ds : List Command) (hs : SameCommands cs ds) (hu : Unambiguous cs) :
    compile so cs = compile so' ds := compile_same so so' cs ds hs hu

/-- C123. And whatever binary search is used, and whatever the report objects do: every command line leads to the same reports,
in the same order, to the same objects, and to the same result. -/
theorem parse_same (so so' : Sorter) (se se' : Searcher) (cs ds : List Command) (hs : SameCommands cs ds) (hu : Unambiguous cs)
    (σ R : Type) (h : σ → Event → σ × Option R) (args : List Bytes) (s : σ) :
    parse h se (compile so cs) args s = parse h se' (compile so' ds) args s := by
  rw [← schema_same so so' cs ds hs hu]
  obtain ⟨find, hf, hp⟩ := parse_refines so se cs
  obtain ⟨find', hf', hp'⟩ := parse_refines so se' cs
  rw [hp, hp', lookup_unique (compile_names so cs hu.2) hf hf']

/-- C123. And to the same help, for every writer. -/
theorem help_same (so so' : Sorter) (cs ds : List Command) (hs : SameCommands cs ds) (hu : Unambiguous cs)
    {σ E : Type} (p : Help) (w : σ → Call → σ × Option E) (s : σ) :
    Help_help p w (compile so cs).cmds s = Help_help p w (compile so' ds).cmds s := by
  rw [schema_same so so' cs ds hs hu]

/-- Its hypotheses are met: the commands of the examples of C18 backwards. -/
example : SameCommands demo demo.reverse ∧ Unambiguous demo ∧ demo ≠ demo.reverse := by
  refine ⟨⟨demo.reverse, (List.reverse_perm _).symm, ?_⟩, by decide +kernel, by decide +kernel⟩
  have : ∀ l, Reflagged l l := by
    intro l
    induction l with
    | nil => exact .nil
    | cons c l ih => exact .cons _ _ _ _ rfl rfl (List.Perm.refl _) ih
  exact this _

/-- Two orders of flags, too. -/
example : SameCommands [⟨[], [⟨b "x", .set, none⟩, ⟨b "y", .toggle, none⟩], none⟩] [⟨[], [⟨b "y", .toggle, none⟩, ⟨b "x", .set, none⟩], none⟩] :=
  ⟨_, List.Perm.refl _, .cons _ _ _ _ rfl rfl (List.Perm.swap ..) .nil⟩

/-- C123. Names have to be distinct. Two flags with the same name: which one is reported depends on the order in which they were
given. -/
theorem flags_ambiguous : ∃ (so : Sorter) (se : Searcher) (cs ds : List Command), SameCommands cs ds
    ∧ parse record se (compile so cs) [b "--x"] [] ≠ parse record se (compile so ds) [b "--x"] [] := by
  refine ⟨insertSorter, linearSearcher, [⟨[], [⟨b "x", .set, none⟩, ⟨b "x", .toggle, none⟩], none⟩],
    [⟨[], [⟨b "x", .toggle, none⟩, ⟨b "x", .set, none⟩], none⟩], ⟨_, List.Perm.refl _, .cons _ _ _ _ rfl rfl (List.Perm.swap ..) .nil⟩, ?_⟩
  decide +kernel

/-- C123. Two commands with the same path: the flags of only one of them are known. -/
theorem commands_ambiguous : ∃ (so : Sorter) (se : Searcher) (cs ds : List Command), SameCommands cs ds
    ∧ parse record se (compile so cs) [b "--x"] [] ≠ parse record se (compile so ds) [b "--x"] [] := by
  refine ⟨insertSorter, linearSearcher, [⟨[], [⟨b "x", .set, none⟩], none⟩, ⟨[], [], none⟩],
    [⟨[], [], none⟩, ⟨[], [⟨b "x", .set, none⟩], none⟩],
    ⟨_, List.Perm.swap .., .cons _ _ _ _ rfl rfl (List.Perm.refl _) (.cons _ _ _ _ rfl rfl (List.Perm.refl _) .nil)⟩, ?_⟩
  decide +kernel

end Verif.Args
