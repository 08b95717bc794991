import Verif.Args.LemmasTree
import Verif.Args.Props
/-! # Properties: the order of commands and flags

C103: layout.rs 138-140 says that the elements are ordered by a depth-first pre-order traversal of the tree, where a node is
directly followed by all its sub-nodes, and each level is in lexicographic order. -/
namespace Verif.Args

/-- A command as the schema stores it. -/
def stored (so : Sorter) (c : Command) : Command := { c with flags := FlagSet_compile so c.flags }

/-- C103. In whatever order the commands of an ordered tree are registered: the schema has them in depth-first pre-order. -/
theorem schema_preorder (so : Sorter) (t : CmdTree) (ht : t.Ordered) (cs : List Command) (hcs : cs.Perm (t.preorder [])) :
    (compile so cs).cmds = (t.preorder []).map (stored so) := by
  apply sorted_unique
  · exact (so.perm _ _).trans (hcs.map _)
  · exact (compile_compiled so cs).sorted
  · rw [List.pairwise_map]
    exact CmdTree.sorted [] t ht

/-- C103. Any commands are those of an ordered tree, as long as no two have the same path. -/
theorem has_tree (cs : List Command) (hd : (cs.map (·.path)).Nodup) :
    ∃ t : CmdTree, t.Ordered ∧ cs.Perm (t.preorder []) := by
  induction cs with
  | nil => exact ⟨.node none .nil, ⟨List.Pairwise.nil, trivial⟩, List.Perm.nil⟩
  | cons c cs ih =>
    rw [List.map_cons, List.nodup_cons] at hd
    obtain ⟨t, ho, hp⟩ := ih hd.2
    refine ⟨t.insert (c.flags, c.help_short) c.path, insert_ordered _ _ _ ho, ?_⟩
    have h := insert_preorder (c.flags, c.help_short) c.path [] t fun d hdm he => by
      apply hd.1
      rw [List.mem_map]
      exact ⟨d, hp.mem_iff.mpr hdm, by simpa using he⟩
    refine List.Perm.trans ?_ h.symm
    exact List.Perm.cons c hp

/-- C103. There is only one such tree order: the order of a schema does not depend on the order of registration. -/
theorem order_unique (so : Sorter) (cs ds : List Command) (hp : cs.Perm ds) (hd : (cs.map (·.path)).Nodup) :
    (compile so cs).cmds = (compile so ds).cmds := by
  obtain ⟨t, ho, ht⟩ := has_tree cs hd
  rw [schema_preorder so t ho cs ht, schema_preorder so t ho ds (hp.symm.trans ht)]

/-- C103. Each command is directly followed by all its sub-commands: those at the next so many places, and no others. (Also if
the same path is registered more than once.) -/
theorem subs_follow (so : Sorter) (cs : List Command) (i : Nat) (c : Command) (hi : (compile so cs).cmds[i]? = some c) :
    ∃ n, ∀ j d, (compile so cs).cmds[j]? = some d → ((c.path <+: d.path ∧ c.path ≠ d.path) → i < j ∧ j ≤ i + n)
      ∧ (i < j ∧ j ≤ i + n → c.path <+: d.path) := by
  have hs := (compile_compiled so cs).sorted
  generalize (compile so cs).cmds = S at *
  -- the last one that begins with the path
  have hlast : ∃ k, i ≤ k ∧ (∀ j d, i ≤ j → j ≤ k → S[j]? = some d → c.path <+: d.path)
      ∧ ∀ j d, k < j → S[j]? = some d → ¬ c.path <+: d.path := by
    cases hl : lastBelow S (fun d => c.path.isPrefixOf d.path) S.length with
    | none =>
      rw [lastBelow_none] at hl
      have := hl i c (List.getElem?_eq_some_iff.mp hi).1 hi
      rw [Bool.eq_false_iff] at this
      exact absurd (List.isPrefixOf_iff_prefix.mpr (List.prefix_refl _)) this
    | some k =>
      rw [lastBelow_some] at hl
      obtain ⟨hk, ⟨e, hke, hpe⟩, hmax⟩ := hl
      rw [List.isPrefixOf_iff_prefix] at hpe
      have hlt := (List.getElem?_eq_some_iff.mp hi).1
      have hik : i ≤ k := by
        apply Nat.le_of_not_lt
        intro h
        have := hmax i c h hlt hi
        rw [Bool.eq_false_iff] at this
        exact this (List.isPrefixOf_iff_prefix.mpr (List.prefix_refl _))
      refine ⟨k, hik, fun j d h1 h2 hj => hs.contiguous hi hj hke h1 h2 (List.prefix_refl _) hpe, fun j d h hj hp => ?_⟩
      have := hmax j d h (List.getElem?_eq_some_iff.mp hj).1 hj
      rw [Bool.eq_false_iff] at this
      exact this (List.isPrefixOf_iff_prefix.mpr hp)
  obtain ⟨k, hik, h1, h2⟩ := hlast
  refine ⟨k - i, fun j d hj => ⟨fun ⟨hp, hne⟩ => ⟨hs.before hi hj hp hne, ?_⟩, fun ⟨ha, hb⟩ => h1 j d (by omega) (by omega) hj⟩⟩
  apply Nat.le_of_not_lt
  intro h
  exact h2 j d (by omega) hj hp

/-- C103. Each level is in lexicographic order: of two commands below the same words, the one whose next word is less comes
first, and so does the one without a next word. -/
theorem levels_sorted (so : Sorter) (cs : List Command) (words : Path) (i j : Nat) (c d : Command) (x y : Path) (a b : Bytes)
    (hi : (compile so cs).cmds[i]? = some c) (hj : (compile so cs).cmds[j]? = some d) (hd : d.path = words ++ b :: y) :
    (c.path = words ++ a :: x → cmpStr a b = .lt → i < j) ∧ (c.path = words → i < j) := by
  have hs := (compile_compiled so cs).sorted
  have key : cmpPath c.path d.path = .lt → i < j := by
    intro hlt
    apply Nat.lt_of_not_le
    intro h
    exact hs.le hj hi h (Std.OrientedCmp.gt_of_lt hlt)
  constructor
  · intro hc hab
    exact key (by rw [hc, hd, cmpPath_append, cmpPath_cons, hab]; rfl)
  · intro hc
    refine key (lt_of_longer (m := b) ?_)
    rw [hc, hd]
    exact ⟨y, by simp⟩

/-- C103. The flags of each command are those that were given for it, in lexicographic order of their names. -/
theorem flags_sorted (so : Sorter) (cs : List Command) (c : Command) (hc : c ∈ (compile so cs).cmds) :
    (∃ c₀ ∈ cs, c₀.path = c.path ∧ c.flags.Perm c₀.flags)
    ∧ c.flags.Pairwise fun a b => cmpStr a.name b.name ≠ .gt := by
  refine ⟨?_, (compile_compiled so cs).flags c hc⟩
  have := (so.perm (fun a b : Command => cmpPath a.path b.path) _).mem_iff.mp hc
  rw [List.mem_map] at this
  obtain ⟨c0, h0, rfl⟩ := this
  exact ⟨c0, h0, rfl, so.perm _ _⟩

/-! ## Example -/

/-- `a`, with `a b` and `a b c`, and `b c` although there is no `b`. -/
def treeExample : CmdTree :=
  .node none (.cons [0x61] (.node (some ([], none)) (.cons [0x62] (.node (some ([], none))
    (.cons [0x63] (.node (some ([], none)) .nil) .nil)) .nil)) (.cons [0x62] (.node none (.cons [0x63]
      (.node (some ([], none)) .nil) .nil)) .nil))

example : treeExample.Ordered ∧ (treeExample.preorder []).map (·.path)
    = [[[0x61]], [[0x61], [0x62]], [[0x61], [0x62], [0x63]], [[0x62], [0x63]]] := by
  refine ⟨?_, by decide +kernel⟩
  simp only [treeExample, CmdTree.Ordered, CmdForest.Ordered, CmdForest.names]
  decide +kernel

/-- Dashes sort before letters: `a-b` comes before `aa`, but behind all of what is below `a`. -/
example (so : Sorter) (f g : List Flag) :
    (compile so [⟨[[0x61, 0x2d, 0x62]], f, none⟩, ⟨[[0x61], [0x7a]], g, none⟩]).cmds.map (·.path)
      = [[[0x61], [0x7a]], [[0x61, 0x2d, 0x62]]] := by
  have h := schema_preorder so (.node none (.cons [0x61] (.node none (.cons [0x7a] (.node (some (g, none)) .nil) .nil))
    (.cons [0x61, 0x2d, 0x62] (.node (some (f, none)) .nil) .nil)))
    (by simp only [CmdTree.Ordered, CmdForest.Ordered, CmdForest.names]; decide +kernel)
    [⟨[[0x61, 0x2d, 0x62]], f, none⟩, ⟨[[0x61], [0x7a]], g, none⟩] (List.Perm.swap ..)
  rw [h]
  rfl

/-- Its hypotheses are met: with the paths of `treeExample` in another order, no two are the same. -/
example : ([⟨[[0x62], [0x63]], [], none⟩, ⟨[[0x61]], [], none⟩, ⟨[[0x61], [0x62]], [], none⟩] : List Command).map (·.path)
    |>.Nodup := by decide +kernel

/-- Two commands with the same path: the order of registration matters to some sorters, so the condition of `order_unique` is
needed. -/
theorem order_needs_distinct : ∃ (so : Sorter) (cs ds : List Command), cs.Perm ds
    ∧ (compile so cs).cmds ≠ (compile so ds).cmds := by
  refine ⟨insertSorter, [⟨[[0x61]], [], none⟩, ⟨[[0x61]], [], some []⟩], [⟨[[0x61]], [], some []⟩, ⟨[[0x61]], [], none⟩],
    List.Perm.swap .., ?_⟩
  decide +kernel

/-- Instances of `has_tree` and `subs_follow`: the commands of the examples of C18. -/
example := has_tree demo (by decide +kernel)
example := subs_follow insertSorter demo 1 ⟨[b "remote"], [⟨b "verbose", .toggle, none⟩], none⟩ (by decide +kernel)

end Verif.Args
