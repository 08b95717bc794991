import Verif.Args.ModelEdit
import Verif.Args.ModelSearch
import Verif.Args.Props
/-! # Property theorems: schemas that are changed in place (C86) -/
namespace Verif.Args

/-- An assignment that keeps what the schema was sorted by: the name of a flag, the path of a command. The flags of a
command are those of a `FlagSet`, which sorts them (`FlagSet::with`). -/
def Edit.Keeps (so : Sorter) (sc : Schema) : Edit → Prop
  | .flag c f new => ∀ cmd old, sc.cmds[c]? = some cmd → cmd.flags[f]? = some old → new.name = old.name
  | .command c new => (∀ cmd, sc.cmds[c]? = some cmd → new.path = cmd.path) ∧ ∃ fs, new.flags = FlagSet_compile so fs

/-- All assignments of a history do. -/
def Keep (so : Sorter) : Schema → List Edit → Prop
  | _, [] => True
  | sc, e :: es => e.Keeps so sc ∧ ∀ sc', edit sc e = some sc' → Keep so sc' es

/-! ### Lemmas -/

theorem lastBelow_paths {S T : List Command} (h : S.map (·.path) = T.map (·.path)) (Q : Path → Bool) (n : Nat) :
    lastBelow S (fun c => Q c.path) n = lastBelow T (fun c => Q c.path) n := by
  have hg : ∀ j : Nat, (S[j]?.map fun c : Command => c.path) = T[j]?.map fun c : Command => c.path := fun j => by
    rw [← List.getElem?_map, ← List.getElem?_map, h]
  induction n with
  | zero => rfl
  | succ n ih =>
    rw [lastBelow, lastBelow, ih]
    have := hg n
    have : S[n]?.any (fun c => Q c.path) = T[n]?.any (fun c => Q c.path) := by
      cases hs : S[n]? <;> cases ht : T[n]? <;> simp_all
    rw [this]

theorem upSpec_paths {S T : List Command} (h : S.map (·.path) = T.map (·.path)) (j : Nat) : upSpec S j = upSpec T j := by
  have hg : S[j]?.map (·.path) = T[j]?.map (·.path) := by rw [← List.getElem?_map, ← List.getElem?_map, h]
  unfold upSpec
  cases hs : S[j]? with
  | none => cases ht : T[j]? with
    | none => rfl
    | some d => simp_all
  | some c => cases ht : T[j]? with
    | none => simp_all
    | some d =>
      have : c.path = d.path := by simp_all
      simp only [this]
      exact lastBelow_paths h (fun p => p.isPrefixOf d.path) j

theorem compiled_of_paths {sc : Schema} (hc : Compiled sc) {cmds : List Command} (h : cmds.map (·.path) = sc.cmds.map (·.path))
    (hf : ∀ c ∈ cmds, c.flags.Pairwise fun a b => cmpStr a.name b.name ≠ .gt) : Compiled { sc with cmds } := by
  refine ⟨?_, hf, fun j hj => ?_⟩
  · have := hc.sorted
    unfold Sorted at this ⊢
    rw [← List.pairwise_map (f := fun c : Command => c.path) (R := fun a b => cmpPath a b ≠ .gt)] at this ⊢
    rw [h]; exact this
  · have hl : cmds.length = sc.cmds.length := by simpa using congrArg List.length h
    rw [upSpec_paths h]
    exact hc.ups j (hl ▸ hj)

theorem set_paths (l : List Command) (c : Nat) (new : Command) (h : ∀ old, l[c]? = some old → new.path = old.path) :
    (l.set c new).map (·.path) = l.map (·.path) := by
  apply List.ext_getElem?
  intro j
  rw [List.getElem?_map, List.getElem?_map]
  by_cases e : c = j
  · subst e
    rw [List.getElem?_set_self']
    cases hl : l[c]? with
    | none => rfl
    | some old => simp [h old hl]
  · rw [List.getElem?_set_ne e]

theorem set_names (l : List Flag) (f : Nat) (new : Flag) (h : ∀ old, l[f]? = some old → new.name = old.name) :
    (l.set f new).map (·.name) = l.map (·.name) := by
  apply List.ext_getElem?
  intro j
  rw [List.getElem?_map, List.getElem?_map]
  by_cases e : f = j
  · subst e
    rw [List.getElem?_set_self']
    cases hl : l[f]? with
    | none => rfl
    | some old => simp [h old hl]
  · rw [List.getElem?_set_ne e]

theorem flags_paths {l : List Command} (hf : ∀ c ∈ l, c.flags.Pairwise fun a b => cmpStr a.name b.name ≠ .gt) (i : Nat) (new : Command)
    (hn : new.flags.Pairwise fun a b => cmpStr a.name b.name ≠ .gt) :
    ∀ c ∈ l.set i new, c.flags.Pairwise fun a b => cmpStr a.name b.name ≠ .gt := fun c hc => by
  rcases List.mem_or_eq_of_mem_set hc with hc | rfl
  · exact hf c hc
  · exact hn

theorem edit_compiled (so : Sorter) {sc sc' : Schema} (hc : Compiled sc) (e : Edit) (hk : e.Keeps so sc) (he : edit sc e = some sc') :
    Compiled sc' ∧ sc'.cmds.map (·.path) = sc.cmds.map (·.path) := by
  cases e with
  | flag c f new =>
    cases hcmd : sc.cmds[c]? with
    | none => simp [edit, hcmd] at he
    | some cmd =>
      simp only [edit, hcmd] at he
      split at he
      · cases he
        have hp := set_paths sc.cmds c { cmd with flags := cmd.flags.set f new } (fun old h => by rw [hcmd] at h; cases h; rfl)
        refine ⟨compiled_of_paths hc hp (flags_paths hc.flags _ _ ?_), hp⟩
        have := hc.flags cmd (List.mem_of_getElem? hcmd)
        rw [← List.pairwise_map (f := fun c : Flag => c.name) (R := fun a b => cmpStr a b ≠ .gt)] at this ⊢
        rw [set_names _ _ _ fun old h => hk cmd old hcmd h]
        exact this
      · cases he
  | command c new =>
    unfold edit at he
    simp only [] at he
    split at he
    · cases he
      obtain ⟨hk, fs, hfs⟩ := hk
      have hp := set_paths sc.cmds c new hk
      refine ⟨compiled_of_paths hc hp (flags_paths hc.flags _ _ ?_), hp⟩
      rw [hfs]; exact so.sorted (fun a b : Flag => cmpStr a.name b.name) _
    · cases he

theorem edits_compiled (so : Sorter) : ∀ (es : List Edit) {sc sc' : Schema}, Compiled sc → Keep so sc es → edits sc es = some sc' →
    Compiled sc' ∧ sc'.cmds.map (·.path) = sc.cmds.map (·.path)
  | [], sc, sc', hc, _, he => by cases he; exact ⟨hc, rfl⟩
  | e :: es, sc, sc', hc, hk, he => by
    unfold edits at he
    cases h1 : edit sc e with
    | none => rw [h1] at he; cases he
    | some sc1 =>
      rw [h1] at he
      obtain ⟨hc1, hp1⟩ := edit_compiled so hc e hk.1 h1
      obtain ⟨hc2, hp2⟩ := edits_compiled so es hc1 (hk.2 sc1 h1) he
      exact ⟨hc2, hp2.trans hp1⟩

/-! ### Theorems -/

/-- C86 (the part that holds). After any history of assignments that keep the names of flags and the paths of commands, the
parser does what the specification says of the commands and flags that are now in the schema. Missing: assignments that do not
keep them, see the next theorems. -/
theorem edited_partial (so : Sorter) (se : Searcher) (cs : List Command) (es : List Edit) (sc : Schema)
    (hk : Keep so (compile so cs) es) (he : edits (compile so cs) es = some sc) :
    sc.cmds.map (·.path) = (compile so cs).cmds.map (·.path) ∧
    ∃ find, FlagLookup sc.cmds find ∧ ∀ (σ R : Type) (h : σ → Event → σ × Option R) (args : List Bytes) (s : σ),
      parse h se sc args s = specResult h s sc.cmds (items sc.cmds find [] true true args) := by
  obtain ⟨hc, hp⟩ := edits_compiled so es (compile_compiled so cs) hk he
  exact ⟨hp, parse_compiled se hc⟩

/-- Only assignments out of bounds panic. -/
theorem edit_panics (sc : Schema) (e : Edit) : edit sc e = none ↔ match e with
    | .flag c f _ => ∀ cmd, sc.cmds[c]? = some cmd → cmd.flags.length ≤ f
    | .command c _ => sc.cmds.length ≤ c := by
  cases e with
  | flag c f new =>
    cases hcmd : sc.cmds[c]? with
    | none => simp [edit, hcmd]
    | some cmd => simp [edit, hcmd]
  | command c new => simp [edit]

/-- C86 is violated: the flag `a` of a command is replaced by `z`. The command now has the flags `z` and `b`, but `--z` is unknown. -/
theorem edited_flag_lost :
    ((edit (compile insertSorter [⟨[], [⟨b "a", .set, none⟩, ⟨b "b", .set, none⟩], none⟩]) (.flag 0 0 ⟨b "z", .set, none⟩)).map
      fun sc => (sc.cmds.map (·.flags.map (·.name)), parse record stdSearcher sc [b "--z"] []))
    = some ([[b "z", b "b"]], .ok [.error (.flagUnknown (b "z")), .parameter 0 none] 0) := by
  decide +kernel

/-- C86 is violated: the command `a` is replaced by `z`, which can not be entered. -/
theorem edited_command_lost :
    ((edit (compile insertSorter [⟨[b "a"], [], none⟩, ⟨[b "b"], [], none⟩]) (.command 0 ⟨[b "z"], [], none⟩)).map
      fun sc => (sc.cmds.map (·.path), parse record stdSearcher sc [b "z"] []))
    = some ([[b "z"], [b "b"]], .noCommand [.error (.parameterUnexpected (b "z"))]) := by
  decide +kernel

/-- C86 is violated even if the commands stay sorted: `run` is replaced by `list`, and yet its new flag is accepted for the
command `run fast`. -/
theorem edited_link_kept :
    ((edit (compile insertSorter [⟨[b "run"], [], none⟩, ⟨[b "run", b "fast"], [], none⟩])
        (.command 0 ⟨[b "list"], [⟨b "all", .set, none⟩], none⟩)).map
      fun sc => (sc.cmds.map (·.path), parse record stdSearcher sc [b "run", b "fast", b "--all"] []))
    = some ([[b "list"], [b "run", b "fast"]], .ok [.set 0 0 1 (b "all"), .parameter 1 none] 1) := by
  decide +kernel

/-! ## Examples -/

-- A flag is made a toggle and given another help text: this is allowed, and works.
example : let sc := compile insertSorter [⟨[], [⟨b "a", .set, none⟩, ⟨b "b", .set, none⟩], none⟩]
    Keep insertSorter sc [.flag 0 1 ⟨b "b", .toggle, some (b "help")⟩] ∧
    (edits sc [.flag 0 1 ⟨b "b", .toggle, some (b "help")⟩]).map (fun sc => parse record stdSearcher sc [b "--no-b"] []) =
      some (.ok [.toggle 0 1 0 (b "no-b") false, .parameter 0 none] 0) := by
  refine ⟨⟨fun cmd old h1 h2 => ?_, fun _ _ => trivial⟩, by decide +kernel⟩
  have e : (compile insertSorter [⟨[], [⟨b "a", .set, none⟩, ⟨b "b", .set, none⟩], none⟩]).cmds =
      [⟨[], [⟨b "a", .set, none⟩, ⟨b "b", .set, none⟩], none⟩] := by decide +kernel
  rw [e] at h1
  cases h1
  cases h2
  rfl

end Verif.Args
