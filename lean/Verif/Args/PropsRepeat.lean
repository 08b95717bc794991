import Verif.Args.PropsBind
/-! # Properties of flags that are given more than once (C82) -/
namespace Verif.Args

variable {ε R : Type}

/-! ## Specification -/

/-- A report to a flag is of the kind of the mode of that flag. -/
def Fits (S : List Command) : Event → Prop
  | .set c f _ _ => modeOf S (c, f) = .set
  | .toggle c f _ _ _ => modeOf S (c, f) = .toggle
  | .parse c f _ _ _ => modeOf S (c, f) = .parse
  | .error _ | .parameter _ _ => True

/-- The values that a list holds. -/
def listOf : (k : Kind) → k.T → Option (List Bytes)
  | .vecOsStr, t | .vecStr, t => some t
  | .optVecOsStr, t | .optVecStr, t => some (t.getD [])
  | _, _ => none

/-! ## Theorems -/

theorem items_fit (S : List Command) (find : Path → Bytes → Option (Nat × Nat)) (words : Path) (cmds flags : Bool)
    (args : List Bytes) : ∀ used e, .report used e ∈ items S find words cmds flags args → Fits S e := by
  have hpar : ∀ w a used e, Item.report used e = paramItem S w a → Fits S e := by
    intro w a used e h
    unfold paramItem at h
    cases h
    split <;> trivial
  have hact : ∀ m neg v, (∀ x, action m neg v = .parse x → m = .parse) ∧ (action m neg v = .parseNext → m = .parse)
      ∧ (∀ x, action m neg v = .toggle x → m = .toggle) ∧ (action m neg v = .set → m = .set) := by
    intro m neg v; cases m <;> cases neg <;> cases v <;> simp [action]
  fun_induction items S find words cmds flags args <;> intro used e hm
  case case1 => cases hm
  case case6 ih => 
    rcases List.mem_cons.mp hm with h | h
    · exact hpar _ _ _ _ h
    · exact ih used e h
  all_goals
    rcases List.mem_cons.mp hm with h | h
    · first
        | cases h; done
        | cases h; trivial
        | cases h; exact (hact _ _ _).1 _ ‹_›
        | cases h; exact (hact _ _ _).2.1 ‹_›
        | cases h; exact (hact _ _ _).2.2.1 _ ‹_›
        | cases h; exact (hact _ _ _).2.2.2 ‹_›
    · first
        | cases h; done
        | rename_i ih; exact ih used e h

/-- C82. Whatever is given on the command line, the report of a flag gets only calls of the kind of its mode, in every run and
with all reports a caller may provide. Hence no flag that takes values is ever told to start over. -/
theorem reports_fit_mode (so : Sorter) (se : Searcher) (cs : List Command) (σ R : Type)
    (h : σ → Event → σ × Option R) (args : List Bytes) (s : σ) :
    ∃ log stopped, (parse (logged h) se (compile so cs) args (s, [])).log = some (log, stopped)
      ∧ ∀ e ∈ log, Fits (compile so cs).cmds e := by
  obtain ⟨find, _, log, stopped, hl, rest, hr, _⟩ := reports_in_order so se cs σ R h args s
  refine ⟨log, stopped, hl, fun e he => ?_⟩
  have hm : e ∈ events (compile so cs).cmds (items (compile so cs).cmds find [] true true args) := by
    rw [hr]; exact List.mem_append_left _ he
  rw [events, List.mem_append] at hm
  rcases hm with hm | hm
  · obtain ⟨it, hit, hev⟩ := List.mem_filterMap.mp hm
    cases it with
    | report used e' =>
      cases hev
      exact items_fit _ _ _ _ _ _ used e hit
    | command _ => cases hev
    | terminator => cases hev
  · unfold endEvents at hm
    split at hm
    · rw [List.mem_singleton] at hm; subst hm; trivial
    · cases hm

/-- C82. The negated form of a flag that takes values is an error wherever it is given, and is passed over. -/
theorem negated_values (S : List Command) (find : Path → Bytes → Option (Nat × Nat)) (words : Path) (cmds : Bool)
    (name : Bytes) (a : Bytes) (value : Option Bytes) (rest : List Bytes) (ha : shape a = .long (noDash ++ name) value)
    (hno : find words (noDash ++ name) = none) (cf : Nat × Nat) (hf : find words name = some cf) (hm : modeOf S cf = .parse) :
    items S find words cmds true (a :: rest) =
      .report [a] (.error (.flagUnexpectedToggle (noDash ++ name))) :: items S find words cmds true rest := by
  have hr : resolve (find words) (noDash ++ name) = some (cf, true) := by
    unfold resolve
    rw [hno]
    show (find words name).map (·, true) = _
    rw [hf]; rfl
  rw [items, if_pos rfl, ha]
  simp only [hr]
  rw [show modeOf S (cf.1, cf.2) = .parse from hm]
  rfl

/-- C82, disagreement. No command line clears a list: whichever flags are bound to it, in any mode, what it held before stays
at its beginning. -/
theorem lists_only_grow (so : Sorter) (se : Searcher) (cs : List Command) (B : Binding) (err : Err ε R)
    (s : Targets B ε) (args : List Bytes) :
    ∃ s' stop, (parse (bound B err (compile so cs).cmds) se (compile so cs) args s).state = some (s', stop)
      ∧ ∀ l old, listOf (B.kind l) (s.flags l) = some old → ∃ new, listOf (B.kind l) (s'.flags l) = some (old ++ new) := by
  obtain ⟨find, _, s', stop, hs, done, rest, _, hl, _⟩ := targets_hold so se cs B err s args
  refine ⟨s', stop, hs, fun l old ho => ?_⟩
  have h := hl l
  generalize toLoc B l (done.filterMap (letter (compile so cs).cmds)) = rs at h
  generalize s'.flags l = t' at h
  generalize s.flags l = t at ho h
  generalize B.kind l = k at *
  have happ : ∀ (t : Option (List Bytes)) vs, (optAppend t vs).getD [] = t.getD [] ++ vs := by
    intro t vs
    unfold optAppend
    cases vs <;> simp
  cases k <;> simp only [listOf, Option.some.injEq, reduceCtorEq] at ho ⊢ <;> subst ho h <;>
    simp only [Kind.value] <;> first
      | exact ⟨_, rfl⟩
      | exact ⟨_, happ _ _⟩

/-- C82, partial. Apart from that, giving a flag again does what is documented: toggles and single values override what the
target held; what it held does not matter for the result. Collections keep it and add the value at the end. -/
theorem override_or_extend_partial (err : Err ε R) (at_ : Nat) (r : Report) (k : Kind) (t : k.T) (e : ε)
    (hok : k.error r = []) :
    (listOf k t = none → k ≠ .help → ∀ t' : k.T, (k.report err at_ r t' e).1.1 = (k.report err at_ r t e).1.1)
    ∧ ∀ old, listOf k t = some old → ∃ arg v, r = .parse arg v
        ∧ listOf k (k.report err at_ r t e).1.1 = some (old ++ [v]) := by
  rcases r with arg | ⟨arg, v⟩ | ⟨arg, v⟩
  · cases k <;> simp_all [Kind.error, valueErrors, listOf, Kind.report, FlagReport.apply, optUnit, Verif.Args.bool, store]
  · cases v <;> cases k <;>
      simp_all [Kind.error, valueErrors, listOf, Kind.report, FlagReport.apply, optUnit, Verif.Args.bool, store]
  · cases hu : isUtf8 v <;> cases k <;>
      simp_all [Kind.error, valueErrors, toggleErrors, listOf, Kind.report, FlagReport.apply, osStr, optOsStr, Verif.Args.str,
        optStr, vecOsStr, vecStr, optVecOsStr, optVecStr, store]

-- A flag that collects values, given twice, and negated in between: nothing is cleared.
def repeatDemo : List Command := [⟨[], [⟨b "url", .parse, none⟩], none⟩]

example : parse record linearSearcher (compile insertSorter repeatDemo) [b "--url=x", b "--no-url", b "--url=y"] [] =
    .ok [.parse 0 0 0 (b "url") (b "x"), .error (.flagUnexpectedToggle (b "no-url")), .parse 0 0 0 (b "url") (b "y"),
      .parameter 0 none] 0 := by decide +kernel

example : (match parse (bound demoBinding vecError (compile insertSorter repeatDemo).cmds) linearSearcher
      (compile insertSorter repeatDemo) [b "--url=x", b "--no-url", b "--url=y"]
      ⟨fun | .help => Help_with [] [] | .verbose => true | .url => ([] : List Bytes), fun _ => ([] : List Bytes), []⟩ with
    | .ok s' _ => some (s'.flags .url, s'.err)
    | _ => none) = some ([b "x", b "y"], [.flagUnexpectedToggle (b "no-url")]) := by decide +kernel

example : listOf .vecStr [b "x"] = some [b "x"] ∧ Kind.error .vecStr (.parse (b "url") (b "y")) = [] := by decide +kernel

/-- An instance of `negated_values`. -/
example := negated_values (compile insertSorter demo).cmds demoFind [b "remote", b "add"] true (b "url") (b "--no-url") none [b "x"]
  (by decide +kernel) (by decide +kernel) (2, 0) (by decide +kernel) (by decide +kernel)

end Verif.Args
