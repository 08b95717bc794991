import Verif.Args.LemmasBind2
import Verif.Args.PropsHelp
/-! # Property theorems: from a command line to the targets (C66)

The parser, the lookup of flags and the report objects of the library together. -/
namespace Verif.Args

variable {ε R : Type}

/-- The state that a parse left, and whether it was stopped. -/
def Result.state {σ : Type} : Result σ R → Option (σ × Option R)
  | .panic => none
  | .ok s _ => some (s, none)
  | .noCommand s => some (s, none)
  | .stopped s r => some (s, some r)

theorem specResult_state {σ : Type} (h : σ → Event → σ × Option R) (s : σ) (S : List Command) (its : List Item) :
    (specResult h s S its).state = some (deliver h s (events S its)) := by
  rw [specResult]
  generalize deliver h s (events S its) = d
  obtain ⟨s', o⟩ := d
  cases o with
  | some r => rfl
  | none =>
    simp only []
    cases selected S (commandWords its) <;> rfl

/-- **C66.** For every argument list: each target holds what it documents for exactly the reports addressed to it,
and the errors, in the order of the arguments, go to the parser report. If that asks to stop, the same holds for
the reports up to there. -/
theorem targets_hold (so : Sorter) (se : Searcher) (cs : List Command) (B : Binding) (err : Err ε R)
    (s : Targets B ε) (args : List Bytes) :
    ∃ find, FlagLookup (compile so cs).cmds find ∧
      ∃ s' stop, (parse (bound B err (compile so cs).cmds) se (compile so cs) args s).state = some (s', stop) ∧
        ∃ done rest,
          events (compile so cs).cmds (items (compile so cs).cmds find [] true true args) = done ++ rest ∧
          (∀ l, s'.flags l = (B.kind l).value (s.flags l) (toLoc B l (done.filterMap (letter (compile so cs).cmds)))) ∧
          (∀ p, s'.params p = (B.ckind p).value (s.params p) (toPath p (done.filterMap (letter (compile so cs).cmds)))) ∧
          raise err s.err (letterErrors B (done.filterMap (letter (compile so cs).cmds))) = (s'.err, stop) ∧
          (stop = none → rest = []) := by
  obtain ⟨find, hf, hp⟩ := parse_refines so se cs
  refine ⟨find, hf, _, _, ?_, deliver_bound B err _ _ s⟩
  rw [hp, specResult_state]

theorem raise_append (err : Err ε R) (e : ε) (x y : List Error) :
    raise err e (x ++ y) = match raise err e x with
      | (e', some r) => (e', some r)
      | (e', none) => raise err e' y := by
  induction x generalizing e with
  | nil => rfl
  | cons a x ih =>
    rw [List.cons_append, raise_cons, raise_cons]
    cases (err e a).2 with
    | some r => rfl
    | none => exact ih _

/-- **C66.** Whatever is to be said can be said: for a command `P`, any sequence of settings of flags that can be
used with it and any parameters at all, the command line that is written for them selects `P`; afterwards each
flag's target holds what it documents for its settings, in order; the target for the parameters of `P` got exactly
those; no other command got any; the errors are exactly those of the targets. -/
theorem command_line_understood (so : Sorter) (se : Searcher) (cs : List Command) (hd : (cs.map (·.path)).Nodup)
    (hn : ∀ c ∈ cs, (c.flags.map (·.name)).Nodup)
    (P : Path) (hP : ∃ c ∈ cs, c.path = P) (hu : ∀ w ∈ P, isUtf8 w = true)
    (hw : ∀ w ∈ P, ∀ x xs, w ≠ 0x2d :: x :: xs)
    (settings : List Setting) (hs : ∀ st ∈ settings, Usable cs P st) (params : List Bytes)
    (B : Binding) (err : Err ε R) (s : Targets B ε) :
    ∃ i c, (compile so cs).cmds[i]? = some c ∧ c.path = P ∧
      match raise err s.err (letterErrors B (lineLetters i P settings params)) with
      | (e, some r) => ∃ s', s'.err = e ∧
          parse (bound B err (compile so cs).cmds) se (compile so cs) (commandLine P settings params) s = .stopped s' r
      | (e, none) => ∃ s', s'.err = e ∧
          parse (bound B err (compile so cs).cmds) se (compile so cs) (commandLine P settings params) s = .ok s' i ∧
          (∀ l, s'.flags l = (B.kind l).value (s.flags l)
            ((settings.filter fun st => letI := B.dec; decide (B.loc st.owner st.flag.name = l)).map
              fun st => (i, st.report))) ∧
          s'.params P = (B.ckind P).value (s.params P) (params.map some) ∧
          ∀ q, q ≠ P → s'.params q = s.params q := by
  obtain ⟨i, c, hi, hc, hp⟩ := selected_registered so cs P hP
  refine ⟨i, c, hc, hp, ?_⟩
  obtain ⟨find, hf, hpr⟩ := parse_refines so se cs
  obtain ⟨hwords, hev⟩ := events_commandLine so cs hd hn find hf P hP hu hw i c hi hc hp settings hs params
  obtain ⟨done, rest, h1, h2, h3, h4, h5⟩ := deliver_bound B err (compile so cs).cmds
    (events (compile so cs).cmds (items (compile so cs).cmds find [] true true (commandLine P settings params))) s
  rw [hpr, specResult, hwords, hi]
  rw [h1] at hev
  rw [List.filterMap_append] at hev
  generalize deliver (bound B err (compile so cs).cmds) s _ = d at h2 h3 h4 h5 ⊢
  obtain ⟨s', o⟩ := d
  simp only [] at h2 h3 h4 h5
  rw [← hev, letterErrors_append, raise_append, h4]
  cases o with
  | some r => exact ⟨s', rfl, rfl⟩
  | none =>
    have hr := h5 rfl
    subst hr
    rw [List.filterMap_nil, List.append_nil] at hev
    simp only [List.filterMap_nil]
    refine ⟨s', rfl, rfl, ?_, ?_, ?_⟩
    · intro l
      rw [h2 l, hev, toLoc_line]
    · rw [h3 P, hev, toPath_line, if_pos rfl, CKind.value_end]
    · intro q hq
      rw [h3 q, hev, toPath_line, if_neg hq, CKind.value_nil]

/-! ## When there are no errors -/

/-- A flag of this mode belongs to a target of this kind. -/
def Kind.fits : Kind → FlagMode → Bool
  | .optUnit, m | .bool, m | .help, m => m != .parse
  | .osStr, m | .optOsStr, m | .str, m | .optStr, m | .vecOsStr, m | .optVecOsStr, m | .vecStr, m | .optVecStr, m =>
    m == .parse

/-- The target takes only UTF-8. -/
def Kind.text : Kind → Bool
  | .str | .optStr | .vecStr | .optVecStr => true
  | _ => false

/-- The value of a setting. -/
def Word.value : Word → Option Bytes
  | .inline v | .next v => some v
  | .on | .off => none

/-- The command takes this parameter. -/
def CKind.takes : CKind → Bytes → Bool
  | .unit, _ => false
  | .vecOsStr, _ | .optVecOsStr, _ => true
  | .vecStr, p | .optVecStr, p => isUtf8 p

/-- **C66.** If the flags are bound to targets that fit their modes, values and parameters are UTF-8 where the
target needs it and parameters are given only to a command that takes them, then no error is reported and the
command line is accepted, whatever the parser report does with errors. -/
theorem fitting_command_line_accepted (so : Sorter) (se : Searcher) (cs : List Command) (hd : (cs.map (·.path)).Nodup)
    (hn : ∀ c ∈ cs, (c.flags.map (·.name)).Nodup)
    (P : Path) (hP : ∃ c ∈ cs, c.path = P) (hu : ∀ w ∈ P, isUtf8 w = true)
    (hw : ∀ w ∈ P, ∀ x xs, w ≠ 0x2d :: x :: xs)
    (settings : List Setting) (hs : ∀ st ∈ settings, Usable cs P st) (params : List Bytes)
    (B : Binding) (err : Err ε R) (s : Targets B ε)
    (hfit : ∀ st ∈ settings, (B.kind (B.loc st.owner st.flag.name)).fits st.flag.mode = true ∧
      ((B.kind (B.loc st.owner st.flag.name)).text = true → ∀ v, st.word.value = some v → isUtf8 v = true))
    (hpar : ∀ p ∈ params, (B.ckind P).takes p = true) :
    ∃ i c s', (compile so cs).cmds[i]? = some c ∧ c.path = P ∧ s'.err = s.err ∧
      parse (bound B err (compile so cs).cmds) se (compile so cs) (commandLine P settings params) s = .ok s' i ∧
      (∀ l, s'.flags l = (B.kind l).value (s.flags l)
        ((settings.filter fun st => letI := B.dec; decide (B.loc st.owner st.flag.name = l)).map
          fun st => (i, st.report))) ∧
      s'.params P = (B.ckind P).value (s.params P) (params.map some) ∧
      ∀ q, q ≠ P → s'.params q = s.params q := by
  obtain ⟨i, c, hc, hp, h⟩ := command_line_understood so se cs hd hn P hP hu hw settings hs params B err s
  have hone : ∀ x ∈ lineLetters i P settings params, letterErrors B [x] = [] := by
    intro x hx
    rw [lineLetters, List.mem_append, List.mem_append, List.mem_map, List.mem_map] at hx
    rcases hx with (⟨st, hst, rfl⟩ | ⟨p, hpp, rfl⟩) | hx
    · obtain ⟨h1, h2⟩ := hfit st hst
      have hm := (hs st hst).mode
      have e : letterErrors B [.flag st.owner st.flag.name i st.report] =
        (B.kind (B.loc st.owner st.flag.name)).error st.report := by simp [letterErrors]
      rw [e]
      clear e hn hd hP hs hfit
      generalize B.kind (B.loc st.owner st.flag.name) = k at h1 h2 ⊢
      obtain ⟨owner, ⟨name, mode, help⟩, word⟩ := st
      cases word with
      | on =>
        have hm : mode = .set ∨ mode = .toggle := hm
        rcases hm with rfl | rfl <;> cases k <;> first | rfl | cases h1
      | off =>
        have hm : mode = .toggle := hm.1
        subst hm
        cases k <;> first | rfl | cases h1
      | inline v =>
        have hm : mode = .parse := hm
        subst hm
        have h2 : k.text = true → isUtf8 v = true := fun ht => h2 ht v rfl
        cases k <;> first | rfl | (simp [Kind.error, Setting.report, valueErrors, h2 rfl]; done) | cases h1
      | next v =>
        have hm : mode = .parse := hm
        subst hm
        have h2 : k.text = true → isUtf8 v = true := fun ht => h2 ht v rfl
        cases k <;> first | rfl | (simp [Kind.error, Setting.report, valueErrors, h2 rfl]; done) | cases h1
    · have h1 := hpar p hpp
      have e : letterErrors B [.param P (some p)] = (B.ckind P).error (some p) := by simp [letterErrors]
      rw [e]
      clear e
      generalize B.ckind P = k at h1 ⊢
      cases k with
      | unit => cases h1
      | vecOsStr => rfl
      | optVecOsStr => rfl
      | vecStr =>
        have h1 : isUtf8 p = true := h1
        simp [CKind.error, paramErrors, h1]
      | optVecStr =>
        have h1 : isUtf8 p = true := h1
        simp [CKind.error, paramErrors, h1]
    · rw [List.mem_singleton] at hx
      subst hx
      have e : letterErrors B [.param P none] = (B.ckind P).error none := by simp [letterErrors]
      rw [e]
      generalize B.ckind P = k
      cases k <;> rfl
  have hnone : letterErrors B (lineLetters i P settings params) = [] := by
    generalize lineLetters i P settings params = ls at hone
    induction ls with
    | nil => rfl
    | cons x ls ih =>
      rw [show x :: ls = [x] ++ ls from rfl, letterErrors_append, hone x (by simp),
        ih (fun y hy => hone y (by simp [hy]))]; rfl
  rw [hnone] at h
  obtain ⟨s', h1, h2, h3, h4, h5⟩ := h
  exact ⟨i, c, s', hc, hp, h1, h2, h3, h4, h5⟩

/-! ## Asking for help -/

/-- A target that is a help object. -/
def asHelp : (k : Kind) → k.T → Option Help
  | .help, t => some t
  | _, _ => none

/-- **C66, C24.** If the last setting of a help object's flags on the command line of `P` switches it on, then the
help that is written afterwards is the help text of `P`. -/
theorem help_of_selected_command (so : Sorter) (se : Searcher) (cs : List Command) (hd : (cs.map (·.path)).Nodup)
    (hn : ∀ c ∈ cs, (c.flags.map (·.name)).Nodup)
    (P : Path) (hP : ∃ c ∈ cs, c.path = P) (hu : ∀ w ∈ P, isUtf8 w = true)
    (hw : ∀ w ∈ P, ∀ x xs, w ≠ 0x2d :: x :: xs)
    (before after : List Setting) (st : Setting) (hs : ∀ x ∈ before ++ st :: after, Usable cs P x) (params : List Bytes)
    (B : Binding) (err : Err ε R) (s : Targets B ε) (l : B.Loc) (t : Help) (ht : asHelp (B.kind l) (s.flags l) = some t)
    (hl : B.loc st.owner st.flag.name = l) (hon : st.word = .on)
    (hafter : ∀ x ∈ after, B.loc x.owner x.flag.name ≠ l) (hok : ∀ e x, (err e x).2 = none)
    {σ E : Type} (w : σ → Call → σ × Option E) (out : σ) :
    ∃ i c s' t', (compile so cs).cmds[i]? = some c ∧ c.path = P ∧
      parse (bound B err (compile so cs).cmds) se (compile so cs) (commandLine P (before ++ st :: after) params) s =
        .ok s' i ∧
      asHelp (B.kind l) (s'.flags l) = some t' ∧ t'.entry = t.entry ∧ t'.info = t.info ∧
      Help_help t' w (compile so cs).cmds out =
        match calls w out (helpText t (compile so cs).cmds c) with
        | (out, none) => .ok out true
        | (out, some e) => .err out e := by
  obtain ⟨i, c, hc, hp, h⟩ := command_line_understood so se cs hd hn P hP hu hw (before ++ st :: after) hs params B err s
  have hraise : ∀ xs e, (raise err e xs).2 = none := by
    intro xs
    induction xs with
    | nil => intro e; rfl
    | cons x xs ih => intro e; rw [raise_cons, hok]; exact ih _
  have hr := hraise (letterErrors B (lineLetters i P (before ++ st :: after) params)) s.err
  generalize raise err s.err _ = d at h hr
  obtain ⟨e, o⟩ := d
  cases hr
  obtain ⟨s', h1, h2, h3, _, _⟩ := h
  have h3 := h3 l
  letI := B.dec
  have hnil : (after.filter fun st => decide (B.loc st.owner st.flag.name = l)) = [] :=
    List.filter_eq_nil_iff.mpr (fun x hx => by simp [hafter x hx])
  have hfil : ((before ++ st :: after).filter fun st => decide (B.loc st.owner st.flag.name = l)).map
      (fun st => (i, st.report)) =
      (before.filter fun st => decide (B.loc st.owner st.flag.name = l)).map (fun st => (i, st.report)) ++
        [(i, st.report)] := by
    rw [List.filter_append, List.filter_cons, if_pos (by simp [hl]), hnil]
    simp
  have hreq : helpRequest (i, st.report) = some (some i) := by
    rw [Setting.report, hon]
    simp only []
    split <;> rfl
  rw [show ((before ++ st :: after).filter fun st => decide (B.loc st.owner st.flag.name = l)).map
      (fun st => (i, st.report)) = _ from hfil] at h3
  have hval : asHelp (B.kind l) (s'.flags l) = some { t with index := some i } := by
    rw [h3]
    generalize (before.filter fun st => decide (B.loc st.owner st.flag.name = l)).map (fun st => (i, st.report)) = l1
    clear h3 hfil
    generalize s.flags l = u at ht ⊢
    revert u
    generalize B.kind l = k
    intro u ht
    cases k <;> simp only [asHelp, Option.some.injEq] at ht <;> try cases ht
    simp only [asHelp, Kind.value, List.filterMap_append, List.filterMap_cons, hreq, List.filterMap_nil]
    simp
  refine ⟨i, c, s', _, hc, hp, h2, hval, rfl, rfl, ?_⟩
  exact help_writes_help_text so cs hd _ i rfl c hc w out

/-! ## Examples -/

/-- A command line for the schema `demo`, with `--verbose` twice, a value in the next argument and parameters that
look like flags. -/
def demoSettings : List Setting :=
  [⟨[b "remote"], ⟨b "verbose", .toggle, none⟩, .on⟩, ⟨[b "remote", b "add"], ⟨b "url", .parse, none⟩, .next (b "--x")⟩,
   ⟨[b "remote"], ⟨b "verbose", .toggle, none⟩, .off⟩, ⟨[], ⟨b "help", .set, none⟩, .on⟩,
   ⟨[b "remote", b "add"], ⟨b "url", .parse, none⟩, .inline (b "y=z")⟩]

/-- Locations of the targets. -/
inductive DemoLoc | help | verbose | url
deriving DecidableEq

/-- Targets: a help object, a `bool` through a shared cell, and a `Vec<&str>`; parameters go to a `Vec<&OsStr>`. -/
def demoBinding : Binding where
  Loc := DemoLoc
  dec := inferInstance
  kind | .help => .help | .verbose => .bool | .url => .vecStr
  cell l := l == .verbose
  loc _ name := if name = b "help" then .help else if name = b "verbose" then .verbose else .url
  ckind _ := .vecOsStr

/-- The hypotheses of `command_line_understood` hold for it. -/
example : (demo.map (·.path)).Nodup ∧ (∀ c ∈ demo, (c.flags.map (·.name)).Nodup) ∧
    (∃ c ∈ demo, c.path = [b "remote", b "add"]) ∧ (∀ w ∈ [b "remote", b "add"], isUtf8 w = true) := by
  refine ⟨by decide +kernel, by decide +kernel, ⟨_, List.mem_cons_self .., rfl⟩, by decide +kernel⟩

example : ∀ st ∈ demoSettings, Usable demo [b "remote", b "add"] st := by
  have hdec : ∀ st ∈ demoSettings, (demo.any fun c => c.path == st.owner && c.flags.contains st.flag) ∧
      st.owner.isPrefixOf [b "remote", b "add"] ∧
      (demo.all fun d => !(d.path.isPrefixOf [b "remote", b "add"] && hasFlag st.flag.name d) ||
        decide (d.path.length ≤ st.owner.length)) ∧
      isUtf8 st.flag.name ∧ !(st.flag.name.contains 0x3d) ∧ !st.flag.name.isEmpty := by decide +kernel
  have hmode : ∀ st ∈ demoSettings, match st.word with
    | .on => st.flag.mode = .set ∨ st.flag.mode = .toggle
    | .off => st.flag.mode = .toggle ∧ ∀ d ∈ demo, d.path <+: [b "remote", b "add"] → hasFlag (noDash ++ st.flag.name) d = false
    | .inline _ | .next _ => st.flag.mode = .parse := by
    intro st hst
    have hno : ∀ d ∈ demo, hasFlag (noDash ++ b "verbose") d = false := by decide +kernel
    simp only [demoSettings, List.mem_cons, List.not_mem_nil, or_false] at hst
    rcases hst with rfl | rfl | rfl | rfl | rfl
    · exact Or.inr rfl
    · rfl
    · exact ⟨rfl, fun d hd _ => hno d hd⟩
    · exact Or.inl rfl
    · rfl
  intro st hst
  obtain ⟨h1, h2, h3, h4, h5, h6⟩ := hdec st hst
  rw [List.any_eq_true] at h1
  obtain ⟨c, hc, h1⟩ := h1
  rw [Bool.and_eq_true, beq_iff_eq, List.contains_iff_mem] at h1
  rw [List.all_eq_true] at h3
  refine ⟨⟨c, hc, h1⟩, List.isPrefixOf_iff_prefix.mp h2, ?_, h4, ?_, ?_, hmode st hst⟩
  · intro d hd hp hf
    have := h3 d hd
    rw [List.isPrefixOf_iff_prefix.mpr hp, hf] at this
    simpa using this
  · simpa using h5
  · simpa using h6

/-- What it looks like. -/
example : commandLine [b "remote", b "add"] demoSettings [b "--help", b "p"] =
    [b "remote", b "add", b "--verbose", b "--url", b "--x", b "--no-verbose", b "--help", b "--url=y=z", b "--",
     b "--help", b "p"] := by decide +kernel

/-- What the targets hold afterwards: the command, the `bool`, the values, the help request, the parameters and the
errors. -/
def demoResult : Option ((Nat × Bool × List Bytes) × Option Nat × List Bytes × List Error) :=
  match parse (bound demoBinding vecError (compile insertSorter demo).cmds) linearSearcher (compile insertSorter demo)
      (commandLine [b "remote", b "add"] demoSettings [b "--help", b "p"])
      ⟨fun | .help => Help_with [] [] | .verbose => true | .url => ([] : List Bytes), fun _ => ([] : List Bytes), []⟩ with
  | .ok s' i => some ((i, s'.flags .verbose, s'.flags .url), Help.index (s'.flags .help), s'.params [b "remote", b "add"],
      s'.err)
  | _ => none

example : demoResult.map (·.1) = some (2, false, [b "--x", b "y=z"]) := by decide +kernel
example : demoResult.map (·.2) = some (some 2, [b "--help", b "p"], []) := by decide +kernel

end Verif.Args
