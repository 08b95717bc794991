import Verif.Args.LemmasMixed
/-! # Property theorems: where the parts of a command line stand (C130) -/
namespace Verif.Args

variable {ε R : Type}

/-- **C130.** Flags may stand between the words of the command, between its parameters and behind them. For every
line for the command `P` whose parts stand where they can: `P` is selected; afterwards each flag's target holds what
it documents for what is said about it, in order (help objects are told the command whose words stand before); the
target for the parameters of `P` got all of them, those before and those after `--`, in order; no other command got
any; the errors are exactly those of the targets. -/
theorem mixed_line_understood (so : Sorter) (se : Searcher) (cs : List Command) (hd : (cs.map (·.path)).Nodup)
    (hn : ∀ c ∈ cs, (c.flags.map (·.name)).Nodup)
    (P : Path) (hP : ∃ c ∈ cs, c.path = P) (hu : ∀ w ∈ P, isUtf8 w = true)
    (hw : ∀ w ∈ P, ∀ x xs, w ≠ 0x2d :: x :: xs)
    (B : Binding) (err : Err ε R) :
    ∃ idx : Path → Nat, (∀ c ∈ cs, ∃ c', (compile so cs).cmds[idx c.path]? = some c' ∧ c'.path = c.path) ∧
      ∀ (parts : List Part) (after : Option (List Bytes)) (s : Targets B ε),
        InPlace cs P [] false parts → partWords parts = P →
        match raise err s.err (letterErrors B (mixedLetters idx P parts after)) with
        | (e, some r) => ∃ s', s'.err = e ∧
            parse (bound B err (compile so cs).cmds) se (compile so cs) (mixedLine parts after) s = .stopped s' r
        | (e, none) => ∃ s', s'.err = e ∧
            parse (bound B err (compile so cs).cmds) se (compile so cs) (mixedLine parts after) s = .ok s' (idx P) ∧
            (∀ l, s'.flags l = (B.kind l).value (s.flags l)
              ((saidTo B l parts).map fun x => (idx x.1, x.2.report))) ∧
            s'.params P = (B.ckind P).value (s.params P) ((partParams parts after).map some) ∧
            ∀ q, q ≠ P → s'.params q = s.params q := by
  obtain ⟨find, hf, hpr⟩ := parse_refines so se cs
  have hidx : ∀ c ∈ cs, selected (compile so cs).cmds c.path = some ((selected (compile so cs).cmds c.path).getD 0) ∧
      ∃ c', (compile so cs).cmds[(selected (compile so cs).cmds c.path).getD 0]? = some c' ∧ c'.path = c.path := by
    intro c hc
    obtain ⟨i, c', hi, hc', hp'⟩ := selected_registered so cs c.path ⟨c, hc, rfl⟩
    rw [hi]
    exact ⟨rfl, c', hc', hp'⟩
  refine ⟨fun ws => (selected (compile so cs).cmds ws).getD 0, fun c hc => (hidx c hc).2, ?_⟩
  intro parts after s hpl hws
  obtain ⟨hwords, hev⟩ := Mixed.events_mixedLine so cs hd hn find hf P hP hu hw
    (fun ws => (selected (compile so cs).cmds ws).getD 0) hidx parts after hpl hws
  obtain ⟨done, rest, h1, h2, h3, h4, h5⟩ := deliver_bound B err (compile so cs).cmds
    (events (compile so cs).cmds (items (compile so cs).cmds find [] true true (mixedLine parts after))) s
  have hsel : selected (compile so cs).cmds P = some ((selected (compile so cs).cmds P).getD 0) := by
    obtain ⟨c, hc, rfl⟩ := hP
    exact (hidx c hc).1
  generalize hg : (fun ws => (selected (compile so cs).cmds ws).getD 0) = idx at *
  have hsel : selected (compile so cs).cmds P = some (idx P) := by rw [← hg]; exact hsel
  rw [hpr, specResult, hwords, hsel]
  rw [h1] at hev
  rw [List.filterMap_append] at hev
  generalize deliver (bound B err (compile so cs).cmds) s _ = d at h2 h3 h4 h5 ⊢
  obtain ⟨s', o⟩ := d
  simp only [] at h2 h3 h4 h5
  rw [← hev, letterErrors_append, raise_append, h4]
  cases o with
  | some r => exact ⟨s', rfl, rfl⟩
  | none =>
    have hr := h5 rfl
    subst hr
    rw [List.filterMap_nil, List.append_nil] at hev
    simp only [List.filterMap_nil]
    refine ⟨s', rfl, rfl, ?_, ?_, ?_⟩
    · intro l
      rw [h2 l, hev, Mixed.toLoc_mixed]
    · rw [h3 P, hev, Mixed.toPath_mixed, if_pos rfl, CKind.value_end]
    · intro q hq
      rw [h3 q, hev, Mixed.toPath_mixed, if_neg hq, CKind.value_nil]

/-- The flags are bound to targets that fit their modes, values and parameters are UTF-8 where the target needs it,
and parameters are given only to a command that takes them. -/
structure Fitting (B : Binding) (P : Path) (parts : List Part) (after : Option (List Bytes)) : Prop where
  flags : ∀ x ∈ said [] parts, (B.kind (B.loc x.2.owner x.2.flag.name)).fits x.2.flag.mode = true ∧
    ((B.kind (B.loc x.2.owner x.2.flag.name)).text = true → ∀ v, x.2.word.value = some v → isUtf8 v = true)
  params : ∀ p ∈ partParams parts after, (B.ckind P).takes p = true

/-- **C130.** The order of the parts does not matter. Take two lines for the same command, with the same parameters
in the same order, that say the same things, in the same order, about the flags of each target. However the flags of
different targets, the words and the parameters are arranged, and whether the parameters stand before or after `--`:
both lines are accepted, for the same command, with the same values at all targets except help objects, and with the
same parameters. A help object gets the same value as well if what is said about it stands after the same words. -/
theorem order_does_not_matter (so : Sorter) (se : Searcher) (cs : List Command) (hd : (cs.map (·.path)).Nodup)
    (hn : ∀ c ∈ cs, (c.flags.map (·.name)).Nodup)
    (P : Path) (hP : ∃ c ∈ cs, c.path = P) (hu : ∀ w ∈ P, isUtf8 w = true)
    (hw : ∀ w ∈ P, ∀ x xs, w ≠ 0x2d :: x :: xs)
    (B : Binding) (err : Err ε R) (s : Targets B ε)
    (parts parts' : List Part) (after after' : Option (List Bytes))
    (hpl : InPlace cs P [] false parts) (hpl' : InPlace cs P [] false parts')
    (hws : partWords parts = P) (hws' : partWords parts' = P)
    (hfit : Fitting B P parts after) (hfit' : Fitting B P parts' after')
    (hsaid : ∀ l, (saidTo B l parts).map (·.2) = (saidTo B l parts').map (·.2))
    (hpar : partParams parts after = partParams parts' after') :
    ∃ i c s1 s2, (compile so cs).cmds[i]? = some c ∧ c.path = P ∧
      parse (bound B err (compile so cs).cmds) se (compile so cs) (mixedLine parts after) s = .ok s1 i ∧
      parse (bound B err (compile so cs).cmds) se (compile so cs) (mixedLine parts' after') s = .ok s2 i ∧
      s1.err = s.err ∧ s2.err = s.err ∧ (∀ q, s1.params q = s2.params q) ∧
      ∀ l, (B.kind l ≠ .help ∨ saidTo B l parts = saidTo B l parts') → s1.flags l = s2.flags l := by
  obtain ⟨idx, hidx, key⟩ := mixed_line_understood so se cs hd hn P hP hu hw B err
  obtain ⟨c0, hc0, hp0⟩ := hP
  obtain ⟨c, hc, hp⟩ := hidx c0 hc0
  rw [hp0] at hc hp
  have hnone : ∀ (parts : List Part) (after : Option (List Bytes)), InPlace cs P [] false parts →
      Fitting B P parts after → letterErrors B (mixedLetters idx P parts after) = [] := by
    intro parts after hpl hfit
    have h := Mixed.errors_mixed B idx P parts after
    have e1 : (said [] parts).flatMap (fun x => Mixed.settingErrors B x.2) = [] :=
      List.flatMap_eq_nil_iff.mpr fun x hx => Mixed.setting_fits _ x.2 cs x.1
        (Mixed.said_usable cs P parts [] false hpl x hx) (hfit.flags x hx).1 (hfit.flags x hx).2
    have e2 : (partParams parts after).flatMap (fun p => (B.ckind P).error (some p)) = [] :=
      List.flatMap_eq_nil_iff.mpr fun p hp => Mixed.param_taken _ p (hfit.params p hp)
    rw [e1, e2] at h
    exact h.eq_nil
  have k1 := key parts after s hpl hws
  have k2 := key parts' after' s hpl' hws'
  rw [hnone parts after hpl hfit] at k1
  rw [hnone parts' after' hpl' hfit'] at k2
  obtain ⟨s1, a1, a2, a3, a4, a5⟩ := k1
  obtain ⟨s2, b1, b2, b3, b4, b5⟩ := k2
  refine ⟨idx P, c, s1, s2, hc, hp, a2, b2, a1, b1, ?_, ?_⟩
  · intro q
    by_cases hq : q = P
    · subst hq; rw [a4, b4, hpar]
    · rw [a5 q hq, b5 q hq]
  · intro l hl
    rw [a3 l, b3 l]
    rcases hl with hl | hl
    · refine Mixed.value_said _ hl _ _ _ ?_
      have h := congrArg (List.map Setting.report) (hsaid l)
      rw [List.map_map, List.map_map] at h ⊢
      exact h
    · rw [hl]

theorem Mixed.raise_vec (e xs : List Error) : raise vecError e xs = (e ++ xs, none) := by
  induction xs generalizing e with
  | nil => rw [List.append_nil]; rfl
  | cons x xs ih =>
    rw [raise_cons]
    show raise vecError (e ++ [x]) xs = _
    rw [ih, List.append_assoc]; rfl

/-- **C130.** The same with errors. If some of it does not fit the targets and errors are collected, then the two
lines give the same command, the same values and parameters, and the same errors up to their order. -/
theorem order_does_not_matter_with_errors (so : Sorter) (se : Searcher) (cs : List Command)
    (hd : (cs.map (·.path)).Nodup) (hn : ∀ c ∈ cs, (c.flags.map (·.name)).Nodup)
    (P : Path) (hP : ∃ c ∈ cs, c.path = P) (hu : ∀ w ∈ P, isUtf8 w = true)
    (hw : ∀ w ∈ P, ∀ x xs, w ≠ 0x2d :: x :: xs)
    (B : Binding) (s : Targets B (List Error))
    (parts parts' : List Part) (after after' : Option (List Bytes))
    (hpl : InPlace cs P [] false parts) (hpl' : InPlace cs P [] false parts')
    (hws : partWords parts = P) (hws' : partWords parts' = P)
    (hall : ((said [] parts).map (·.2)).Perm ((said [] parts').map (·.2)))
    (hsaid : ∀ l, (saidTo B l parts).map (·.2) = (saidTo B l parts').map (·.2))
    (hpar : partParams parts after = partParams parts' after') :
    ∃ i c s1 s2, (compile so cs).cmds[i]? = some c ∧ c.path = P ∧
      parse (bound B vecError (compile so cs).cmds) se (compile so cs) (mixedLine parts after) s = .ok s1 i ∧
      parse (bound B vecError (compile so cs).cmds) se (compile so cs) (mixedLine parts' after') s = .ok s2 i ∧
      s1.err.Perm s2.err ∧ (∀ q, s1.params q = s2.params q) ∧
      ∀ l, (B.kind l ≠ .help ∨ saidTo B l parts = saidTo B l parts') → s1.flags l = s2.flags l := by
  obtain ⟨idx, hidx, key⟩ := mixed_line_understood so se cs hd hn P hP hu hw B vecError
  obtain ⟨c0, hc0, hp0⟩ := hP
  obtain ⟨c, hc, hp⟩ := hidx c0 hc0
  rw [hp0] at hc hp
  have k1 := key parts after s hpl hws
  have k2 := key parts' after' s hpl' hws'
  rw [Mixed.raise_vec] at k1 k2
  obtain ⟨s1, a1, a2, a3, a4, a5⟩ := k1
  obtain ⟨s2, b1, b2, b3, b4, b5⟩ := k2
  refine ⟨idx P, c, s1, s2, hc, hp, a2, b2, ?_, ?_, ?_⟩
  · rw [a1, b1]
    refine List.Perm.append_left _ ?_
    refine (Mixed.errors_mixed B idx P parts after).trans (.trans ?_ (Mixed.errors_mixed B idx P parts' after').symm)
    rw [hpar]
    refine List.Perm.append_right _ ?_
    have := hall.flatMap_right (Mixed.settingErrors B)
    rw [List.flatMap_map, List.flatMap_map] at this
    exact this
  · intro q
    by_cases hq : q = P
    · subst hq; rw [a4, b4, hpar]
    · rw [a5 q hq, b5 q hq]
  · intro l hl
    rw [a3 l, b3 l]
    rcases hl with hl | hl
    · refine Mixed.value_said _ hl _ _ _ ?_
      have h := congrArg (List.map Setting.report) (hsaid l)
      rw [List.map_map, List.map_map] at h ⊢
      exact h
    · rw [hl]

/-! ## Lines in the usual order -/

/-- The usual order: the words, the settings, `--`, the parameters. -/
def usualParts (P : Path) (settings : List Setting) : List Part := P.map .word ++ settings.map .setting

/-- **C130.** The lines of C66 are such lines, and every line means what the line in the usual order means that says
the same things. -/
theorem usual_line (cs : List Command) (P : Path) (hP : ∃ c ∈ cs, c.path = P) (settings : List Setting)
    (hs : ∀ st ∈ settings, Usable cs P st) (params : List Bytes) :
    mixedLine (usualParts P settings) (some params) = commandLine P settings params ∧
    InPlace cs P [] false (usualParts P settings) ∧ partWords (usualParts P settings) = P ∧
    said [] (usualParts P settings) = settings.map (fun st => (P, st)) ∧
    partParams (usualParts P settings) (some params) = params := by
  have hset : ∀ ss : List Setting, (∀ st ∈ ss, Usable cs P st) → ∀ k,
      InPlace cs P P k (ss.map Part.setting) ∧ partWords (ss.map Part.setting) = [] ∧
      said P (ss.map Part.setting) = ss.map (fun st => (P, st)) ∧
      (ss.map Part.setting).flatMap Part.args = ss.flatMap Setting.args := by
    intro ss
    induction ss with
    | nil => intro _ k; exact ⟨trivial, rfl, rfl, rfl⟩
    | cons st ss ih =>
      intro hs k
      obtain ⟨i1, i2, i3, i4⟩ := ih (fun x hx => hs x (by simp [hx])) k
      refine ⟨⟨hP, hs st (by simp), i1⟩, i2, ?_, ?_⟩
      · rw [List.map_cons, said, i3]; rfl
      · rw [List.map_cons, List.flatMap_cons, i4]; rfl
  obtain ⟨s1, s2, s3, s4⟩ := hset settings hs false
  have hword : ∀ (ws pre : Path), pre ++ ws = P →
      InPlace cs P pre false (ws.map Part.word ++ settings.map Part.setting) ∧
      partWords (ws.map Part.word ++ settings.map Part.setting) = ws ∧
      said pre (ws.map Part.word ++ settings.map Part.setting) = settings.map (fun st => (P, st)) ∧
      (ws.map Part.word ++ settings.map Part.setting).flatMap Part.args = ws ++ settings.flatMap Setting.args := by
    intro ws
    induction ws with
    | nil =>
      intro pre h
      have h : pre = P := by simpa using h
      subst h
      exact ⟨s1, s2, s3, s4⟩
    | cons w ws ih =>
      intro pre h
      obtain ⟨i1, i2, i3, i4⟩ := ih (pre ++ [w]) (by simpa using h)
      refine ⟨⟨rfl, i1⟩, ?_, i3, ?_⟩
      · show w :: partWords (ws.map Part.word ++ settings.map Part.setting) = _
        rw [i2]
      · show w :: (ws.map Part.word ++ settings.map Part.setting).flatMap Part.args = _
        rw [i4]; rfl
  obtain ⟨w1, w2, w3, w4⟩ := hword P [] rfl
  refine ⟨?_, w1, w2, w3, ?_⟩
  · rw [mixedLine, usualParts, w4]; rfl
  · have hp1 : ∀ ss : List Setting, partParams (ss.map Part.setting) none = [] := by
      intro ss; induction ss with
      | nil => rfl
      | cons st ss ih => exact ih
    have hp2 : ∀ ws : Path, partParams (ws.map Part.word ++ settings.map Part.setting) none = [] := by
      intro ws; induction ws with
      | nil => exact hp1 settings
      | cons st ss ih => exact ih
    have := hp2 P
    simp only [partParams, Option.getD_none, List.append_nil] at this
    rw [partParams, usualParts, this]; rfl

/-! ## Examples -/

/-- `remote --verbose add --help p --url x q --no-verbose -- --r` -/
def demoParts : List Part :=
  [.word (b "remote"), .setting ⟨[b "remote"], ⟨b "verbose", .toggle, none⟩, .on⟩, .word (b "add"),
   .setting ⟨[], ⟨b "help", .set, none⟩, .on⟩, .param (b "p"),
   .setting ⟨[b "remote", b "add"], ⟨b "url", .parse, none⟩, .next (b "x")⟩, .param (b "q"),
   .setting ⟨[b "remote"], ⟨b "verbose", .toggle, none⟩, .off⟩]

/-- `remote add --url x --verbose --help --no-verbose` with all parameters after `--`. -/
def demoParts' : List Part :=
  [.word (b "remote"), .word (b "add"), .setting ⟨[b "remote", b "add"], ⟨b "url", .parse, none⟩, .next (b "x")⟩,
   .setting ⟨[b "remote"], ⟨b "verbose", .toggle, none⟩, .on⟩, .setting ⟨[], ⟨b "help", .set, none⟩, .on⟩,
   .setting ⟨[b "remote"], ⟨b "verbose", .toggle, none⟩, .off⟩]

/-- What they look like. -/
example : mixedLine demoParts (some [b "--r"]) =
    [b "remote", b "--verbose", b "add", b "--help", b "p", b "--url", b "x", b "q", b "--no-verbose", b "--", b "--r"] ∧
    mixedLine demoParts' (some [b "p", b "q", b "--r"]) =
    [b "remote", b "add", b "--url", b "x", b "--verbose", b "--help", b "--no-verbose", b "--", b "p", b "q", b "--r"] := by
  decide +kernel

theorem demo_usable (P : Path) (st : Setting)
    (h : (demo.any fun c => c.path == st.owner && c.flags.contains st.flag) = true ∧
      st.owner.isPrefixOf P = true ∧
      (demo.all fun d => !(d.path.isPrefixOf P && hasFlag st.flag.name d) ||
        decide (d.path.length ≤ st.owner.length)) = true ∧
      isUtf8 st.flag.name = true ∧ (!(st.flag.name.contains 0x3d)) = true ∧ (!st.flag.name.isEmpty) = true)
    (hm : match st.word with
      | .on => st.flag.mode = .set ∨ st.flag.mode = .toggle
      | .off => st.flag.mode = .toggle ∧ ∀ d ∈ demo, hasFlag (noDash ++ st.flag.name) d = false
      | .inline _ | .next _ => st.flag.mode = .parse) : Usable demo P st := by
  obtain ⟨h1, h2, h3, h4, h5, h6⟩ := h
  rw [List.any_eq_true] at h1
  obtain ⟨c, hc, h1⟩ := h1
  rw [Bool.and_eq_true, beq_iff_eq, List.contains_iff_mem] at h1
  rw [List.all_eq_true] at h3
  refine ⟨⟨c, hc, h1⟩, List.isPrefixOf_iff_prefix.mp h2, ?_, h4, ?_, ?_, ?_⟩
  · intro d hd hp hf
    have := h3 d hd
    rw [List.isPrefixOf_iff_prefix.mpr hp, hf] at this
    simpa using this
  · simpa using h5
  · simpa using h6
  · obtain ⟨o, f, w⟩ := st
    cases w with
    | on => exact hm
    | off => exact ⟨hm.1, fun d hd _ => hm.2 d hd⟩
    | inline v => exact hm
    | next v => exact hm

/-- Both are placed. -/
theorem demo_placed : InPlace demo [b "remote", b "add"] [] false demoParts ∧
    InPlace demo [b "remote", b "add"] [] false demoParts' := by
  have r : ∃ c ∈ demo, c.path = [b "remote"] := by decide +kernel
  have ra : ∃ c ∈ demo, c.path = [b "remote", b "add"] := by decide +kernel
  have np : ∀ c ∈ demo, ¬ [b "remote", b "add"] ++ [b "p"] <+: c.path := by decide +kernel
  have dash : ∀ p : Bytes, p.head? ≠ some 0x2d → ∀ x xs, p ≠ 0x2d :: x :: xs := by
    intro p h x xs e; rw [e] at h; exact h rfl
  refine ⟨⟨rfl, r, demo_usable _ _ (by decide +kernel) (Or.inr rfl), rfl, ra,
    demo_usable _ _ (by decide +kernel) (Or.inl rfl), rfl, dash _ (by decide +kernel), fun _ => np, ra,
    demo_usable _ _ (by decide +kernel) rfl, rfl, dash _ (by decide +kernel), (by intro h; cases h), ra,
    demo_usable _ _ (by decide +kernel) ⟨rfl, by decide +kernel⟩, trivial⟩,
    ⟨rfl, rfl, ra, demo_usable _ _ (by decide +kernel) rfl, ra, demo_usable _ _ (by decide +kernel) (Or.inr rfl), ra,
    demo_usable _ _ (by decide +kernel) (Or.inl rfl), ra,
    demo_usable _ _ (by decide +kernel) ⟨rfl, by decide +kernel⟩, trivial⟩⟩

/-- The other hypotheses of `order_does_not_matter` hold as well, and its conclusion for these two lines. -/
example (s : Targets demoBinding (List Error)) :
    ∃ i s1 s2,
      parse (bound demoBinding vecError (compile insertSorter demo).cmds) linearSearcher (compile insertSorter demo)
        (mixedLine demoParts (some [b "--r"])) s = .ok s1 i ∧
      parse (bound demoBinding vecError (compile insertSorter demo).cmds) linearSearcher (compile insertSorter demo)
        (mixedLine demoParts' (some [b "p", b "q", b "--r"])) s = .ok s2 i ∧
      s1.flags .verbose = s2.flags .verbose ∧ s1.flags .url = s2.flags .url ∧ s1.flags .help = s2.flags .help := by
  have hsaid : ∀ l, (saidTo demoBinding l demoParts).map (·.2) = (saidTo demoBinding l demoParts').map (·.2) := by
    intro l; cases l <;> decide +kernel
  have hfit : ∀ parts after, ((said [] parts).all fun x =>
      (demoBinding.kind (demoBinding.loc x.2.owner x.2.flag.name)).fits x.2.flag.mode &&
        (x.2.word.value.all isUtf8)) = true → Fitting demoBinding [b "remote", b "add"] parts after := by
    intro parts after h
    rw [List.all_eq_true] at h
    refine ⟨fun x hx => ?_, fun _ _ => rfl⟩
    have := h x hx
    rw [Bool.and_eq_true] at this
    refine ⟨this.1, fun _ v hv => ?_⟩
    rw [hv] at this
    exact this.2
  obtain ⟨i, c, s1, s2, _, _, h1, h2, _, _, _, h3⟩ := order_does_not_matter insertSorter linearSearcher demo
    (by decide +kernel) (by decide +kernel) [b "remote", b "add"] (by decide +kernel) (by decide +kernel)
    (by
      intro w hw x xs e
      have : ∀ w ∈ [b "remote", b "add"], w.head? ≠ some 0x2d := by decide +kernel
      exact this w hw (by rw [e]; rfl))
    demoBinding vecError s demoParts demoParts' (some [b "--r"]) (some [b "p", b "q", b "--r"]) demo_placed.1 demo_placed.2
    (by decide +kernel) (by decide +kernel) (hfit _ _ (by decide +kernel)) (hfit _ _ (by decide +kernel)) hsaid
    (by decide +kernel)
  exact ⟨i, s1, s2, h1, h2, h3 .verbose (Or.inl (by decide)), h3 .url (Or.inl (by decide)),
    h3 .help (Or.inr (by decide +kernel))⟩

/-- Where a help flag stands does matter: `remote --help add` asks about `remote`, `remote add --help` about
`remote add`. -/
example : parse record linearSearcher (compile insertSorter demo) [b "remote", b "--help", b "add"] [] =
      .ok [.set 0 0 1 (b "help"), .parameter 2 none] 2 ∧
    parse record linearSearcher (compile insertSorter demo) [b "remote", b "add", b "--help"] [] =
      .ok [.set 0 0 2 (b "help"), .parameter 2 none] 2 := by decide +kernel

/-- And so does the place of the words: after a parameter, `add` is a parameter of `remote`. -/
example : parse record linearSearcher (compile insertSorter demo) [b "remote", b "p", b "add"] [] =
      .ok [.parameter 1 (some (b "p")), .parameter 1 (some (b "add")), .parameter 1 none] 1 := by decide +kernel

end Verif.Args
