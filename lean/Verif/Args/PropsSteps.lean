import Verif.Args.LemmasSteps
import Verif.Args.PropsMixed
/-! # Property theorems: arguments are understood from left to right, and flags one at a time (C131) -/
namespace Verif.Args

/-- **C131.** What has been told stays told. Unless the arguments end with a flag whose value is missing, whatever
follows them only adds to the reports, and the command that is selected is the same or one below. -/
theorem told_grows (so : Sorter) (se : Searcher) (cs : List Command) (x y : List Bytes)
    (hx : ¬ Waits (told so se cs x)) :
    told so se cs x <+: told so se cs (x ++ y) ∧
    ∀ i j c d, chosen so se cs x = some i → chosen so se cs (x ++ y) = some j →
      (compile so cs).cmds[i]? = some c → (compile so cs).cmds[j]? = some d → c.path <+: d.path := by
  obtain ⟨find, _, hp⟩ := parse_refines so se cs
  obtain ⟨h1, h2⟩ := Steps.told_items so se cs find hp x
  obtain ⟨h3, h4⟩ := Steps.told_items so se cs find hp (x ++ y)
  rw [h1] at hx
  rw [Steps.items_append _ find x.length x (Nat.le_refl _) _ _ _ y (Steps.waits_told _ hx)] at h3 h4
  rw [h1, h3, List.filterMap_append]
  refine ⟨List.prefix_append _ _, ?_⟩
  intro i j c d hi hj hc hd
  rw [h2] at hi
  rw [h4, Mixed.words_append] at hj
  rw [selected, List.findIdx?_eq_some_iff_getElem] at hi hj
  obtain ⟨a1, a2, _⟩ := hi
  obtain ⟨b1, b2, _⟩ := hj
  rw [List.getElem?_eq_getElem a1, Option.some.injEq] at hc
  rw [List.getElem?_eq_getElem b1, Option.some.injEq] at hd
  rw [hc, beq_iff_eq] at a2
  rw [hd, beq_iff_eq] at b2
  rw [a2, b2]
  exact List.prefix_append _ _

/-- **C131.** Flags leave everything else alone. If an argument is reported as a flag that is complete, be it right or
wrong, then the arguments after it are reported as if it was not there, and the same command is selected. -/
theorem flag_argument (so : Sorter) (se : Searcher) (cs : List Command) (x : List Bytes) (w : Bytes) (e : Event)
    (hx : ¬ Waits (told so se cs x)) (he : e.isFlag = true) (hw : told so se cs (x ++ [w]) = told so se cs x ++ [e])
    (y : List Bytes) :
    ∃ t, told so se cs (x ++ y) = told so se cs x ++ t ∧ told so se cs (x ++ w :: y) = told so se cs x ++ e :: t ∧
      chosen so se cs (x ++ w :: y) = chosen so se cs (x ++ y) := by
  obtain ⟨find, _, hp⟩ := parse_refines so se cs
  obtain ⟨h1, _⟩ := Steps.told_items so se cs find hp x
  rw [h1] at hx
  have happ := fun y => Steps.items_append _ find x.length x (Nat.le_refl _) _ _ _ y (Steps.waits_told _ hx)
  have ha := fun y => Steps.told_items so se cs find hp (x ++ y)
  simp only [happ, List.filterMap_append] at ha
  rw [← h1] at ha
  rw [(ha [w]).1] at hw
  have hw := List.append_cancel_left hw
  have hs := Steps.flag_step _ find _ _ _ w e he hw
  refine ⟨_, (ha y).1, ?_, ?_⟩
  · rw [(ha (w :: y)).1, hs]; rfl
  · rw [(ha (w :: y)).2, (ha y).2, hs]
    rw [Mixed.words_append, Mixed.words_append, Mixed.words_report]

/-- **C131.** The same for a flag that takes the next argument as its value: whatever that is, it is the value, and
everything else is reported as if neither was there. -/
theorem flag_and_value (so : Sorter) (se : Searcher) (cs : List Command) (x : List Bytes) (w name : Bytes)
    (hx : ¬ Waits (told so se cs x))
    (hw : told so se cs (x ++ [w]) = told so se cs x ++ [.error (.flagNoValue name)]) :
    ∃ c f at_, ∀ (v : Bytes) (y : List Bytes), ∃ t, told so se cs (x ++ y) = told so se cs x ++ t ∧
      told so se cs (x ++ w :: v :: y) = told so se cs x ++ .parse c f at_ name v :: t ∧
      chosen so se cs (x ++ w :: v :: y) = chosen so se cs (x ++ y) := by
  obtain ⟨find, _, hp⟩ := parse_refines so se cs
  obtain ⟨h1, _⟩ := Steps.told_items so se cs find hp x
  rw [h1] at hx
  have happ := fun y => Steps.items_append _ find x.length x (Nat.le_refl _) _ _ _ y (Steps.waits_told _ hx)
  have ha := fun y => Steps.told_items so se cs find hp (x ++ y)
  simp only [happ, List.filterMap_append] at ha
  rw [← h1] at ha
  rw [(ha [w]).1] at hw
  have hw := List.append_cancel_left hw
  obtain ⟨c, f, at_, hs⟩ := Steps.wait_step _ find _ _ _ w name hw
  refine ⟨c, f, at_, fun v y => ⟨_, (ha y).1, ?_, ?_⟩⟩
  · rw [(ha (w :: v :: y)).1, hs]; rfl
  · rw [(ha (w :: v :: y)).2, (ha y).2, hs]
    rw [Mixed.words_append, Mixed.words_append, Mixed.words_report]

/-- **C131.** What this means for the targets: a flag, right or wrong, changes no target but its own, no parameters, and
not the command. With it the errors are those without it and those it causes itself, in between. -/
theorem flag_on_targets (so : Sorter) (se : Searcher) (cs : List Command) (x : List Bytes) (w : Bytes) (e : Event)
    (hx : ¬ Waits (told so se cs x)) (he : e.isFlag = true) (hw : told so se cs (x ++ [w]) = told so se cs x ++ [e])
    (y : List Bytes) (B : Binding) (s : Targets B (List Error)) :
    ∃ s1 s2,
      (parse (bound B vecError (compile so cs).cmds) se (compile so cs) (x ++ y) s).state = some (s1, none) ∧
      (parse (bound B vecError (compile so cs).cmds) se (compile so cs) (x ++ w :: y) s).state = some (s2, none) ∧
      (parse (bound B vecError (compile so cs).cmds) se (compile so cs) (x ++ w :: y) s).command =
        (parse (bound B vecError (compile so cs).cmds) se (compile so cs) (x ++ y) s).command ∧
      (∀ q, s1.params q = s2.params q) ∧
      (∀ l, (∀ p name at_ r, letter (compile so cs).cmds e = some (.flag p name at_ r) → B.loc p name ≠ l) →
        s1.flags l = s2.flags l) ∧
      ∃ before after, s1.err = before ++ after ∧
        s2.err = before ++ letterErrors B (letter (compile so cs).cmds e).toList ++ after := by
  obtain ⟨find, _, hp⟩ := parse_refines so se cs
  obtain ⟨h1, _⟩ := Steps.told_items so se cs find hp x
  rw [h1] at hx
  have happ := fun y => Steps.items_append _ find x.length x (Nat.le_refl _) _ _ _ y (Steps.waits_told _ hx)
  have ha := fun y => Steps.told_items so se cs find hp (x ++ y)
  simp only [happ, List.filterMap_append] at ha
  rw [← h1] at ha
  rw [(ha [w]).1] at hw
  have hw := List.append_cancel_left hw
  have hs := Steps.flag_step _ find _ _ _ w e he hw
  have hp := fun a => hp _ _ (bound B vecError (compile so cs).cmds) (x ++ a) s
  simp only [happ] at hp
  rw [hp, hp, hs]
  generalize (compile so cs).cmds = S at *
  generalize items S find [] true true x = i1
  generalize items S find ([] ++ commandWords i1) (true && i1.all Steps.openCmds) (true && i1.all Steps.openFlags) y = i2
  have hcw : commandWords (i1 ++ .report [w] e :: i2) = commandWords (i1 ++ i2) := by
    rw [Mixed.words_append, Mixed.words_append, Mixed.words_report]
  obtain ⟨d1, r1, a1, a2, a3, a4, a5⟩ := deliver_bound B vecError S (events S (i1 ++ i2)) s
  obtain ⟨d2, r2, b1, b2, b3, b4, b5⟩ := deliver_bound B vecError S (events S (i1 ++ .report [w] e :: i2)) s
  rw [Mixed.raise_vec] at a4 b4
  rw [specResult_state, specResult_state, specResult, specResult, hcw]
  generalize deliver (bound B vecError S) s (events S (i1 ++ i2)) = u at a2 a3 a4 a5 ⊢
  generalize deliver (bound B vecError S) s (events S (i1 ++ .report [w] e :: i2)) = v at b2 b3 b4 b5 ⊢
  obtain ⟨u, o⟩ := u
  obtain ⟨v, o'⟩ := v
  rw [Prod.mk.injEq] at a4 b4
  have a6 : o = none := a4.2.symm
  have b6 : o' = none := b4.2.symm
  subst a6 b6
  have a5 := a5 rfl
  have b5 := b5 rfl
  subst a5 b5
  rw [List.append_nil] at a1 b1
  refine ⟨u, v, rfl, rfl, ?_, ?_, ?_, ?_⟩
  · simp only []; cases selected S (commandWords (i1 ++ i2)) <;> rfl
  all_goals
    have e1 : d1.filterMap (letter S) = (i1.filterMap Item.event).filterMap (letter S) ++
        ((i2.filterMap Item.event ++ endEvents S (commandWords (i1 ++ i2))).filterMap (letter S)) := by
      simp only [← a1, events, List.filterMap_append, List.append_assoc]
    have e2 : d2.filterMap (letter S) = (i1.filterMap Item.event).filterMap (letter S) ++ ((letter S e).toList ++
        ((i2.filterMap Item.event ++ endEvents S (commandWords (i1 ++ i2))).filterMap (letter S))) := by
      have : (i1 ++ Item.report [w] e :: i2).filterMap Item.event =
          i1.filterMap Item.event ++ ([e] ++ i2.filterMap Item.event) := by rw [List.filterMap_append]; rfl
      rw [← b1, events, hcw, this, List.append_assoc, List.append_assoc, List.filterMap_append, List.filterMap_append,
        filterMap_one]
    generalize (i1.filterMap Item.event).filterMap (letter S) = L1 at e1 e2
    generalize (i2.filterMap Item.event ++ endEvents S (commandWords (i1 ++ i2))).filterMap (letter S) = L2 at e1 e2
  · intro q
    have hz : toPath q (letter S e).toList = [] := by
      cases e with
      | parameter c o => cases he
      | error x => rfl
      | set c f a n => simp only [letter, flagLetter]; split <;> rfl
      | toggle c f a n t => simp only [letter, flagLetter]; split <;> rfl
      | parse c f a n t => simp only [letter, flagLetter]; split <;> rfl
    rw [a3 q, b3 q, e1, e2]
    have hap : ∀ x y, toPath q (x ++ y) = toPath q x ++ toPath q y := fun x y => List.filterMap_append
    rw [hap, hap, hap, hz, List.nil_append]
  · intro l hl
    have hz : toLoc B l (letter S e).toList = [] := by
      cases hle : letter S e with
      | none => rfl
      | some a =>
        cases a with
        | error x => rfl
        | param p o => rfl
        | flag p n a r => simp [toLoc, hl p n a r hle]
    rw [a2 l, b2 l, e1, e2]
    have hap : ∀ x y, toLoc B l (x ++ y) = toLoc B l x ++ toLoc B l y := fun x y => List.filterMap_append
    rw [hap, hap, hap, hz, List.nil_append]
  · refine ⟨s.err ++ letterErrors B L1, letterErrors B L2, ?_, ?_⟩
    · rw [← a4.1, e1, letterErrors_append, List.append_assoc]
    · rw [← b4.1, e2, letterErrors_append, letterErrors_append]
      simp only [List.append_assoc]

/-! ## Examples -/

/-- Hypotheses: after `remote`, the flag `--verbose` is complete, `--bogus` is wrong, and after `remote add`,
`--url` waits for a value. -/
example : ¬ Waits (told insertSorter linearSearcher demo [b "remote"]) ∧
    told insertSorter linearSearcher demo ([b "remote"] ++ [b "--verbose"]) =
      told insertSorter linearSearcher demo [b "remote"] ++ [.toggle 1 0 1 (b "verbose") true] ∧
    (Event.toggle 1 0 1 (b "verbose") true).isFlag = true := by
  have h : told insertSorter linearSearcher demo [b "remote"] = [] := by decide +kernel
  refine ⟨?_, by decide +kernel, rfl⟩
  rw [h]; rintro ⟨_, h⟩; cases h

example : told insertSorter linearSearcher demo ([b "remote"] ++ [b "--bogus"]) =
      told insertSorter linearSearcher demo [b "remote"] ++ [.error (.flagUnknown (b "bogus"))] ∧
    told insertSorter linearSearcher demo ([b "remote"] ++ [b "--bogus", b "add", b "p"]) =
      [.error (.flagUnknown (b "bogus")), .parameter 2 (some (b "p"))] ∧
    told insertSorter linearSearcher demo ([b "remote"] ++ [b "add", b "p"]) = [.parameter 2 (some (b "p"))] := by
  decide +kernel

example : told insertSorter linearSearcher demo ([b "remote", b "add"] ++ [b "--url"]) =
      told insertSorter linearSearcher demo [b "remote", b "add"] ++ [.error (.flagNoValue (b "url"))] ∧
    told insertSorter linearSearcher demo ([b "remote", b "add"] ++ [b "--url", b "--", b "--help"]) =
      [.parse 2 0 2 (b "url") (b "--"), .set 0 0 2 (b "help")] := by
  decide +kernel

/-- That the arguments before do not wait for a value is needed: here `--bogus` is that value. -/
example : Waits (told insertSorter linearSearcher demo [b "remote", b "add", b "--url"]) ∧
    told insertSorter linearSearcher demo [b "remote", b "add", b "--url", b "--bogus"] =
      [.parse 2 0 2 (b "url") (b "--bogus")] := by
  refine ⟨⟨b "url", ?_⟩, ?_⟩ <;> decide +kernel

/-- Parameters do not leave everything else alone: after one, `add` is no command. -/
example : told insertSorter linearSearcher demo ([b "remote"] ++ [b "add"]) = [] ∧
    told insertSorter linearSearcher demo ([b "remote"] ++ [b "p", b "add"]) =
      [.parameter 1 (some (b "p")), .parameter 1 (some (b "add"))] := by
  decide +kernel

end Verif.Args
