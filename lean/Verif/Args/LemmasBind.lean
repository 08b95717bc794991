import Verif.Args.SpecBind
import Verif.Args.Props
/-! # Lemmas: bound targets and command lines -/
namespace Verif.Args

variable {ε R : Type}

/-! ## One report -/

/-- The update of a target by one report. -/
def Kind.upd (k : Kind) (t : k.T) (a : Nat × Report) : k.T := k.value t [a]

theorem filterMap_one {A B : Type} (p : A → Option B) (a : A) : [a].filterMap p = (p a).toList := by
  cases h : p a <;> simp [h]

/-- Folding the last hit. -/
theorem last_cons {A : Type} (o : Option A) (l : List A) (k : A → T) (t : T) :
    ((o.toList ++ l).getLast?.map k).getD t = (l.getLast?.map k).getD ((o.toList.getLast?.map k).getD t) := by
  cases o with
  | none => simp
  | some a =>
    simp only [Option.toList, List.singleton_append, List.getLast?_cons]
    cases l.getLast? <;> simp

theorem toggles_cons (r : Report) (l : List Report) : toggles (r :: l) = toggles [r] ++ toggles l := by
  show toggles ([r] ++ l) = _
  exact List.filterMap_append
theorem values_cons (ok : Bytes → Bool) (r : Report) (l : List Report) :
    values ok (r :: l) = values ok [r] ++ values ok l := by
  show values ok ([r] ++ l) = _
  exact List.filterMap_append
theorem params_cons (ok : Bytes → Bool) (r : Option Bytes) (l : List (Option Bytes)) :
    params ok (r :: l) = params ok [r] ++ params ok l := by
  show params ok ([r] ++ l) = _
  exact List.filterMap_append

theorem getLast_append {A T : Type} (x y : List A) (k : A → T) (t : T) :
    ((x ++ y).getLast?.map k).getD t = (y.getLast?.map k).getD ((x.getLast?.map k).getD t) := by
  rw [List.getLast?_append]
  cases y.getLast? <;> simp

theorem getLast_append' {A : Type} (x y : List A) (t : A) :
    ((x ++ y).getLast?).getD t = (y.getLast?).getD ((x.getLast?).getD t) := by
  rw [List.getLast?_append]
  cases y.getLast? <;> simp

theorem optAppend_append {A : Type} (t : Option (List A)) (x y : List A) :
    optAppend t (x ++ y) = optAppend (optAppend t x) y := by
  cases x <;> cases y <;> simp [optAppend]

theorem Kind.value_cons (k : Kind) (t : k.T) (a : Nat × Report) (l : List (Nat × Report)) :
    k.value t (a :: l) = k.value (k.upd t a) l := by
  cases k <;> simp only [Kind.upd, Kind.value, List.map_cons, List.map_nil]
  all_goals first
    | (rw [toggles_cons, getLast_append])
    | (rw [toggles_cons, getLast_append'])
    | (rw [values_cons, getLast_append])
    | (rw [values_cons, getLast_append'])
    | (rw [values_cons, List.append_assoc])
    | (rw [values_cons, optAppend_append])
    | skip
  rw [show a :: l = [a] ++ l from rfl, List.filterMap_append, getLast_append']

theorem Kind.value_nil (k : Kind) (t : k.T) : k.value t [] = t := by
  cases k <;> simp [Kind.value, toggles, values, optAppend]

/-- A target either takes a report or turns it into an error. -/
theorem Kind.report_eq (k : Kind) (err : Err ε R) (at_ : Nat) (r : Report) (t : k.T) (e : ε) :
    (k.error r = [] ∧ k.report err at_ r t e = ((k.upd t (at_, r), e), none)) ∨
    (∃ x, k.error r = [x] ∧ k.upd t (at_, r) = t ∧ k.report err at_ r t e = ((t, (err e x).1), (err e x).2)) := by
  cases r with
  | set arg => cases k <;> first | exact Or.inl ⟨rfl, rfl⟩ | exact Or.inr ⟨_, rfl, rfl, rfl⟩ |
      exact Or.inr ⟨_, rfl, List.append_nil _, rfl⟩
  | toggle arg v => cases v <;> cases k <;> first | exact Or.inl ⟨rfl, rfl⟩ | exact Or.inr ⟨_, rfl, rfl, rfl⟩ |
      exact Or.inr ⟨_, rfl, List.append_nil _, rfl⟩
  | parse arg v =>
    cases hv : isUtf8 v <;> cases k <;> first
      | exact Or.inl ⟨rfl, rfl⟩
      | exact Or.inr ⟨_, rfl, rfl, rfl⟩
      | (left
         refine ⟨?_, ?_⟩
         · simp [Kind.error, valueErrors, hv]; done
         simp [Kind.report, Kind.upd, Kind.value, values, Verif.Args.str, Verif.Args.optStr, Verif.Args.vecStr,
           Verif.Args.optVecStr, FlagReport.apply, store, optAppend, hv])
      | (right
         refine ⟨.flagValueNotUtf8 arg v, by simp [Kind.error, valueErrors, hv], ?_, ?_⟩ <;>
         simp [Kind.report, Kind.upd, Kind.value, values, Verif.Args.str, Verif.Args.optStr, Verif.Args.vecStr,
           Verif.Args.optVecStr, FlagReport.apply, report_error, optAppend, hv])

/-- The update of a parameter target by one report. -/
def CKind.upd (k : CKind) (t : k.T) (o : Option Bytes) : k.T := k.value t [o]

theorem CKind.value_cons (k : CKind) (t : k.T) (a : Option Bytes) (l : List (Option Bytes)) :
    k.value t (a :: l) = k.value (k.upd t a) l := by
  cases k <;> simp only [CKind.upd, CKind.value]
  all_goals first
    | (rw [params_cons, List.append_assoc])
    | (rw [params_cons, optAppend_append])

theorem CKind.value_nil (k : CKind) (t : k.T) : k.value t [] = t := by
  cases k <;> simp [CKind.value, params, optAppend]

theorem CKind.report_eq (k : CKind) (err : Err ε R) (o : Option Bytes) (t : k.T) (e : ε) :
    (k.error o = [] ∧ k.report err o t e = ((k.upd t o, e), none)) ∨
    (∃ x, k.error o = [x] ∧ k.upd t o = t ∧ k.report err o t e = ((t, (err e x).1), (err e x).2)) := by
  cases o with
  | none =>
    cases k <;> left <;> refine ⟨rfl, ?_⟩ <;>
      simp [CKind.report, CKind.upd, CKind.value, params, cmdUnit, cmdVecOsStr, cmdOptVecOsStr, cmdVecStr,
        cmdOptVecStr, store, optAppend]
  | some v =>
    cases hv : isUtf8 v <;> cases k <;> first
      | exact Or.inl ⟨rfl, rfl⟩
      | exact Or.inr ⟨_, rfl, rfl, rfl⟩
      | (left
         refine ⟨?_, ?_⟩
         · simp [CKind.error, paramErrors, hv]; done
         simp [CKind.report, CKind.upd, CKind.value, params, cmdVecStr, cmdOptVecStr, store, optAppend, hv])
      | (right
         refine ⟨.parameterNotUtf8 v, by simp [CKind.error, paramErrors, hv], ?_, ?_⟩ <;>
         simp [CKind.report, CKind.upd, CKind.value, params, cmdVecStr, cmdOptVecStr, report_error, optAppend, hv])

/-! ## All targets -/

theorem put_same {ι : Type} [DecidableEq ι] {F : ι → Type} (f : ∀ i, F i) (i : ι) (x : F i) : put f i x i = x := by
  simp [put]

theorem put_other {ι : Type} [DecidableEq ι] {F : ι → Type} (f : ∀ i, F i) (i j : ι) (x : F i) (h : j ≠ i) :
    put f i x j = f j := by
  simp [put, h]

theorem put_id {ι : Type} [DecidableEq ι] {F : ι → Type} (f : ∀ i, F i) (i : ι) : put f i (f i) = f := by
  funext j
  by_cases h : j = i
  · subst h; rw [put_same]
  · rw [put_other _ _ _ _ h]

/-- The effect of one letter on the targets. -/
def letterTargets (B : Binding) (s : Targets B ε) (x : Letter) : Targets B ε :=
  letI := B.dec
  match x with
  | .error _ => s
  | .param p o => { s with params := put s.params p ((B.ckind p).upd (s.params p) o) }
  | .flag p name at_ r =>
    { s with flags := put s.flags (B.loc p name) ((B.kind (B.loc p name)).upd (s.flags (B.loc p name)) (at_, r)) }

theorem toFlag_eq (B : Binding) (err : Err ε R) (p : Path) (name : Bytes) (at_ : Nat) (r : Report) (s : Targets B ε) :
    let x := Letter.flag p name at_ r
    (letterErrors B [x] = [] ∧ toFlag B err p name at_ r s = (letterTargets B s x, none)) ∨
    (∃ er, letterErrors B [x] = [er] ∧ letterTargets B s x = s ∧
      toFlag B err p name at_ r s = ({ s with err := (err s.err er).1 }, (err s.err er).2)) := by
  letI := B.dec
  have e1 : letterErrors B [Letter.flag p name at_ r] = (B.kind (B.loc p name)).error r := by simp [letterErrors]
  have e2 : letterTargets B s (Letter.flag p name at_ r) =
    ⟨put s.flags (B.loc p name) ((B.kind (B.loc p name)).upd (s.flags (B.loc p name)) (at_, r)), s.params, s.err⟩ := rfl
  have e3 : toFlag B err p name at_ r s =
    (⟨put s.flags (B.loc p name) (if B.cell (B.loc p name) then
        cellOp ((B.kind (B.loc p name)).report err at_ r) (s.flags (B.loc p name)) s.err
        else (B.kind (B.loc p name)).report err at_ r (s.flags (B.loc p name)) s.err).1.1, s.params,
      (if B.cell (B.loc p name) then
        cellOp ((B.kind (B.loc p name)).report err at_ r) (s.flags (B.loc p name)) s.err
        else (B.kind (B.loc p name)).report err at_ r (s.flags (B.loc p name)) s.err).1.2⟩,
     (if B.cell (B.loc p name) then
        cellOp ((B.kind (B.loc p name)).report err at_ r) (s.flags (B.loc p name)) s.err
        else (B.kind (B.loc p name)).report err at_ r (s.flags (B.loc p name)) s.err).2) := rfl
  simp only []
  rw [e1, e2, e3]
  rcases Kind.report_eq (B.kind (B.loc p name)) err at_ r (s.flags (B.loc p name)) s.err with ⟨h1, h2⟩ | ⟨x, h1, h2, h3⟩
  · left
    refine ⟨h1, ?_⟩
    have hc : cellOp ((B.kind (B.loc p name)).report err at_ r) (s.flags (B.loc p name)) s.err =
        (B.kind (B.loc p name)).report err at_ r (s.flags (B.loc p name)) s.err := by
      rw [cellOp, h2]
    rw [hc, ite_self, h2]
  · right
    refine ⟨x, h1, ?_, ?_⟩
    · rw [h2, put_id]
    · have hc : cellOp ((B.kind (B.loc p name)).report err at_ r) (s.flags (B.loc p name)) s.err =
          (B.kind (B.loc p name)).report err at_ r (s.flags (B.loc p name)) s.err := by
        rw [cellOp, h3]
        generalize err s.err x = y
        obtain ⟨y1, y2⟩ := y
        cases y2 <;> rfl
      rw [hc, ite_self, h3, put_id]

theorem toCommand_eq (B : Binding) (err : Err ε R) (p : Path) (o : Option Bytes) (s : Targets B ε) :
    let x := Letter.param p o
    (letterErrors B [x] = [] ∧ toCommand B err p o s = (letterTargets B s x, none)) ∨
    (∃ er, letterErrors B [x] = [er] ∧ letterTargets B s x = s ∧
      toCommand B err p o s = ({ s with err := (err s.err er).1 }, (err s.err er).2)) := by
  have e1 : letterErrors B [Letter.param p o] = (B.ckind p).error o := by simp [letterErrors]
  have e2 : letterTargets B s (Letter.param p o) =
    { s with params := put s.params p ((B.ckind p).upd (s.params p) o) } := rfl
  have e3 : toCommand B err p o s =
    (⟨s.flags, put s.params p ((B.ckind p).report err o (s.params p) s.err).1.1,
      ((B.ckind p).report err o (s.params p) s.err).1.2⟩,
     ((B.ckind p).report err o (s.params p) s.err).2) := rfl
  simp only []
  rw [e1, e2, e3]
  rcases CKind.report_eq (B.ckind p) err o (s.params p) s.err with ⟨h1, h2⟩ | ⟨x, h1, h2, h3⟩
  · left
    exact ⟨h1, by rw [h2]⟩
  · right
    exact ⟨x, h1, by rw [h2, put_id], by rw [h3, put_id]⟩

/-- One report. -/
theorem bound_eq (B : Binding) (err : Err ε R) (S : List Command) (s : Targets B ε) (ev : Event) :
    match letter S ev with
    | none => bound B err S s ev = (s, none)
    | some x =>
      (letterErrors B [x] = [] ∧ bound B err S s ev = (letterTargets B s x, none)) ∨
      (∃ er, letterErrors B [x] = [er] ∧ letterTargets B s x = s ∧
        bound B err S s ev = ({ s with err := (err s.err er).1 }, (err s.err er).2)) := by
  cases ev with
  | error x => exact Or.inr ⟨x, rfl, rfl, rfl⟩
  | parameter c o =>
    rw [letter, bound]
    cases S[c]? with
    | none => rfl
    | some cm => exact toCommand_eq B err cm.path o s
  | set c f at_ arg =>
    rw [letter, bound, flagLetter]
    cases S[c]? with
    | none => rfl
    | some cm =>
      simp only [Option.bind_some]
      cases cm.flags[f]? with
      | none => rfl
      | some fl => exact toFlag_eq B err cm.path fl.name at_ _ s
  | toggle c f at_ arg v =>
    rw [letter, bound, flagLetter]
    cases S[c]? with
    | none => rfl
    | some cm =>
      simp only [Option.bind_some]
      cases cm.flags[f]? with
      | none => rfl
      | some fl => exact toFlag_eq B err cm.path fl.name at_ _ s
  | parse c f at_ arg v =>
    rw [letter, bound, flagLetter]
    cases S[c]? with
    | none => rfl
    | some cm =>
      simp only [Option.bind_some]
      cases cm.flags[f]? with
      | none => rfl
      | some fl => exact toFlag_eq B err cm.path fl.name at_ _ s

theorem letterErrors_append (B : Binding) (x y : List Letter) :
    letterErrors B (x ++ y) = letterErrors B x ++ letterErrors B y := List.flatMap_append

theorem letterTargets_flags (B : Binding) (s : Targets B ε) (x : Letter) (ls : List Letter) (l : B.Loc) :
    (B.kind l).value ((letterTargets B s x).flags l) (toLoc B l ls) = (B.kind l).value (s.flags l) (toLoc B l (x :: ls)) := by
  letI := B.dec
  cases x with
  | error x => rfl
  | param p o => rfl
  | flag p name at_ r =>
    by_cases h : B.loc p name = l
    · subst h
      have e : toLoc B (B.loc p name) (Letter.flag p name at_ r :: ls) = (at_, r) :: toLoc B (B.loc p name) ls := by
        simp [toLoc]
      rw [e, Kind.value_cons]
      congr 1
      exact put_same _ _ _
    · have e : toLoc B l (Letter.flag p name at_ r :: ls) = toLoc B l ls := by
        simp [toLoc, h]
      rw [e]
      congr 1
      exact put_other _ _ _ _ (fun h' => h h'.symm)

theorem letterTargets_params (B : Binding) (s : Targets B ε) (x : Letter) (ls : List Letter) (p : Path) :
    (B.ckind p).value ((letterTargets B s x).params p) (toPath p ls) =
      (B.ckind p).value (s.params p) (toPath p (x :: ls)) := by
  cases x with
  | error x => rfl
  | flag q name at_ r => rfl
  | param q o =>
    by_cases h : q = p
    · subst h
      have e : toPath q (Letter.param q o :: ls) = o :: toPath q ls := by simp [toPath]
      rw [e, CKind.value_cons]
      congr 1
      exact put_same _ _ _
    · have e : toPath p (Letter.param q o :: ls) = toPath p ls := by simp [toPath, h]
      rw [e]
      congr 1
      exact put_other _ _ _ _ (fun h' => h h'.symm)

theorem raise_cons (err : Err ε R) (e : ε) (x : Error) (xs : List Error) :
    raise err e (x :: xs) = match (err e x).2 with
      | some r => ((err e x).1, some r)
      | none => raise err (err e x).1 xs := by
  rw [raise]
  generalize err e x = y
  obtain ⟨y1, y2⟩ := y
  cases y2 <;> rfl

/-- All reports up to the first one that asks to stop. -/
theorem deliver_bound (B : Binding) (err : Err ε R) (S : List Command) (evs : List Event) (s : Targets B ε) :
    ∃ done rest, evs = done ++ rest ∧
      (∀ l, (deliver (bound B err S) s evs).1.flags l =
        (B.kind l).value (s.flags l) (toLoc B l (done.filterMap (letter S)))) ∧
      (∀ p, (deliver (bound B err S) s evs).1.params p =
        (B.ckind p).value (s.params p) (toPath p (done.filterMap (letter S)))) ∧
      raise err s.err (letterErrors B (done.filterMap (letter S))) =
        ((deliver (bound B err S) s evs).1.err, (deliver (bound B err S) s evs).2) ∧
      ((deliver (bound B err S) s evs).2 = none → rest = []) := by
  induction evs generalizing s with
  | nil =>
    exact ⟨[], [], rfl, fun l => (Kind.value_nil _ _).symm, fun p => (CKind.value_nil _ _).symm, rfl, fun _ => rfl⟩
  | cons ev evs ih =>
    have hb := bound_eq B err S s ev
    rw [deliver]
    cases hl : letter S ev with
    | none =>
      rw [hl] at hb
      have hb : bound B err S s ev = (s, none) := hb
      rw [hb]
      obtain ⟨done, rest, h1, h2, h3, h4, h5⟩ := ih s
      refine ⟨ev :: done, rest, by rw [h1]; rfl, ?_, ?_, ?_, h5⟩
      all_goals rw [List.filterMap_cons_none hl]; assumption
    | some x =>
      rw [hl] at hb
      rcases hb with ⟨he, hb⟩ | ⟨er, he, ht, hb⟩
      · rw [hb]
        obtain ⟨done, rest, h1, h2, h3, h4, h5⟩ := ih (letterTargets B s x)
        refine ⟨ev :: done, rest, by rw [h1]; rfl, ?_, ?_, ?_, h5⟩
        · intro l
          rw [List.filterMap_cons_some hl, ← letterTargets_flags]; exact h2 l
        · intro p
          rw [List.filterMap_cons_some hl, ← letterTargets_params]; exact h3 p
        · rw [List.filterMap_cons_some hl, show ∀ l : List Letter, x :: l = [x] ++ l from fun _ => rfl,
            letterErrors_append, he, List.nil_append]
          have : (letterTargets B s x).err = s.err := by cases x <;> rfl
          rw [← this]; exact h4
      · rw [hb]
        cases hs : (err s.err er).2 with
        | some r =>
          refine ⟨[ev], evs, rfl, ?_, ?_, ?_, by simp⟩
          · intro l
            simp only [List.filterMap_cons_some hl, List.filterMap_nil]
            rw [← letterTargets_flags, ht]
            exact (Kind.value_nil _ _).symm
          · intro p
            simp only [List.filterMap_cons_some hl, List.filterMap_nil]
            rw [← letterTargets_params, ht]
            exact (CKind.value_nil _ _).symm
          · simp only [List.filterMap_cons_some hl, List.filterMap_nil]
            rw [he, raise_cons, hs]
        | none =>
          simp only []
          obtain ⟨done, rest, h1, h2, h3, h4, h5⟩ := ih { s with err := (err s.err er).1 }
          refine ⟨ev :: done, rest, by rw [h1]; rfl, ?_, ?_, ?_, h5⟩
          · intro l
            rw [List.filterMap_cons_some hl, ← letterTargets_flags, ht]; exact h2 l
          · intro p
            rw [List.filterMap_cons_some hl, ← letterTargets_params, ht]; exact h3 p
          · rw [List.filterMap_cons_some hl, show ∀ l : List Letter, x :: l = [x] ++ l from fun _ => rfl,
              letterErrors_append, he, List.singleton_append, raise_cons, hs]
            exact h4

end Verif.Args
