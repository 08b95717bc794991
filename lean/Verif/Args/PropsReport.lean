import Verif.Args.ModelReport
/-! # Property theorems: report targets (C25) -/
namespace Verif.Args

variable {ε R T A : Type}

/-! ## Specification -/

/-- Give errors to the parser report until it asks to stop. -/
def raise (err : Err ε R) : ε → List Error → ε × Option R
  | e, [] => (e, none)
  | e, x :: xs =>
    match err e x with
    | (e', some r) => (e', some r)
    | (e', none) => raise err e' xs

/-- The toggles among reports; `set` counts as on. -/
def toggles (l : List Report) : List Bool :=
  l.filterMap fun | .set _ => some true | .toggle _ b => some b | .parse _ _ => none

/-- The acceptable values among reports. -/
def values (ok : Bytes → Bool) (l : List Report) : List Bytes :=
  l.filterMap fun | .parse _ v => if ok v then some v else none | _ => none

/-- The errors of a target that takes toggles. -/
def toggleErrors (l : List Report) : List Error :=
  l.filterMap fun | .parse arg v => some (.flagUnexpectedValue arg v) | _ => none

/-- The errors of a target that takes values. -/
def valueErrors (ok : Bytes → Bool) (l : List Report) : List Error :=
  l.filterMap fun
    | .set arg => some (.flagNoValue arg)
    | .toggle arg true => some (.flagNoValue arg)
    | .toggle arg false => some (.flagUnexpectedToggle arg)
    | .parse arg v => if ok v then none else some (.flagValueNotUtf8 arg v)

/-- The outcome of a series of reports: all of them, or those up to the first one whose error asks to stop,
were handled; the target holds the given function of the handled ones; their errors were raised, in order. -/
def Outcome (err : Err ε R) (e : ε) (reports : List A) (final : List A → T) (errors : List A → List Error)
    (res : (T × ε) × Option R) : Prop :=
  ∃ done rest, reports = done ++ rest ∧ res.1.1 = final done ∧ raise err e (errors done) = (res.1.2, res.2) ∧
    (res.2 = none → rest = [])

/-! ## Generic argument -/

/-- Each report either updates the target or is an error. -/
def Plain (step : A → T → ε → (T × ε) × Option R) (err : Err ε R) (upd : T → A → T) (bad : A → Option Error) : Prop :=
  ∀ a t e, (step a t e = match bad a with
    | none => ((upd t a, e), none)
    | some x => ((t, (err e x).1), (err e x).2)) ∧ (bad a ≠ none → upd t a = t)

theorem feed_outcome {step : A → T → ε → (T × ε) × Option R} {err : Err ε R} {upd : T → A → T}
    {bad : A → Option Error} (h : Plain step err upd bad) (l : List A) (t : T) (e : ε) :
    Outcome err e l (fun d => d.foldl upd t) (fun d => d.filterMap bad) (feed step l t e) := by
  induction l generalizing t e with
  | nil => exact ⟨[], [], rfl, rfl, rfl, fun _ => rfl⟩
  | cons a l ih =>
    obtain ⟨h1, h2⟩ := h a t e
    rw [feed, h1]
    cases hb : bad a with
    | none =>
      simp only []
      obtain ⟨done, rest, g1, g2, g3, g4⟩ := ih (upd t a) e
      refine ⟨a :: done, rest, by rw [g1]; rfl, g2, ?_, g4⟩
      simp only [List.filterMap_cons, hb]
      exact g3
    | some x =>
      have hu := h2 (by rw [hb]; simp)
      simp only []
      cases ho : (err e x).2 with
      | some r =>
        refine ⟨[a], l, rfl, ?_, ?_, by simp⟩
        · simp [hu]
        · simp only [List.filterMap_cons, hb, List.filterMap_nil, raise]
          generalize err e x = y at ho ⊢
          obtain ⟨y1, y2⟩ := y
          cases ho; rfl
      | none =>
        simp only []
        obtain ⟨done, rest, g1, g2, g3, g4⟩ := ih t (err e x).1
        refine ⟨a :: done, rest, by rw [g1]; rfl, ?_, ?_, g4⟩
        · rw [g2]; simp [hu]
        · simp only [List.filterMap_cons, hb, raise]
          rw [← g3]
          generalize err e x = y at ho ⊢
          obtain ⟨y1, y2⟩ := y
          cases ho; rfl

theorem Outcome.congr {err : Err ε R} {e : ε} {l : List A} {f g : List A → T} {x y : List A → List Error}
    {res : (T × ε) × Option R} (h : Outcome err e l f x res) (hf : ∀ d, f d = g d) (hx : ∀ d, x d = y d) :
    Outcome err e l g y res := by
  obtain ⟨done, rest, h1, h2, h3, h4⟩ := h
  exact ⟨done, rest, h1, by rw [h2, hf], by rw [← hx]; exact h3, h4⟩

/-- Folding "keep the last" over the hits. -/
theorem foldl_last {B : Type} (p : A → Option B) (k : B → T) (upd : T → A → T)
    (h : ∀ t a, upd t a = match p a with | some b => k b | none => t) (l : List A) (t : T) :
    l.foldl upd t = ((l.filterMap p).getLast?.map k).getD t := by
  induction l generalizing t with
  | nil => rfl
  | cons a l ih =>
    rw [List.foldl_cons, ih, h]
    cases hp : p a with
    | none => simp [List.filterMap_cons, hp]
    | some b =>
      simp only [List.filterMap_cons, hp, List.getLast?_cons]
      cases (List.filterMap p l).getLast? <;> rfl

/-- Folding "append". -/
theorem foldl_append {B : Type} (p : A → Option B) (upd : List B → A → List B)
    (h : ∀ t a, upd t a = t ++ (p a).toList) (l : List A) (t : List B) :
    l.foldl upd t = t ++ l.filterMap p := by
  induction l generalizing t with
  | nil => simp
  | cons a l ih =>
    rw [List.foldl_cons, ih, h]
    cases hp : p a <;> simp [List.filterMap_cons, hp]

/-- What an optional collection holds: nothing changes without values. -/
def optAppend {B : Type} (t : Option (List B)) (vs : List B) : Option (List B) :=
  if vs.isEmpty then t else some (t.getD [] ++ vs)

theorem foldl_optAppend {B : Type} (p : A → Option B) (upd : Option (List B) → A → Option (List B))
    (h : ∀ t a, upd t a = optAppend t (p a).toList) (l : List A) (t : Option (List B)) :
    l.foldl upd t = optAppend t (l.filterMap p) := by
  induction l generalizing t with
  | nil => rfl
  | cons a l ih =>
    rw [List.foldl_cons, ih, h]
    cases hp : p a with
    | none => simp [hp, optAppend]
    | some b =>
      simp only [List.filterMap_cons, hp, optAppend]
      cases hl : List.filterMap p l <;> simp

/-! ## C25: flags -/

variable (err : Err ε R) (l : List Report) (e : ε)

/-- **C25.** A `bool` holds the last toggle. -/
theorem bool_holds_last_toggle (t : Bool) :
    Outcome err e l (fun d => (toggles d).getLast?.getD t) toggleErrors (feed (bool.apply err) l t e) := by
  have h : Plain (bool.apply err) err
      (fun t a => match a with | .set _ => true | .toggle _ b => b | .parse _ _ => t)
      (fun a => match a with | .parse arg v => some (.flagUnexpectedValue arg v) | _ => none) := by
    intro a t e
    cases a <;> exact ⟨rfl, by simp⟩
  refine (feed_outcome h l t e).congr (fun d => ?_) (fun d => rfl)
  rw [foldl_last (fun a => match a with | .set _ => some true | .toggle _ b => some b | .parse _ _ => none) id _
    (by intro t a; cases a <;> rfl)]
  simp [toggles]

/-- **C25.** An `Option<()>` is set exactly if the last toggle was on. -/
theorem optUnit_holds_last_toggle (t : Option Unit) :
    Outcome err e l (fun d => ((toggles d).getLast?.map fun b => if b then some () else none).getD t) toggleErrors
      (feed (optUnit.apply err) l t e) := by
  have h : Plain (optUnit.apply err) err
      (fun t a => match a with | .set _ => some () | .toggle _ b => if b then some () else none | .parse _ _ => t)
      (fun a => match a with | .parse arg v => some (.flagUnexpectedValue arg v) | _ => none) := by
    intro a t e
    cases a <;> exact ⟨rfl, by simp⟩
  refine (feed_outcome h l t e).congr (fun d => ?_) (fun d => rfl)
  rw [foldl_last (fun a => match a with | .set _ => some true | .toggle _ b => some b | .parse _ _ => none)
    (fun b => if b then some () else none) _ (by intro t a; cases a <;> rfl)]
  rfl

/-- The acceptable value of a report. -/
def valueOf (ok : Bytes → Bool) : Report → Option Bytes
  | .parse _ v => if ok v then some v else none
  | _ => none

/-- The error of a report to a value target. -/
def valueBad (ok : Bytes → Bool) : Report → Option Error
  | .set arg => some (.flagNoValue arg)
  | .toggle arg true => some (.flagNoValue arg)
  | .toggle arg false => some (.flagUnexpectedToggle arg)
  | .parse arg v => if ok v then none else some (.flagValueNotUtf8 arg v)

theorem values_eq (ok : Bytes → Bool) (l : List Report) : values ok l = l.filterMap (valueOf ok) := by
  unfold values; congr 1

theorem valueErrors_eq (ok : Bytes → Bool) (l : List Report) : valueErrors ok l = l.filterMap (valueBad ok) := by
  unfold valueErrors; congr 1

/-- A value target that stores `put t v`. -/
theorem value_plain (fr : FlagReport ε R T) (ok : Bytes → Bool) (put : T → Bytes → T)
    (hs : fr.report_set = default_set) (ht : fr.report_toggle = default_toggle)
    (hp : ∀ err arg v t e, fr.report_parse err arg v t e =
      if ok v then store (put t v) e else report_error err (.flagValueNotUtf8 arg v) t e) :
    Plain (fr.apply err) err (fun t a => match valueOf ok a with | some v => put t v | none => t) (valueBad ok) := by
  intro a t e
  cases a with
  | set arg => exact ⟨by rw [FlagReport.apply, hs]; rfl, fun _ => rfl⟩
  | toggle arg b =>
    cases b <;> exact ⟨by rw [FlagReport.apply, ht]; rfl, fun _ => rfl⟩
  | parse arg v =>
    simp only [FlagReport.apply, hp, valueBad, valueOf]
    cases ok v <;> exact ⟨rfl, by simp⟩

theorem value_outcome (fr : FlagReport ε R T) (ok : Bytes → Bool) (put : T → Bytes → T)
    (hs : fr.report_set = default_set) (ht : fr.report_toggle = default_toggle)
    (hp : ∀ err arg v t e, fr.report_parse err arg v t e =
      if ok v then store (put t v) e else report_error err (.flagValueNotUtf8 arg v) t e)
    (final : List Bytes → T) (t : T)
    (hf : ∀ d : List Report, d.foldl (fun t a => match valueOf ok a with | some v => put t v | none => t) t =
      final (d.filterMap (valueOf ok))) :
    Outcome err e l (fun d => final (values ok d)) (valueErrors ok) (feed (fr.apply err) l t e) := by
  refine (feed_outcome (value_plain err fr ok put hs ht hp) l t e).congr (fun d => ?_) (fun d => ?_)
  · rw [hf, values_eq]
  · rw [valueErrors_eq]

/-- **C25.** An `&OsStr` holds the last value. -/
theorem osStr_holds_last (t : Bytes) :
    Outcome err e l (fun d => (values (fun _ => true) d).getLast?.getD t) (valueErrors fun _ => true)
      (feed (osStr.apply err) l t e) :=
  value_outcome err l e osStr (fun _ => true) (fun _ v => v) rfl rfl (by intros; rfl)
    (fun vs => vs.getLast?.getD t) t (fun d => by
      rw [foldl_last (valueOf fun _ => true) id _ (by intro t a; cases valueOf (fun _ => true) a <;> rfl)]; simp)

/-- **C25.** An `Option<&OsStr>` holds the last value. -/
theorem optOsStr_holds_last (t : Option Bytes) :
    Outcome err e l (fun d => ((values (fun _ => true) d).getLast?.map some).getD t) (valueErrors fun _ => true)
      (feed (optOsStr.apply err) l t e) :=
  value_outcome err l e optOsStr (fun _ => true) (fun _ v => some v) rfl rfl (by intros; rfl)
    (fun vs => (vs.getLast?.map some).getD t) t (fun d => by
      rw [foldl_last (valueOf fun _ => true) some _ (by intro t a; cases valueOf (fun _ => true) a <;> rfl)])

/-- **C25.** A `&str` or `String` holds the last value that is UTF-8. -/
theorem str_holds_last_valid (t : Bytes) :
    Outcome err e l (fun d => (values isUtf8 d).getLast?.getD t) (valueErrors isUtf8) (feed (str.apply err) l t e) :=
  value_outcome err l e str isUtf8 (fun _ v => v) rfl rfl (by intros; rfl)
    (fun vs => vs.getLast?.getD t) t (fun d => by
      rw [foldl_last (valueOf isUtf8) id _ (by intro t a; cases valueOf isUtf8 a <;> rfl)]; simp)

/-- **C25.** An `Option<&str>` or `Option<String>` holds the last value that is UTF-8. -/
theorem optStr_holds_last_valid (t : Option Bytes) :
    Outcome err e l (fun d => ((values isUtf8 d).getLast?.map some).getD t) (valueErrors isUtf8)
      (feed (optStr.apply err) l t e) :=
  value_outcome err l e optStr isUtf8 (fun _ v => some v) rfl rfl (by intros; rfl)
    (fun vs => (vs.getLast?.map some).getD t) t (fun d => by
      rw [foldl_last (valueOf isUtf8) some _ (by intro t a; cases valueOf isUtf8 a <;> rfl)])

/-- **C25.** A `Vec<&OsStr>` collects all values. -/
theorem vecOsStr_collects (t : List Bytes) :
    Outcome err e l (fun d => t ++ values (fun _ => true) d) (valueErrors fun _ => true)
      (feed (vecOsStr.apply err) l t e) :=
  value_outcome err l e vecOsStr (fun _ => true) (fun t v => t ++ [v]) rfl rfl (by intros; rfl)
    (fun vs => t ++ vs) t (fun d => by
      rw [foldl_append (valueOf fun _ => true) _ (by intro t a; cases valueOf (fun _ => true) a <;> simp)])

/-- **C25.** An `Option<Vec<&OsStr>>` collects all values, and stays unset without any. -/
theorem optVecOsStr_collects (t : Option (List Bytes)) :
    Outcome err e l (fun d => optAppend t (values (fun _ => true) d)) (valueErrors fun _ => true)
      (feed (optVecOsStr.apply err) l t e) :=
  value_outcome err l e optVecOsStr (fun _ => true) (fun t v => some (t.getD [] ++ [v])) rfl rfl (by intros; rfl)
    (fun vs => optAppend t vs) t (fun d => by
      rw [foldl_optAppend (valueOf fun _ => true) _ (by intro t a; cases valueOf (fun _ => true) a <;> rfl)])

/-- **C25.** A `Vec<&str>` or `Vec<String>` collects the values that are UTF-8. -/
theorem vecStr_collects (t : List Bytes) :
    Outcome err e l (fun d => t ++ values isUtf8 d) (valueErrors isUtf8) (feed (vecStr.apply err) l t e) :=
  value_outcome err l e vecStr isUtf8 (fun t v => t ++ [v]) rfl rfl (by intros; rfl)
    (fun vs => t ++ vs) t (fun d => by
      rw [foldl_append (valueOf isUtf8) _ (by intro t a; cases valueOf isUtf8 a <;> simp)])

/-- **C25.** An `Option<Vec<&str>>` or `Option<Vec<String>>` collects the values that are UTF-8, and stays
unset without any. -/
theorem optVecStr_collects (t : Option (List Bytes)) :
    Outcome err e l (fun d => optAppend t (values isUtf8 d)) (valueErrors isUtf8)
      (feed (optVecStr.apply err) l t e) :=
  value_outcome err l e optVecStr isUtf8 (fun t v => some (t.getD [] ++ [v])) rfl rfl (by intros; rfl)
    (fun vs => optAppend t vs) t (fun d => by
      rw [foldl_optAppend (valueOf isUtf8) _ (by intro t a; cases valueOf isUtf8 a <;> rfl)])

/-- **C25.** Through `Shared`, a report that asks to stop leaves the shared value unchanged, and any other
report does what the shared target does. -/
theorem sharedCell_step (inner : FlagReport ε R T) (r : Report) (t : T) (e : ε) :
    (sharedCell inner).apply err r t e =
      ((if (inner.apply err r t e).2.isSome then t else (inner.apply err r t e).1.1, (inner.apply err r t e).1.2),
        (inner.apply err r t e).2) := by
  have hop : ∀ op : T → ε → (T × ε) × Option R, cellOp op t e =
      ((if (op t e).2.isSome then t else (op t e).1.1, (op t e).1.2), (op t e).2) := by
    intro op
    unfold cellOp
    generalize op t e = x
    obtain ⟨⟨a, b⟩, o⟩ := x
    cases o <;> rfl
  cases r <;> exact hop _

/-- **C25.** All the value and toggle targets above behave the same through `Shared<Cell<_>>`. -/
theorem sharedCell_same (inner : FlagReport ε R T) {upd : T → Report → T} {bad : Report → Option Error}
    (h : Plain (inner.apply err) err upd bad) (t : T) :
    feed ((sharedCell inner).apply err) l t e = feed (inner.apply err) l t e := by
  have hstep : (sharedCell inner).apply err = inner.apply err := by
    funext r t e
    rw [sharedCell_step]
    obtain ⟨h1, h2⟩ := h r t e
    rw [h1]
    cases hb : bad r with
    | none => rfl
    | some x => simp only []; cases (err e x).2 <;> simp
  rw [hstep]

/-! ## C25: parameters -/

/-- The acceptable parameters among reports; the end of the arguments is reported as nothing. -/
def params (ok : Bytes → Bool) (l : List (Option Bytes)) : List Bytes :=
  l.filterMap fun | some v => if ok v then some v else none | none => none

/-- The errors of a target that takes parameters. -/
def paramErrors (ok : Bytes → Bool) (l : List (Option Bytes)) : List Error :=
  l.filterMap fun | some v => if ok v then none else some (.parameterNotUtf8 v) | none => none

/-- The acceptable parameter of a report. -/
def paramOf (ok : Bytes → Bool) : Option Bytes → Option Bytes
  | some v => if ok v then some v else none
  | none => none

/-- The error of a report to a parameter target. -/
def paramBad (ok : Bytes → Bool) : Option Bytes → Option Error
  | some v => if ok v then none else some (.parameterNotUtf8 v)
  | none => none

theorem param_outcome (l : List (Option Bytes)) (cr : CommandReport ε R T) (ok : Bytes → Bool) (put : T → Bytes → T)
    (hn : ∀ err t e, cr.report_parameter err none t e = store t e)
    (hp : ∀ err v t e, cr.report_parameter err (some v) t e =
      if ok v then store (put t v) e else report_error err (.parameterNotUtf8 v) t e)
    (final : List Bytes → T) (t : T)
    (hf : ∀ d : List (Option Bytes), d.foldl (fun t a => match paramOf ok a with | some v => put t v | none => t) t =
      final (d.filterMap (paramOf ok))) :
    Outcome err e l (fun d => final (params ok d)) (paramErrors ok) (feed (cr.report_parameter err) l t e) := by
  have h : Plain (cr.report_parameter err) err
      (fun t a => match paramOf ok a with | some v => put t v | none => t) (paramBad ok) := by
    intro a t e
    cases a with
    | none => exact ⟨hn err t e, fun _ => rfl⟩
    | some v =>
      simp only [hp, paramBad, paramOf]
      cases ok v <;> exact ⟨rfl, by simp⟩
  refine (feed_outcome h l t e).congr (fun d => ?_) (fun d => ?_)
  · rw [hf]; congr 2
  · unfold paramErrors; congr 1

/-- **C25.** A `Vec<&OsStr>` collects all parameters. -/
theorem cmdVecOsStr_collects (l : List (Option Bytes)) (t : List Bytes) :
    Outcome err e l (fun d => t ++ params (fun _ => true) d) (paramErrors fun _ => true)
      (feed (cmdVecOsStr.report_parameter err) l t e) :=
  param_outcome err e l cmdVecOsStr (fun _ => true) (fun t v => t ++ [v]) (by intros; rfl) (by intros; rfl)
    (fun vs => t ++ vs) t (fun d => by
      rw [foldl_append (paramOf fun _ => true) _ (by intro t a; cases paramOf (fun _ => true) a <;> simp)])

/-- **C25.** An `Option<Vec<&OsStr>>` collects all parameters, and stays unset without any. -/
theorem cmdOptVecOsStr_collects (l : List (Option Bytes)) (t : Option (List Bytes)) :
    Outcome err e l (fun d => optAppend t (params (fun _ => true) d)) (paramErrors fun _ => true)
      (feed (cmdOptVecOsStr.report_parameter err) l t e) :=
  param_outcome err e l cmdOptVecOsStr (fun _ => true) (fun t v => some (t.getD [] ++ [v])) (by intros; rfl)
    (by intros; rfl) (fun vs => optAppend t vs) t (fun d => by
      rw [foldl_optAppend (paramOf fun _ => true) _ (by intro t a; cases paramOf (fun _ => true) a <;> rfl)])

/-- **C25.** A `Vec<&str>` or `Vec<String>` collects the parameters that are UTF-8. -/
theorem cmdVecStr_collects (l : List (Option Bytes)) (t : List Bytes) :
    Outcome err e l (fun d => t ++ params isUtf8 d) (paramErrors isUtf8)
      (feed (cmdVecStr.report_parameter err) l t e) :=
  param_outcome err e l cmdVecStr isUtf8 (fun t v => t ++ [v]) (by intros; rfl) (by intros; rfl)
    (fun vs => t ++ vs) t (fun d => by
      rw [foldl_append (paramOf isUtf8) _ (by intro t a; cases paramOf isUtf8 a <;> simp)])

/-- **C25.** An `Option<Vec<&str>>` or `Option<Vec<String>>` collects the parameters that are UTF-8, and stays
unset without any. -/
theorem cmdOptVecStr_collects (l : List (Option Bytes)) (t : Option (List Bytes)) :
    Outcome err e l (fun d => optAppend t (params isUtf8 d)) (paramErrors isUtf8)
      (feed (cmdOptVecStr.report_parameter err) l t e) :=
  param_outcome err e l cmdOptVecStr isUtf8 (fun t v => some (t.getD [] ++ [v])) (by intros; rfl)
    (by intros; rfl) (fun vs => optAppend t vs) t (fun d => by
      rw [foldl_optAppend (paramOf isUtf8) _ (by intro t a; cases paramOf isUtf8 a <;> rfl)])

/-- **C25.** A command without parameters turns each parameter into an error. -/
theorem cmdUnit_rejects (l : List (Option Bytes)) :
    Outcome err e l (fun _ => ()) (fun d => (d.filterMap id).map .parameterUnexpected)
      (feed (cmdUnit.report_parameter err) l () e) := by
  have h : Plain (cmdUnit.report_parameter err) err (fun t _ => t) (fun a => a.map .parameterUnexpected) := by
    intro a t e
    cases a <;> exact ⟨rfl, fun _ => rfl⟩
  refine (feed_outcome h l () e).congr (fun d => rfl) (fun d => ?_)
  induction d with
  | nil => rfl
  | cons a d ih => cases a <;> simp_all

/-- **C25.** A `Vec<Error>` collects all errors and never asks to stop. -/
theorem vecError_collects (xs l : List Error) : raise vecError l xs = (l ++ xs, none) := by
  induction xs generalizing l with
  | nil => simp [raise]
  | cons x xs ih => rw [raise]; simp [vecError, ih]

/-! ## Examples -/

/-- An invalid value changes nothing and is an error; later valid values count. -/
example : feed (optVecStr.apply vecError)
    [.parse [0x61] [0x62], .set [0x61], .parse [0x61] [0xff], .parse [0x61] [0x63]] none [] =
    ((some [[0x62], [0x63]], [.flagNoValue [0x61], .flagValueNotUtf8 [0x61] [0xff]]), none) := by decide +kernel

/-- An error that asks to stop, through a shared cell. -/
example : feed ((sharedCell bool).apply (fun (n : Nat) _ => (n + 1, some ())))
    [.set [0x61], .parse [0x61] [0x62], .toggle [0x61] false] false 0 = ((true, 1), some ()) := by decide +kernel

/-- `sharedCell_same` applies to a `bool`. -/
example : Plain ((bool : FlagReport (List Error) Unit Bool).apply vecError) vecError
    (fun t a => match a with | .set _ => true | .toggle _ b => b | .parse _ _ => t)
    (fun a => match a with | .parse arg v => some (.flagUnexpectedValue arg v) | _ => none) := by
  intro a t e; cases a <;> exact ⟨rfl, by simp⟩

end Verif.Args
