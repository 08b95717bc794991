import Verif.Args.LemmasParse
/-! # Lemmas: the main loop refines the specification -/
namespace Verif.Args

section
variable {σ R : Type} (h : σ → Event → σ × Option R)

theorem Out.bind_assoc {α β γ : Type} (x : Out σ R α) (f : σ → α → Out σ R β) (g : σ → β → Out σ R γ) :
    (x.bind f).bind g = x.bind fun s a => (f s a).bind g := by
  cases x <;> rfl

/-- Go on with `k` unless the report of `e` asks to stop. -/
def andThen {α : Type} (s : σ) (e : Event) (k : σ → Out σ R α) : Out σ R α :=
  match h s e with
  | (s', none) => k s'
  | (s', some r) => .brk s' r

theorem emit_bind {α : Type} (s : σ) (e : Event) (k : σ → Unit → Out σ R α) :
    (emit h s e).bind k = andThen h s e fun s => k s () := by
  rw [emit, andThen]
  generalize h s e = x
  obtain ⟨s', o⟩ := x
  cases o <;> rfl

/-- The end of a run. -/
def fin (c : Cursor) : σ × Option R → Out σ R Cursor
  | (s, none) => .cont s c
  | (s, some r) => .brk s r

/-- The rest of a run in which the remaining arguments are classified as `its`. -/
def runItems (S : List Command) (words : Path) (its : List Item) (s : σ) : Out σ R Cursor :=
  fin (cursorOf S (words ++ commandWords its))
    (deliver h s (its.filterMap Item.event ++ endEvents S (words ++ commandWords its)))

theorem runItems_report (S : List Command) (words : Path) (a : List Bytes) (e : Event) (its : List Item) (s : σ) :
    runItems h S words (.report a e :: its) s = andThen h s e fun s => runItems h S words its s := by
  have h1 : commandWords (.report a e :: its) = commandWords its := rfl
  have h2 : List.filterMap Item.event (.report a e :: its) = e :: its.filterMap Item.event := rfl
  simp only [runItems, h1, h2, List.cons_append, deliver, andThen]
  generalize h s e = x
  obtain ⟨s', o⟩ := x
  cases o <;> rfl

theorem runItems_command (S : List Command) (words : Path) (w : Bytes) (its : List Item) (s : σ) :
    runItems h S words (.command w :: its) s = runItems h S (words ++ [w]) its s := by
  have h1 : commandWords (.command w :: its) = w :: commandWords its := rfl
  have h2 : List.filterMap Item.event (.command w :: its) = its.filterMap Item.event := rfl
  simp only [runItems, h1, h2, List.append_assoc, List.singleton_append]

theorem runItems_terminator (S : List Command) (words : Path) (its : List Item) (s : σ) :
    runItems h S words (.terminator :: its) s = runItems h S words its s := rfl

theorem report_parameter_some {sc : Schema} (hc : Compiled sc) (words : Path) (s : σ) (a : Bytes) {α : Type}
    (k : σ → Unit → Out σ R α) :
    ∃ e, paramItem sc.cmds words a = .report [a] e ∧
      (report_parameter h sc (cursorOf sc.cmds words) s (some a)).bind k = andThen h s e fun s => k s () := by
  rw [report_parameter, command_eq hc.sorted]
  cases hsel : selected sc.cmds words with
  | none => exact ⟨_, by simp only [paramItem, hsel], emit_bind h s _ k⟩
  | some i => exact ⟨_, by simp only [paramItem, hsel], emit_bind h s _ k⟩

theorem report_parameter_end {sc : Schema} (hc : Compiled sc) (words : Path) (s : σ) :
    (report_parameter h sc (cursorOf sc.cmds words) s none).bind (fun s _ => .cont s (cursorOf sc.cmds words)) =
      runItems h sc.cmds words [] s := by
  have h1 : commandWords [] = [] := rfl
  rw [runItems, h1, List.append_nil, report_parameter, command_eq hc.sorted, endEvents]
  cases hsel : selected sc.cmds words with
  | none => rfl
  | some i =>
    simp only [orPanic, List.filterMap_nil, List.nil_append, deliver]
    rw [emit_bind, andThen]
    generalize h s (.parameter i none) = x
    obtain ⟨s', o⟩ := x
    cases o <;> rfl

/-- The report and the arguments left, for a flag. -/
def longOutcome (S : List Command) (find : Path → Bytes → Option (Nat × Nat)) (words : Path) (name : Bytes)
    (value : Option Bytes) (args : List Bytes) : Event × List Bytes :=
  match resolve (find words) name with
  | none => (.error (.flagUnknown name), args)
  | some ((c, f), negated) =>
    let at_ := (nearest S words).getD c
    match action (modeOf S (c, f)) negated value with
    | .set => (.set c f at_ name, args)
    | .toggle b => (.toggle c f at_ name b, args)
    | .parse v => (.parse c f at_ name v, args)
    | .badToggle => (.error (.flagUnexpectedToggle name), args)
    | .badValue v => (.error (.flagUnexpectedValue name v), args)
    | .parseNext =>
      match args with
      | [] => (.error (.flagNoValue name), [])
      | v :: args => (.parse c f at_ name v, args)

theorem longOutcome_length (S : List Command) (find : Path → Bytes → Option (Nat × Nat)) (words : Path)
    (name : Bytes) (value : Option Bytes) (args : List Bytes) :
    (longOutcome S find words name value args).2.length ≤ args.length := by
  unfold longOutcome
  split
  · exact Nat.le_refl _
  · simp only []
    split <;> try exact Nat.le_refl _
    split
    · exact Nat.le_refl _
    · simp

theorem resolve_strip (find : Bytes → Option (Nat × Nat)) (name : Bytes) : resolve find name =
    match find name with
    | some v => some (v, false)
    | none =>
      match stripPrefix sNo name with
      | none => none
      | some bare => (find bare).map (·, true) := by
  rw [resolve.eq_def]
  cases find name with
  | some v => rfl
  | none =>
    simp only []
    have no : (∀ bare, name ≠ 0x6e :: 0x6f :: 0x2d :: bare) → stripPrefix sNo name = none := by
      intro h
      rcases name with _ | ⟨x, _ | ⟨y, _ | ⟨z, l⟩⟩⟩
      · rfl
      · simp only [sNo, stripPrefix]; split <;> rfl
      · simp only [sNo, stripPrefix]; split <;> (try split) <;> rfl
      · simp only [sNo, stripPrefix]
        by_cases hx : 0x6e = x
        · by_cases hy : 0x6f = y
          · by_cases hz : 0x2d = z
            · subst hx hy hz; exact absurd rfl (h l)
            · simp [hz]
          · simp [hy]
        · simp [hx]
    by_cases h : ∃ bare, name = 0x6e :: 0x6f :: 0x2d :: bare
    · obtain ⟨bare, rfl⟩ := h; rfl
    · have h' : ∀ bare, name ≠ 0x6e :: 0x6f :: 0x2d :: bare := fun bare e => h ⟨bare, e⟩
      rw [no h']
      match name, h' with
      | [], _ => rfl
      | x :: l, h' =>
        split
        · rename_i bare e; exact absurd e (h' bare)
        · rfl

/-- The choice of the flag in `parse_long` is `resolve`. -/
theorem resolve_eq (se : Searcher) {sc : Schema} (hc : Compiled sc) (words : Path) (flag : Bytes) :
    resolve_flag se sc (cursorOf sc.cmds words) flag = some (resolve (codeFind se sc words) flag) := by
  rw [resolve_strip, resolve_flag, find_flag_eq se hc]
  simp only [Option.bind_eq_bind, Option.bind_some]
  cases codeFind se sc words flag with
  | some v => rfl
  | none =>
    simp only []
    cases stripPrefix sNo flag with
    | none => rfl
    | some st => simp only [find_flag_eq se hc]; rfl

theorem resolve_exists (se : Searcher) {sc : Schema} (hc : Compiled sc) {words : Path} {flag : Bytes}
    {c f : Nat} {neg : Bool} (hr : resolve (codeFind se sc words) flag = some ((c, f), neg)) :
    ∃ fl, (sc.cmds[c]?.bind fun cm => cm.flags[f]?) = some fl ∧ modeOf sc.cmds (c, f) = fl.mode := by
  rw [resolve_strip] at hr
  cases hf : codeFind se sc words flag with
  | some v =>
    rw [hf] at hr
    cases hr
    exact codeFind_exists se hc hf
  | none =>
    rw [hf] at hr
    simp only [] at hr
    cases hst : stripPrefix sNo flag with
    | none => rw [hst] at hr; cases hr
    | some st =>
      rw [hst] at hr
      simp only [] at hr
      cases hf2 : codeFind se sc words st with
      | none => rw [hf2] at hr; cases hr
      | some v => rw [hf2] at hr; cases hr; exact codeFind_exists se hc hf2

theorem parse_long_eq (se : Searcher) {sc : Schema} (hc : Compiled sc) {words : Path} (hr : Reach sc.cmds words)
    (args : List Bytes) (s : σ) (flag : Bytes) (value : Option Bytes) :
    parse_long h se sc (cursorOf sc.cmds words) args s flag value =
      andThen h s (longOutcome sc.cmds (codeFind se sc) words flag value args).1 fun s =>
        .cont s (longOutcome sc.cmds (codeFind se sc) words flag value args).2 := by
  rw [parse_long]
  have e0 : ∀ {α β : Type} (a : α) (f : α → Out σ R β), orPanic (some a) f = f a := fun _ _ => rfl
  rw [resolve_eq se hc, e0, longOutcome]
  cases hres : resolve (codeFind se sc words) flag with
  | none => exact emit_bind h s _ _
  | some x =>
    obtain ⟨⟨c, f⟩, neg⟩ := x
    obtain ⟨fl, hfl, hmode⟩ := resolve_exists se hc hres
    have hfl' : (do let cm ← sc.cmds[c]?; cm.flags[f]?) = some fl := hfl
    simp only []
    rw [hfl', e0, hmode]
    simp only [contextAt_eq hc hr, e0, emit_bind]
    cases fl.mode <;> cases neg <;> cases value <;> try rfl
    cases args <;> rfl

/-- The main loop. -/
theorem parse_cursor_eq (se : Searcher) {sc : Schema} (hc : Compiled sc) (fuel : Nat) (words : Path)
    (hr : Reach sc.cmds words) (cmds flags : Bool) (args : List Bytes) (hf : args.length < fuel) (s : σ) :
    (parse_cursor h se sc fuel ⟨!cmds, !flags, cursorOf sc.cmds words⟩ args s).bind (fun s p => .cont s p.cursor) =
      runItems h sc.cmds words (items sc.cmds (codeFind se sc) words cmds flags args) s := by
  induction fuel generalizing words cmds flags args s with
  | zero => omega
  | succ fuel ih =>
    cases args with
    | nil =>
      rw [parse_cursor, items, Out.bind_assoc]
      exact report_parameter_end h hc words s
    | cons arg args =>
      rw [List.length_cons] at hf
      have hparam : ∀ cmds', (report_parameter h sc (cursorOf sc.cmds words) s (some arg)).bind
          (fun s _ => (parse_cursor h se sc fuel ⟨!cmds', !flags, cursorOf sc.cmds words⟩ args s).bind
            (fun s p => .cont s p.cursor)) =
          runItems h sc.cmds words (paramItem sc.cmds words arg ::
            items sc.cmds (codeFind se sc) words cmds' flags args) s := by
        intro cmds'
        obtain ⟨e, he, hb⟩ := report_parameter_some h hc words s arg
          (fun s _ => (parse_cursor h se sc fuel ⟨!cmds', !flags, cursorOf sc.cmds words⟩ args s).bind
            (fun s p => .cont s p.cursor))
        rw [hb, he, runItems_report]
        congr 1
        funext s
        exact ih words hr cmds' flags args (by omega) s
      have hrep : ∀ e, (emit h s e).bind
          (fun s _ => (parse_cursor h se sc fuel ⟨!cmds, !flags, cursorOf sc.cmds words⟩ args s).bind
            (fun s p => .cont s p.cursor)) =
          runItems h sc.cmds words (.report [arg] e ::
            items sc.cmds (codeFind se sc) words cmds flags args) s := by
        intro e
        rw [emit_bind, runItems_report]
        congr 1
        funext s
        exact ih words hr cmds flags args (by omega) s
      have hcommand : cmds = true → (parse_command h se sc ⟨!cmds, !flags, cursorOf sc.cmds words⟩ s arg
            (if isUtf8 arg then some arg else none)).bind
          (fun s p => (parse_cursor h se sc fuel p args s).bind (fun s p => .cont s p.cursor)) =
          runItems h sc.cmds words
            (if cmds && isUtf8 arg && Extends sc.cmds (words ++ [arg]) then
              .command arg :: items sc.cmds (codeFind se sc) (words ++ [arg]) cmds flags args
            else paramItem sc.cmds words arg :: items sc.cmds (codeFind se sc) words false flags args) s := by
        intro hcm
        subst hcm
        have hno : (parse_command h se sc ⟨!true, !flags, cursorOf sc.cmds words⟩ s arg none).bind
            (fun s p => (parse_cursor h se sc fuel p args s).bind (fun s p => .cont s p.cursor)) =
            runItems h sc.cmds words
              (paramItem sc.cmds words arg :: items sc.cmds (codeFind se sc) words false flags args) s := by
          rw [parse_command]
          show (Out.bind _ _).bind _ = _
          rw [Out.bind_assoc]
          exact hparam false
        cases hu : isUtf8 arg with
        | false => simpa using hno
        | true =>
          rw [if_pos rfl, parse_command]
          simp only []
          rw [enter_eq se hc.sorted hr]
          cases hx : Extends sc.cmds (words ++ [arg]) with
          | false =>
            rw [if_neg (by simp), if_neg (by simp)]
            exact hno
          | true =>
            rw [if_pos rfl, if_pos (by simp), runItems_command]
            exact ih (words ++ [arg]) (Or.inr hx) true flags args (by omega) s
      rw [parse_cursor, items]
      cases flags with
      | false =>
        cases cmds with
        | false =>
          rw [if_pos (by simp), Out.bind_assoc]
          simpa using hparam false
        | true =>
          rw [if_neg (by simp)]
          simp only [Bool.not_false, if_true, Bool.not_true, Bool.false_and, if_false, Bool.false_eq_true]
          rw [Out.bind_assoc]
          exact hcommand rfl
      | true =>
        rw [if_neg (by simp)]
        simp only [Bool.not_true, Bool.false_eq_true, if_false, if_true, Bool.not_false, Bool.true_and]
        have hshape := split_flag_eq arg
        cases hsh : shape arg with
        | terminator =>
          rw [hsh] at hshape
          simp only [ShapeOk] at hshape
          rw [hshape]
          exact ih words hr false false args (by omega) s
        | badName =>
          rw [hsh] at hshape
          obtain ⟨x, hx⟩ := hshape
          rw [hx]
          simp only []
          rw [Out.bind_assoc]
          exact hrep _
        | shorts =>
          rw [hsh] at hshape
          rw [hshape.1]
          simp only []
          rw [if_pos hshape.2, Out.bind_assoc]
          exact hrep _
        | word =>
          rw [hsh] at hshape
          rw [hshape.1]
          simp only []
          rw [if_neg (by rw [hshape.2]; simp)]
          cases cmds with
          | true =>
            rw [if_pos (show (!!true) = true from rfl), Out.bind_assoc]
            exact hcommand rfl
          | false =>
            rw [if_neg (by simp), Out.bind_assoc, if_neg (by simp)]
            exact hparam false
        | long name value =>
          rw [hsh] at hshape
          obtain ⟨hsp, hne⟩ := hshape
          have hmatch : (match split_flag arg with
              | some (fst, true, snd) =>
                (emit h s (.error (.flagUnknown arg))).bind fun s _ =>
                  parse_cursor h se sc fuel ⟨!cmds, false, cursorOf sc.cmds words⟩ args s
              | some ([], false, none) =>
                parse_cursor h se sc fuel ⟨true, true, cursorOf sc.cmds words⟩ args s
              | some (flag, false, value) =>
                (parse_long h se sc (cursorOf sc.cmds words) args s flag value).bind fun s args =>
                  parse_cursor h se sc fuel ⟨!cmds, false, cursorOf sc.cmds words⟩ args s
              | none =>
                if (decide (2 ≤ arg.length) && arg.head? == some 0x2d) = true then
                  (emit h s (.error (.shortsUnknown arg))).bind fun s _ =>
                    parse_cursor h se sc fuel ⟨!cmds, false, cursorOf sc.cmds words⟩ args s
                else if (!!cmds) = true then
                  (parse_command h se sc ⟨!cmds, false, cursorOf sc.cmds words⟩ s arg
                    (if isUtf8 arg then some arg else none)).bind fun s p => parse_cursor h se sc fuel p args s
                else
                  (report_parameter h sc (cursorOf sc.cmds words) s (some arg)).bind fun s _ =>
                    parse_cursor h se sc fuel ⟨!cmds, false, cursorOf sc.cmds words⟩ args s) =
              (parse_long h se sc (cursorOf sc.cmds words) args s name value).bind fun s args =>
                  parse_cursor h se sc fuel ⟨!cmds, false, cursorOf sc.cmds words⟩ args s := by
            rw [hsp]
            cases name with
            | cons b name => cases value <;> rfl
            | nil =>
              cases value with
              | some v => rfl
              | none => exact absurd ⟨rfl, rfl⟩ hne
          refine Eq.trans (congrArg (fun x => Out.bind x _) hmatch) ?_
          rw [Out.bind_assoc, parse_long_eq h se hc hr]
          have hlen := longOutcome_length sc.cmds (codeFind se sc) words name value args
          have hrun : ∀ a, (andThen h s (longOutcome sc.cmds (codeFind se sc) words name value args).1 fun s =>
              (.cont s (longOutcome sc.cmds (codeFind se sc) words name value args).2)).bind (fun s args =>
                (parse_cursor h se sc fuel ⟨!cmds, false, cursorOf sc.cmds words⟩ args s).bind
                  (fun s p => .cont s p.cursor)) =
              runItems h sc.cmds words (.report a (longOutcome sc.cmds (codeFind se sc) words name value args).1 ::
                items sc.cmds (codeFind se sc) words cmds true
                  (longOutcome sc.cmds (codeFind se sc) words name value args).2) s := by
            intro a
            rw [runItems_report]
            rw [andThen, andThen]
            generalize h s (longOutcome sc.cmds (codeFind se sc) words name value args).1 = x
            obtain ⟨s', o⟩ := x
            cases o with
            | some r => rfl
            | none => exact ih words hr cmds true _ (by omega) s'
          simp only []
          rw [longOutcome] at hrun ⊢
          cases hres : resolve (codeFind se sc words) name with
          | none =>
            rw [hres] at hrun
            exact hrun [arg]
          | some x =>
            obtain ⟨⟨c, f⟩, neg⟩ := x
            rw [hres] at hrun
            simp only [] at hrun ⊢
            cases hact : action (modeOf sc.cmds (c, f)) neg value with
            | parseNext =>
              rw [hact] at hrun
              cases args with
              | nil => exact hrun [arg]
              | cons v args => exact hrun [arg, v]
            | set => rw [hact] at hrun; exact hrun [arg]
            | toggle b => rw [hact] at hrun; exact hrun [arg]
            | parse v => rw [hact] at hrun; exact hrun [arg]
            | badToggle => rw [hact] at hrun; exact hrun [arg]
            | badValue v => rw [hact] at hrun; exact hrun [arg]

end
end Verif.Args
