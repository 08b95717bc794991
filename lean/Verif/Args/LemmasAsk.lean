import Verif.Args.SpecAsk
import Verif.Args.LemmasRefine
/-! # Lemmas: the conversation between the parser and its caller -/
namespace Verif.Args

theorem asks_append (l m : List Act) : asks (l ++ m) = asks l ++ asks m := by
  simp [asks, List.filterMap_append]

theorem tells_append (l m : List Act) : tells (l ++ m) = tells l ++ tells m := by
  simp [tells, List.filterMap_append]

theorem asks_tells (es : List Event) : asks (es.map .tell) = [] := by
  induction es with
  | nil => rfl
  | cons e es ih => exact ih

/-- The acts `x` lead from one position of the conversation to another. -/
structure Steps (S : List Command) (find : Path → Bytes → Option (Nat × Nat)) (words : Path) (cmds flags : Bool)
    (x : List Act) (words' : Path) (cmds' flags' : Bool) : Prop where
  script : ∀ bs, script S find words cmds flags (asks x ++ bs) = x ++ script S find words' cmds' flags' bs
  entered : ∀ bs, entered S find words cmds flags (asks x ++ bs) = entered S find words' cmds' flags' bs
  asked : 1 ≤ (asks x).length

section
variable {S : List Command} {find : Path → Bytes → Option (Nat × Nat)} {words : Path} {cmds flags : Bool} {a : Bytes}

theorem steps_report {e : Event} {cmds' : Bool} (hk : argKind S find words cmds flags a = .report e cmds') :
    Steps S find words cmds flags [.ask (some a), .tell e] words cmds' flags :=
  ⟨fun bs => by
    show script S find words cmds flags (some a :: bs) = _
    rw [script, hk]; rfl,
   fun bs => by
    show entered S find words cmds flags (some a :: bs) = _
    rw [entered.eq_def]; simp only [hk], Nat.le_refl 1⟩

theorem steps_terminator (hk : argKind S find words cmds flags a = .terminator) :
    Steps S find words cmds flags [.ask (some a)] words false false :=
  ⟨fun bs => by
    show script S find words cmds flags (some a :: bs) = _
    rw [script, hk]; rfl,
   fun bs => by
    show entered S find words cmds flags (some a :: bs) = _
    rw [entered.eq_def]; simp only [hk], Nat.le_refl 1⟩

theorem steps_command (hk : argKind S find words cmds flags a = .command) :
    Steps S find words cmds flags [.ask (some a)] (words ++ [a]) cmds flags :=
  ⟨fun bs => by
    show script S find words cmds flags (some a :: bs) = _
    rw [script, hk]; rfl,
   fun bs => by
    show entered S find words cmds flags (some a :: bs) = _
    rw [entered.eq_def]; simp only [hk], Nat.le_refl 1⟩

theorem steps_value {c f at_ : Nat} {name : Bytes} (hk : argKind S find words cmds flags a = .wantsValue c f at_ name)
    (o : Option Bytes) :
    Steps S find words cmds flags [.ask (some a), .ask o, .tell (valueEvent c f at_ name o)] words cmds flags :=
  ⟨fun bs => by
    show script S find words cmds flags (some a :: o :: bs) = _
    rw [script, hk]; rfl,
   fun bs => by
    show entered S find words cmds flags (some a :: o :: bs) = _
    rw [entered.eq_def]; simp only [hk], (by show 1 ≤ 2; omega)⟩

theorem reach_entered {ans : List (Option Bytes)} (hr : Reach S words) :
    Reach S (entered S find words cmds flags ans) := by
  have key : ∀ n, ∀ ans : List (Option Bytes), ans.length ≤ n → ∀ words cmds flags, Reach S words →
      Reach S (entered S find words cmds flags ans) := by
    intro n
    induction n with
    | zero =>
      intro ans hn words cmds flags hr
      rw [List.eq_nil_of_length_eq_zero (Nat.le_zero.mp hn)]
      rw [entered]; exact hr
    | succ n ih =>
      intro ans hn words cmds flags hr
      rcases ans with _ | ⟨_ | a, rest⟩
      · rw [entered]; exact hr
      · rw [entered]; exact hr
      · rw [List.length_cons] at hn
        rw [entered.eq_def]
        simp only []
        cases hk : argKind S find words cmds flags a with
        | command =>
          refine ih rest (by omega) _ _ _ (Or.inr ?_)
          rw [argKind] at hk
          split at hk
          · cases hk
          · cases hk
          · cases hk
          · split at hk
            · rename_i hx
              simp only [Bool.and_eq_true] at hx
              exact hx.2
            · cases hk
          · split at hk
            · cases hk
            · simp only [] at hk
              split at hk <;> cases hk
        | terminator => exact ih rest (by omega) _ _ _ hr
        | report e c => exact ih rest (by omega) _ _ _ hr
        | wantsValue c f a n =>
          rcases rest with _ | ⟨o, rest⟩
          · exact hr
          · rw [List.length_cons] at hn
            exact ih rest (by omega) _ _ _ hr
  exact key _ ans (Nat.le_refl _) _ _ _ hr

end

section
variable {σ R : Type} (W : Caller σ R)

/-- The rest of a watched run, from a log `l0` on, keeps to the script. -/
def Good (S : List Command) (find : Path → Bytes → Option (Nat × Nat)) (n : Nat) (words : Path) (cmds flags : Bool)
    (l0 : List Act) : Out (σ × List Act) R (Option Parser) → Prop
  | .panic => False
  | .brk s _ => ∃ l1, s.2 = l0 ++ (l1 ++ [.stop]) ∧ l1 = script S find words cmds flags (asks l1)
  | .cont s none => ∃ l1, s.2 = l0 ++ l1 ∧ l1 = script S find words cmds flags (asks l1) ∧ n ≤ (asks l1).length
  | .cont s (some p) => ∃ l1, s.2 = l0 ++ l1 ∧ l1 = script S find words cmds flags (asks l1) ∧
      (∃ as, asks l1 = as ++ [none]) ∧
      (∀ more, script S find words cmds flags (asks l1 ++ more) = script S find words cmds flags (asks l1)) ∧ p.cursor = cursorOf S (entered S find words cmds flags (asks l1))

variable {S : List Command} {find : Path → Bytes → Option (Nat × Nat)} {n : Nat} {words words' : Path}
  {cmds flags cmds' flags' : Bool} {l0 x : List Act}

theorem good_step (hs : Steps S find words cmds flags x words' cmds' flags')
    {y : Out (σ × List Act) R (Option Parser)} (hy : Good S find n words' cmds' flags' (l0 ++ x) y) :
    Good S find (n + 1) words cmds flags l0 y := by
  have comb : ∀ l1, l1 = script S find words' cmds' flags' (asks l1) →
      x ++ l1 = script S find words cmds flags (asks (x ++ l1)) := by
    intro l1 h
    rw [asks_append, hs.script, ← h]
  rcases y with _ | ⟨s, r⟩ | ⟨s, _ | p⟩
  · exact hy
  · obtain ⟨l1, h1, h2⟩ := hy
    exact ⟨x ++ l1, by rw [h1]; simp, comb l1 h2⟩
  · obtain ⟨l1, h1, h2, h3⟩ := hy
    refine ⟨x ++ l1, by rw [h1]; simp, comb l1 h2, ?_⟩
    have := hs.asked
    rw [asks_append, List.length_append]; omega
  · obtain ⟨l1, h1, h2, ⟨as, h3⟩, h5, h4⟩ := hy
    refine ⟨x ++ l1, by rw [h1]; simp, comb l1 h2, ⟨asks x ++ as, by rw [asks_append, h3, List.append_assoc]⟩,
      fun more => by rw [asks_append, List.append_assoc, hs.script, hs.script, h5], ?_⟩
    rw [asks_append, hs.entered]; exact h4

theorem good_emit {e : Event} (s : σ) (hs : Steps S find words cmds flags (x ++ [.tell e]) words' cmds' flags')
    {k : σ × List Act → Unit → Out (σ × List Act) R (Option Parser)}
    (hk : ∀ s', Good S find n words' cmds' flags' (l0 ++ (x ++ [.tell e])) (k (s', l0 ++ (x ++ [.tell e])) ())) :
    Good S find (n + 1) words cmds flags l0 ((emit (watched W).tell (s, l0 ++ x) e).bind k) := by
  rw [emit]
  have e1 : (watched W).tell (s, l0 ++ x) e =
      (((W.tell s e).1, (l0 ++ x) ++ .tell e :: if (W.tell s e).2.isSome then [.stop] else []), (W.tell s e).2) := rfl
  rw [e1]
  generalize W.tell s e = y
  obtain ⟨s', o⟩ := y
  cases o with
  | none =>
    have e2 : (l0 ++ x) ++ .tell e :: (if (none : Option R).isSome = true then [Act.stop] else []) =
        l0 ++ (x ++ [.tell e]) := by simp
    simp only [e2, Out.bind]
    exact good_step hs (hk s')
  | some r =>
    refine ⟨x ++ [.tell e], by simp, ?_⟩
    have := hs.script []
    rw [List.append_nil] at this
    rw [this, script, List.append_nil]

theorem report_parameter_watched {sc : Schema} (hc : Compiled sc) (s : σ) (a : Bytes)
    (hk : argKind sc.cmds find words cmds flags a = .report (match selected sc.cmds words with
        | some i => .parameter i (some a)
        | none => .error (.parameterUnexpected a)) cmds')
    {k : σ × List Act → Unit → Out (σ × List Act) R (Option Parser)}
    (hy : ∀ s' l, Good sc.cmds find n words cmds' flags l (k (s', l) ())) :
    Good sc.cmds find (n + 1) words cmds flags l0
      ((report_parameter (watched W).tell sc (cursorOf sc.cmds words) (s, l0 ++ [.ask (some a)]) (some a)).bind k) := by
  rw [report_parameter, command_eq hc.sorted]
  cases hsel : selected sc.cmds words with
  | none =>
    rw [hsel] at hk
    exact good_emit W s (x := [.ask (some a)]) (steps_report hk) fun s' => hy s' _
  | some i =>
    rw [hsel] at hk
    exact good_emit W s (x := [.ask (some a)]) (steps_report hk) fun s' => hy s' _

/-- What `parse_long` says. -/
def saysLong (s : σ) : ArgKind → Option (Out σ R Unit)
  | .report e _ => some (emit W.tell s e)
  | .wantsValue c f at_ name =>
    some (emit W.tell (W.next s).1 (valueEvent c f at_ name (W.next s).2))
  | _ => none

theorem parse_longA_eq (se : Searcher) {sc : Schema} (hc : Compiled sc) (hr : Reach sc.cmds words)
    (s : σ) (a name : Bytes) (value : Option Bytes) (hsh : shape a = .long name value) :
    saysLong W s (argKind sc.cmds (codeFind se sc) words cmds true a) =
      some (parse_longA W se sc (cursorOf sc.cmds words) s name value) := by
  rw [parse_longA, argKind, if_pos rfl, hsh]
  have e0 : ∀ {α β : Type} (a : α) (f : α → Out σ R β), orPanic (some a) f = f a := fun _ _ => rfl
  rw [resolve_eq se hc, e0]
  simp only []
  cases hres : resolve (codeFind se sc words) name with
  | none => rfl
  | some x =>
    obtain ⟨⟨c, f⟩, neg⟩ := x
    obtain ⟨fl, hfl, hmode⟩ := resolve_exists se hc hres
    have hfl' : (do let cm ← sc.cmds[c]?; cm.flags[f]?) = some fl := hfl
    simp only []
    rw [hfl', e0, hmode]
    simp only [contextAt_eq hc hr, e0]
    cases fl.mode <;> cases neg <;> cases value <;> try rfl
    simp only [action, saysLong]
    rcases hn : W.next s with ⟨s', _ | v⟩ <;> rfl

/-- The main loop keeps to the script. -/
theorem parse_cursorA_good (se : Searcher) {sc : Schema} (hc : Compiled sc) (fuel : Nat) (words : Path)
    (hr : Reach sc.cmds words) (cmds flags : Bool) (s : σ) (l0 : List Act) :
    Good sc.cmds (codeFind se sc) fuel words cmds flags l0
      (parse_cursorA (watched W) se sc fuel ⟨!cmds, !flags, cursorOf sc.cmds words⟩ (s, l0)) := by
  induction fuel generalizing words cmds flags s l0 with
  | zero => exact ⟨[], by simp, by rw [show asks [] = [] from rfl, script], Nat.zero_le _⟩
  | succ fuel ih =>
    rw [parse_cursorA]
    have e1 : (watched W).next (s, l0) = (((W.next s).1, l0 ++ [.ask (W.next s).2]), (W.next s).2) := rfl
    rw [e1]
    generalize W.next s = y
    obtain ⟨s, o⟩ := y
    cases o with
    | none =>
      simp only []
      rw [report_parameter, command_eq hc.sorted]
      cases hsel : selected sc.cmds words with
      | none =>
        refine ⟨[.ask none], rfl, ?_, ⟨[], rfl⟩, fun more => ?_, ?_⟩
        · show _ = script _ _ _ _ _ [none]
          rw [script, endEvents, hsel]; rfl
        · show script _ _ _ _ _ (none :: more) = script _ _ _ _ _ [none]
          rw [script, script]
        · show _ = cursorOf _ (entered _ _ _ _ _ [none])
          rw [entered]
      | some i =>
        simp only [orPanic]
        rw [emit]
        have hscr : [.ask none, .tell (.parameter i none)] =
            script sc.cmds (codeFind se sc) words cmds flags [none] := by
          rw [script, endEvents, hsel]; rfl
        have e2 : (watched W).tell (s, l0 ++ [.ask none]) (.parameter i none) =
            (((W.tell s (.parameter i none)).1, (l0 ++ [.ask none]) ++ .tell (.parameter i none) ::
              if (W.tell s (.parameter i none)).2.isSome then [.stop] else []), (W.tell s (.parameter i none)).2) := rfl
        rw [e2]
        generalize W.tell s (.parameter i none) = y
        obtain ⟨s, o⟩ := y
        cases o with
        | none =>
          refine ⟨[.ask none, .tell (.parameter i none)], by simp, hscr, ⟨[], rfl⟩, fun more => ?_, ?_⟩
          · show script _ _ _ _ _ (none :: more) = script _ _ _ _ _ [none]
            rw [script, script]
          · show _ = cursorOf _ (entered _ _ _ _ _ [none])
            rw [entered]
        | some r => exact ⟨[.ask none, .tell (.parameter i none)], by simp, hscr⟩
    | some arg =>
      simp only []
      have hemit : ∀ e, argKind sc.cmds (codeFind se sc) words cmds flags arg = .report e cmds →
          Good sc.cmds (codeFind se sc) (fuel + 1) words cmds flags l0
            ((emit (watched W).tell (s, l0 ++ [.ask (some arg)]) e).bind fun s _ =>
              parse_cursorA (watched W) se sc fuel ⟨!cmds, !flags, cursorOf sc.cmds words⟩ s) := by
        intro e hk
        exact good_emit W s (x := [.ask (some arg)]) (steps_report hk) fun s' => ih words hr cmds flags s' _
      have hword : (if flags then shape arg else .word) = .word →
          argKind sc.cmds (codeFind se sc) words cmds flags arg =
            if cmds && isUtf8 arg && Extends sc.cmds (words ++ [arg]) then .command
            else .report (match selected sc.cmds words with
              | some i => .parameter i (some arg)
              | none => .error (.parameterUnexpected arg)) false := by
        intro h
        rw [argKind, h]
        rfl
      have hparam : (if flags then shape arg else .word) = .word → cmds = false →
          Good sc.cmds (codeFind se sc) (fuel + 1) words cmds flags l0
            ((report_parameter (watched W).tell sc (cursorOf sc.cmds words) (s, l0 ++ [.ask (some arg)])
              (some arg)).bind fun s _ =>
                parse_cursorA (watched W) se sc fuel ⟨!cmds, !flags, cursorOf sc.cmds words⟩ s) := by
        intro h hcm
        have hk := hword h
        subst hcm
        exact report_parameter_watched W hc s arg hk fun s' l => ih words hr false flags s' l
      have hcommand : (if flags then shape arg else .word) = .word → cmds = true →
          Good sc.cmds (codeFind se sc) (fuel + 1) words cmds flags l0
            ((parse_command (watched W).tell se sc ⟨!cmds, !flags, cursorOf sc.cmds words⟩
              (s, l0 ++ [.ask (some arg)]) arg (if isUtf8 arg then some arg else none)).bind fun s p =>
                parse_cursorA (watched W) se sc fuel p s) := by
        intro h hcm
        have hk := hword h
        subst hcm
        have hno : argKind sc.cmds (codeFind se sc) words true flags arg = .report (match selected sc.cmds words with
              | some i => .parameter i (some arg)
              | none => .error (.parameterUnexpected arg)) false →
            Good sc.cmds (codeFind se sc) (fuel + 1) words true flags l0
            ((parse_command (watched W).tell se sc ⟨!true, !flags, cursorOf sc.cmds words⟩
              (s, l0 ++ [.ask (some arg)]) arg none).bind fun s p =>
                parse_cursorA (watched W) se sc fuel p s) := by
          intro hk
          rw [parse_command]
          show Good _ _ _ _ _ _ _ ((Out.bind _ _).bind _)
          rw [Out.bind_assoc]
          exact report_parameter_watched W hc s arg hk fun s' l => ih words hr false flags s' l
        cases hu : isUtf8 arg with
        | false =>
          rw [hu] at hk
          simp only [Bool.and_false, Bool.false_and, Bool.false_eq_true, if_false] at hk ⊢
          exact hno hk
        | true =>
          rw [if_pos rfl]
          cases hx : Extends sc.cmds (words ++ [arg]) with
          | false =>
            rw [hu, hx] at hk
            have q := hno (by simpa using hk)
            rw [parse_command.eq_def] at q ⊢
            simp only [] at q ⊢
            rw [enter_eq se hc.sorted hr, hx, if_neg (by simp)]
            exact q
          | true =>
            rw [hu, hx] at hk
            rw [parse_command]
            simp only []
            rw [enter_eq se hc.sorted hr, hx, if_pos rfl]
            exact good_step (steps_command (by simpa using hk)) (ih (words ++ [arg]) (Or.inr hx) true flags s _)
      cases flags with
      | false =>
        cases cmds with
        | false =>
          rw [if_pos (by simp)]
          exact hparam rfl rfl
        | true =>
          rw [if_neg (by simp)]
          simp only [Bool.not_false, if_true, Bool.not_true, Bool.false_and, if_false, Bool.false_eq_true]
          exact hcommand rfl rfl
      | true =>
        rw [if_neg (by simp)]
        simp only [Bool.not_true, Bool.false_eq_true, if_false, if_true, Bool.not_false, Bool.true_and]
        simp only [if_true, Bool.not_true] at hparam hcommand hword hemit
        have hshape := split_flag_eq arg
        cases hsh : shape arg with
        | terminator =>
          rw [hsh] at hshape
          simp only [ShapeOk] at hshape
          rw [hshape]
          exact good_step (steps_terminator (by rw [argKind, if_pos rfl, hsh])) (ih words hr false false s _)
        | badName =>
          rw [hsh] at hshape
          obtain ⟨x, hx⟩ := hshape
          rw [hx]
          exact hemit _ (by rw [argKind, if_pos rfl, hsh])
        | shorts =>
          rw [hsh] at hshape
          rw [hshape.1]
          simp only []
          rw [if_pos hshape.2]
          exact hemit _ (by rw [argKind, if_pos rfl, hsh])
        | word =>
          rw [hsh] at hshape
          rw [hshape.1]
          simp only []
          rw [if_neg (by rw [hshape.2]; simp)]
          cases cmds with
          | true =>
            rw [if_pos (show (!!true) = true from rfl)]
            exact hcommand hsh rfl
          | false =>
            rw [if_neg (by simp)]
            exact hparam hsh rfl
        | long name value =>
          rw [hsh] at hshape
          obtain ⟨hsp, hne⟩ := hshape
          have hmatch : (match split_flag arg with
              | some (fst, true, snd) =>
                (emit (watched W).tell (s, l0 ++ [.ask (some arg)]) (.error (.flagUnknown arg))).bind fun s _ =>
                  parse_cursorA (watched W) se sc fuel ⟨!cmds, false, cursorOf sc.cmds words⟩ s
              | some ([], false, none) =>
                parse_cursorA (watched W) se sc fuel ⟨true, true, cursorOf sc.cmds words⟩ (s, l0 ++ [.ask (some arg)])
              | some (flag, false, value) =>
                (parse_longA (watched W) se sc (cursorOf sc.cmds words) (s, l0 ++ [.ask (some arg)])
                  flag value).bind fun s _ =>
                  parse_cursorA (watched W) se sc fuel ⟨!cmds, false, cursorOf sc.cmds words⟩ s
              | none =>
                if (decide (2 ≤ arg.length) && arg.head? == some 0x2d) = true then
                  (emit (watched W).tell (s, l0 ++ [.ask (some arg)]) (.error (.shortsUnknown arg))).bind fun s _ =>
                    parse_cursorA (watched W) se sc fuel ⟨!cmds, false, cursorOf sc.cmds words⟩ s
                else if (!!cmds) = true then
                  (parse_command (watched W).tell se sc ⟨!cmds, false, cursorOf sc.cmds words⟩
                    (s, l0 ++ [.ask (some arg)]) arg
                    (if isUtf8 arg then some arg else none)).bind fun s p => parse_cursorA (watched W) se sc fuel p s
                else
                  (report_parameter (watched W).tell sc (cursorOf sc.cmds words)
                    (s, l0 ++ [.ask (some arg)]) (some arg)).bind fun s _ =>
                    parse_cursorA (watched W) se sc fuel ⟨!cmds, false, cursorOf sc.cmds words⟩ s) =
              (parse_longA (watched W) se sc (cursorOf sc.cmds words) (s, l0 ++ [.ask (some arg)])
                  name value).bind fun s _ =>
                  parse_cursorA (watched W) se sc fuel ⟨!cmds, false, cursorOf sc.cmds words⟩ s := by
            rw [hsp]
            cases name with
            | cons b name => cases value <;> rfl
            | nil =>
              cases value with
              | some v => rfl
              | none => exact absurd ⟨rfl, rfl⟩ hne
          have hlong := parse_longA_eq (cmds := cmds) (watched W) se hc hr (s, l0 ++ [.ask (some arg)]) arg name value hsh
          have hgoal : Good sc.cmds (codeFind se sc) (fuel + 1) words cmds true l0
              ((parse_longA (watched W) se sc (cursorOf sc.cmds words) (s, l0 ++ [.ask (some arg)])
                  name value).bind fun s _ =>
                  parse_cursorA (watched W) se sc fuel ⟨!cmds, false, cursorOf sc.cmds words⟩ s) := by
            have hcm : ∀ e c, argKind sc.cmds (codeFind se sc) words cmds true arg = .report e c → c = cmds := by
              intro e c hk
              rw [argKind, if_pos rfl, hsh] at hk
              simp only [] at hk
              split at hk
              · cases hk; rfl
              · split at hk <;> cases hk <;> rfl
            cases hk : argKind sc.cmds (codeFind se sc) words cmds true arg with
            | command => rw [hk] at hlong; cases hlong
            | terminator => rw [hk] at hlong; cases hlong
            | report e c =>
              obtain rfl := hcm e c hk
              rw [hk] at hlong
              rw [← Option.some.inj hlong]
              exact hemit e hk
            | wantsValue c f at_ nm =>
              rw [hk] at hlong
              rw [← Option.some.inj hlong]
              have e3 : (watched W).next (s, l0 ++ [.ask (some arg)]) =
                (((W.next s).1, l0 ++ [.ask (some arg)] ++ [.ask (W.next s).2]), (W.next s).2) := rfl
              rw [e3]
              have e4 : l0 ++ [.ask (some arg)] ++ [.ask (W.next s).2] =
                  l0 ++ [.ask (some arg), .ask (W.next s).2] := by simp
              simp only [e4]
              exact good_emit W _ (x := [.ask (some arg), .ask (W.next s).2]) (steps_value hk _)
                fun s' => ih words hr cmds true s' _
          exact Eq.mp (congrArg (Good sc.cmds (codeFind se sc) (fuel + 1) words cmds true l0) hmatch.symm) hgoal

end
end Verif.Args
