import Verif.Args.LemmasAsk
/-! # Lemmas: scripts and classifications, and iterators that go through a list -/
namespace Verif.Args

section
variable (S : List Command) (find : Path → Bytes → Option (Nat × Nat))

/-- The classification of a list of arguments, one at a time. -/
theorem items_kind (words : Path) (cmds flags : Bool) (a : Bytes) (rest : List Bytes) :
    (∃ it, items S find words cmds flags (a :: rest) = it ∧
      match argKind S find words cmds flags a with
      | .command => it = .command a :: items S find (words ++ [a]) cmds flags rest
      | .terminator => it = .terminator :: items S find words false false rest
      | .report e cmds' => it = .report [a] e :: items S find words cmds' flags rest
      | .wantsValue c f at_ name =>
        match rest with
        | [] => it = [.report [a] (.error (.flagNoValue name))]
        | v :: rest => it = .report [a, v] (.parse c f at_ name v) :: items S find words cmds flags rest) := by
  refine ⟨_, rfl, ?_⟩
  rw [items.eq_def, argKind]
  simp only []
  cases (if flags then shape a else Shape.word) with
  | terminator => rfl
  | badName => rfl
  | shorts => rfl
  | word =>
    simp only []
    by_cases hx : (cmds && isUtf8 a && Extends S (words ++ [a])) = true
    · rw [if_pos hx, if_pos hx]
    · rw [if_neg hx, if_neg hx]; rfl
  | long name value =>
    simp only []
    cases resolve (find words) name with
    | none => rfl
    | some x =>
      obtain ⟨⟨c, f⟩, neg⟩ := x
      simp only []
      cases action (modeOf S (c, f)) neg value with
      | parseNext => cases rest <;> rfl
      | _ => rfl

theorem kind_report_value {words : Path} {cmds flags : Bool} {a : Bytes} {e : Event} {c : Bool}
    (hk : argKind S find words cmds flags a = .report e c) : noValue e = false := by
  rw [argKind] at hk
  split at hk
  · cases hk
  · cases hk; rfl
  · cases hk; rfl
  · split at hk
    · cases hk
    · cases hk; split <;> rfl
  · split at hk
    · cases hk; rfl
    · simp only [] at hk
      split at hk <;> cases hk <;> rfl

/-- A complete conversation about a list of arguments. -/
theorem script_list (more : List (Option Bytes)) (args : List Bytes) (words : Path) (cmds flags : Bool) :
    tells (script S find words cmds flags (args.map some ++ none :: none :: more)) =
      (items S find words cmds flags args).filterMap Item.event ++
        endEvents S (words ++ commandWords (items S find words cmds flags args)) ∧
    entered S find words cmds flags (args.map some ++ none :: none :: more) =
      words ++ commandWords (items S find words cmds flags args) ∧
    asks (script S find words cmds flags (args.map some ++ none :: none :: more)) =
      args.map some ++ none ::
        if ((items S find words cmds flags args).filterMap Item.event).any noValue then [none] else [] := by
  have tt : ∀ es : List Event, tells (es.map .tell) = es := by
    intro es
    induction es with
    | nil => rfl
    | cons e es ih => exact congrArg (e :: ·) ih
  have key : ∀ n, ∀ args : List Bytes, args.length ≤ n → ∀ words cmds flags,
      tells (script S find words cmds flags (args.map some ++ none :: none :: more)) =
        (items S find words cmds flags args).filterMap Item.event ++
          endEvents S (words ++ commandWords (items S find words cmds flags args)) ∧
      entered S find words cmds flags (args.map some ++ none :: none :: more) =
        words ++ commandWords (items S find words cmds flags args) ∧
      asks (script S find words cmds flags (args.map some ++ none :: none :: more)) =
        args.map some ++ none ::
          if ((items S find words cmds flags args).filterMap Item.event).any noValue then [none] else [] := by
    intro n
    induction n with
    | zero =>
      intro args hn words cmds flags
      rw [List.eq_nil_of_length_eq_zero (Nat.le_zero.mp hn), items]
      refine ⟨?_, ?_, ?_⟩
      · show tells (script S find words cmds flags (none :: none :: more)) = _
        rw [script]
        show tells ((endEvents S words).map .tell) = _
        rw [tt]; simp [commandWords]
      · show entered S find words cmds flags (none :: none :: more) = _
        rw [entered]; simp [commandWords]
      · show asks (script S find words cmds flags (none :: none :: more)) = _
        rw [script]
        show none :: asks ((endEvents S words).map .tell) = _
        rw [asks_tells]; rfl
    | succ n ih =>
      intro args hn words cmds flags
      cases args with
      | nil => exact ih [] (Nat.zero_le _) words cmds flags
      | cons a rest =>
        rw [List.length_cons] at hn
        obtain ⟨it, hit, hm⟩ := items_kind S find words cmds flags a rest
        rw [hit, List.map_cons, List.cons_append]
        cases hk : argKind S find words cmds flags a with
        | command =>
          rw [hk] at hm
          simp only [] at hm
          have hst := steps_command hk
          have h1 := hst.script (rest.map some ++ none :: none :: more)
          have h2 := hst.entered (rest.map some ++ none :: none :: more)
          obtain ⟨i1, i2, i3⟩ := ih rest (by omega) (words ++ [a]) cmds flags
          have c1 : commandWords it = a :: commandWords (items S find (words ++ [a]) cmds flags rest) := by rw [hm]; rfl
          have c2 : it.filterMap Item.event = (items S find (words ++ [a]) cmds flags rest).filterMap Item.event := by
            rw [hm]; rfl
          have h1' : script S find words cmds flags (some a :: (rest.map some ++ none :: none :: more)) = _ := h1
          have h2' : entered S find words cmds flags (some a :: (rest.map some ++ none :: none :: more)) = _ := h2
          rw [h1', h2', tells_append, asks_append, i1, i2, i3, c1, c2]
          simp [tells, asks]
        | terminator =>
          rw [hk] at hm
          simp only [] at hm
          have hst := steps_terminator hk
          have h1 := hst.script (rest.map some ++ none :: none :: more)
          have h2 := hst.entered (rest.map some ++ none :: none :: more)
          obtain ⟨i1, i2, i3⟩ := ih rest (by omega) words false false
          have c1 : commandWords it = commandWords (items S find words false false rest) := by rw [hm]; rfl
          have c2 : it.filterMap Item.event = (items S find words false false rest).filterMap Item.event := by
            rw [hm]; rfl
          have h1' : script S find words cmds flags (some a :: (rest.map some ++ none :: none :: more)) = _ := h1
          have h2' : entered S find words cmds flags (some a :: (rest.map some ++ none :: none :: more)) = _ := h2
          rw [h1', h2', tells_append, asks_append, i1, i2, i3, c1, c2]
          simp [tells, asks]
        | report e cmds' =>
          rw [hk] at hm
          simp only [] at hm
          have hst := steps_report hk
          have h1 := hst.script (rest.map some ++ none :: none :: more)
          have h2 := hst.entered (rest.map some ++ none :: none :: more)
          obtain ⟨i1, i2, i3⟩ := ih rest (by omega) words cmds' flags
          have c1 : commandWords it = commandWords (items S find words cmds' flags rest) := by rw [hm]; rfl
          have c2 : it.filterMap Item.event = e :: (items S find words cmds' flags rest).filterMap Item.event := by
            rw [hm]; rfl
          have h1' : script S find words cmds flags (some a :: (rest.map some ++ none :: none :: more)) = _ := h1
          have h2' : entered S find words cmds flags (some a :: (rest.map some ++ none :: none :: more)) = _ := h2
          rw [h1', h2', tells_append, asks_append, i1, i2, i3, c1, c2, List.any_cons,
            kind_report_value S find hk, Bool.false_or]
          refine ⟨?_, rfl, ?_⟩ <;> simp [tells, asks]
        | wantsValue c f at_ name =>
          rw [hk] at hm
          simp only [] at hm
          cases rest with
          | nil =>
            simp only [] at hm
            have hst := steps_value hk none
            have h1 := hst.script (none :: more)
            have h2 := hst.entered (none :: more)
            have c1 : commandWords it = [] := by rw [hm]; rfl
            have c2 : it.filterMap Item.event = [.error (.flagNoValue name)] := by rw [hm]; rfl
            have h1' : script S find words cmds flags (some a :: none :: none :: more) = _ := h1
            have h2' : entered S find words cmds flags (some a :: none :: none :: more) = _ := h2
            rw [List.map_nil, List.nil_append, h1', h2', script, entered, c1, c2, List.append_nil]
            refine ⟨?_, rfl, ?_⟩
            · rw [tells_append]
              show [_] ++ tells ((endEvents S words).map .tell) = _
              rw [tt]; rfl
            · rw [asks_append]
              show [some a, none] ++ none :: asks ((endEvents S words).map .tell) = _
              rw [asks_tells]; rfl
          | cons v rest =>
            simp only [] at hm
            rw [List.length_cons] at hn
            have hst := steps_value hk (some v)
            have h1 := hst.script (rest.map some ++ none :: none :: more)
            have h2 := hst.entered (rest.map some ++ none :: none :: more)
            obtain ⟨i1, i2, i3⟩ := ih rest (by omega) words cmds flags
            have c1 : commandWords it = commandWords (items S find words cmds flags rest) := by rw [hm]; rfl
            have c2 : it.filterMap Item.event =
                .parse c f at_ name v :: (items S find words cmds flags rest).filterMap Item.event := by
              rw [hm]; rfl
            have h1' : script S find words cmds flags (some a :: some v :: (rest.map some ++ none :: none :: more)) = _ := h1
            have h2' : entered S find words cmds flags (some a :: some v :: (rest.map some ++ none :: none :: more)) = _ := h2
            rw [List.map_cons, List.cons_append, h1', h2', tells_append, asks_append, i1, i2, i3, c1, c2, List.any_cons]
            refine ⟨?_, rfl, ?_⟩ <;> simp [tells, asks, valueEvent, noValue]
  exact key _ args (Nat.le_refl _) words cmds flags

/-- Before the iterator is asked, everything due for the arguments so far has been said. -/
theorem script_before (o : Option Bytes) (l2 : List Act) (ans : List (Option Bytes)) (words : Path) (cmds flags : Bool)
    (l1 : List Act) (h : script S find words cmds flags ans = l1 ++ .ask o :: l2) :
    l1 = script S find words cmds flags (asks l1) := by
  have notell : ∀ (es : List Event) (l1 : List Act), es.map Act.tell ≠ l1 ++ .ask o :: l2 := by
    intro es l1 he
    have : Act.ask o ∈ es.map Act.tell := by rw [he]; simp
    rw [List.mem_map] at this
    obtain ⟨_, _, h⟩ := this
    cases h
  have key : ∀ n, ∀ ans : List (Option Bytes), ans.length ≤ n → ∀ words cmds flags l1,
      script S find words cmds flags ans = l1 ++ .ask o :: l2 →
      l1 = script S find words cmds flags (asks l1) := by
    intro n
    induction n with
    | zero =>
      intro ans hn words cmds flags l1 h
      rw [List.eq_nil_of_length_eq_zero (Nat.le_zero.mp hn), script] at h
      exact absurd h (by simp)
    | succ n ih =>
      intro ans hn words cmds flags l1 h
      cases l1 with
      | nil => show [] = script S find words cmds flags []; rw [script]
      | cons x l1 =>
      rcases ans with _ | ⟨_ | a, rest⟩
      · rw [script] at h; cases h
      · rw [script] at h
        rw [List.cons_append] at h
        exact absurd (List.cons.inj h).2 (notell _ _)
      · rw [List.length_cons] at hn
        cases hk : argKind S find words cmds flags a with
        | command =>
          have hst := steps_command hk
          have h1 : script S find words cmds flags (some a :: rest) = _ := hst.script rest
          rw [h1] at h
          have hx := (List.cons.inj h).1
          replace h := (List.cons.inj h).2
          subst hx
          have q := ih rest (by omega) _ _ _ _ h
          have h2 : script S find words cmds flags (some a :: asks l1) = _ := hst.script (asks l1)
          show _ = script S find words cmds flags (some a :: asks l1)
          rw [h2, ← q]; rfl
        | terminator =>
          have hst := steps_terminator hk
          have h1 : script S find words cmds flags (some a :: rest) = _ := hst.script rest
          rw [h1] at h
          have hx := (List.cons.inj h).1
          replace h := (List.cons.inj h).2
          subst hx
          have q := ih rest (by omega) _ _ _ _ h
          have h2 : script S find words cmds flags (some a :: asks l1) = _ := hst.script (asks l1)
          show _ = script S find words cmds flags (some a :: asks l1)
          rw [h2, ← q]; rfl
        | report e cmds' =>
          have hst := steps_report hk
          have h1 : script S find words cmds flags (some a :: rest) = _ := hst.script rest
          rw [h1] at h
          have hx := (List.cons.inj h).1
          replace h := (List.cons.inj h).2
          subst hx
          cases l1 with
          | nil => cases h
          | cons y l1 =>
          have hx := (List.cons.inj h).1
          replace h := (List.cons.inj h).2
          subst hx
          have q := ih rest (by omega) _ _ _ _ h
          have h2 : script S find words cmds flags (some a :: asks l1) = _ := hst.script (asks l1)
          show _ = script S find words cmds flags (some a :: asks l1)
          rw [h2, ← q]; rfl
        | wantsValue c f at_ name =>
          rcases rest with _ | ⟨v, rest⟩
          · rw [script, hk] at h
            have hx := (List.cons.inj h).1
            replace h := (List.cons.inj h).2
            subst hx
            simp at h
          · rw [List.length_cons] at hn
            have hst := steps_value hk v
            have h1 : script S find words cmds flags (some a :: v :: rest) = _ := hst.script rest
            rw [h1] at h
            have hx := (List.cons.inj h).1
            replace h := (List.cons.inj h).2
            subst hx
            cases l1 with
            | nil =>
              show _ = script S find words cmds flags [some a]
              rw [script, hk]
            | cons y l1 =>
            have hx := (List.cons.inj h).1
            replace h := (List.cons.inj h).2
            subst hx
            cases l1 with
            | nil => cases h
            | cons y l1 =>
            have hx := (List.cons.inj h).1
            replace h := (List.cons.inj h).2
            subst hx
            have q := ih rest (by omega) _ _ _ _ h
            have h2 : script S find words cmds flags (some a :: v :: asks l1) = _ := hst.script (asks l1)
            show _ = script S find words cmds flags (some a :: v :: asks l1)
            rw [h2, ← q]; rfl
  exact key _ ans (Nat.le_refl _) words cmds flags l1 h

/-- Without a flag that misses its value, the iterator is not asked again after it has ended. -/
theorem script_once (ans : List (Option Bytes)) (words : Path) (cmds flags : Bool)
    (h : asks (script S find words cmds flags ans) = ans)
    (hv : ∀ e ∈ tells (script S find words cmds flags ans), noValue e = false) :
    ∃ as : List Bytes, ans = as.map some ∨ ans = as.map some ++ [none] := by
  have key : ∀ n, ∀ ans : List (Option Bytes), ans.length ≤ n → ∀ words cmds flags,
      asks (script S find words cmds flags ans) = ans →
      (∀ e ∈ tells (script S find words cmds flags ans), noValue e = false) →
      ∃ as : List Bytes, ans = as.map some ∨ ans = as.map some ++ [none] := by
    intro n
    induction n with
    | zero =>
      intro ans hn words cmds flags h hv
      exact ⟨[], Or.inl (List.eq_nil_of_length_eq_zero (Nat.le_zero.mp hn))⟩
    | succ n ih =>
      intro ans hn words cmds flags h hv
      have cons : ∀ (a : Bytes) (rest : List (Option Bytes)),
          (∃ as : List Bytes, rest = as.map some ∨ rest = as.map some ++ [none]) →
          ∃ as : List Bytes, some a :: rest = as.map some ∨ some a :: rest = as.map some ++ [none] := by
        rintro a rest ⟨as, h | h⟩
        · exact ⟨a :: as, Or.inl (by rw [h]; rfl)⟩
        · exact ⟨a :: as, Or.inr (by rw [h]; rfl)⟩
      rcases ans with _ | ⟨_ | a, rest⟩
      · exact ⟨[], Or.inl rfl⟩
      · rw [script] at h
        have h' : none :: asks ((endEvents S words).map .tell) = none :: rest := h
        rw [asks_tells] at h'
        exact ⟨[], Or.inr h'.symm⟩
      · rw [List.length_cons] at hn
        cases hk : argKind S find words cmds flags a with
        | command =>
          have h1 : script S find words cmds flags (some a :: rest) = _ := (steps_command hk).script rest
          rw [h1] at h hv
          exact cons a rest (ih rest (by omega) _ _ _ (List.cons.inj h).2 hv)
        | terminator =>
          have h1 : script S find words cmds flags (some a :: rest) = _ := (steps_terminator hk).script rest
          rw [h1] at h hv
          exact cons a rest (ih rest (by omega) _ _ _ (List.cons.inj h).2 hv)
        | report e cmds' =>
          have h1 : script S find words cmds flags (some a :: rest) = _ := (steps_report hk).script rest
          rw [h1] at h hv
          exact cons a rest (ih rest (by omega) _ _ _ (List.cons.inj h).2
            fun e he => hv e (List.mem_cons_of_mem _ he))
        | wantsValue c f at_ name =>
          rcases rest with _ | ⟨_ | v, rest⟩
          · exact ⟨[a], Or.inl rfl⟩
          · have h1 : script S find words cmds flags (some a :: none :: rest) = _ := (steps_value hk none).script rest
            rw [h1] at hv
            exact absurd (hv (.error (.flagNoValue name)) (List.mem_cons_self ..)) (by simp [noValue])
          · have h1 : script S find words cmds flags (some a :: some v :: rest) = _ :=
              (steps_value hk (some v)).script rest
            rw [h1] at h hv
            rw [List.length_cons] at hn
            exact cons a _ (cons v rest (ih rest (by omega) _ _ _ (List.cons.inj (List.cons.inj h).2).2
              fun e he => hv e (List.mem_cons_of_mem _ he)))
  exact key _ ans (Nat.le_refl _) words cmds flags h hv

end

section
variable {σ R : Type}

/-- All states that come out of a piece of code have the property. -/
def Out.Keeps {α : Type} (P : σ → Prop) : Out σ R α → Prop
  | .panic => True
  | .brk s _ => P s
  | .cont s _ => P s

theorem Out.Keeps.bind {α β : Type} {P : σ → Prop} {x : Out σ R α} {f : σ → α → Out σ R β}
    (hx : x.Keeps P) (hf : ∀ s a, P s → (f s a).Keeps P) : (x.bind f).Keeps P := by
  cases x with
  | panic => trivial
  | brk s r => exact hx
  | cont s a => exact hf s a hx

theorem keeps_orPanic {α β : Type} {P : σ → Prop} {x : Option α} {f : α → Out σ R β}
    (hf : ∀ a, (f a).Keeps P) : (orPanic x f).Keeps P := by
  cases x with
  | none => trivial
  | some a => exact hf a

section
variable {W : Caller σ R} {P : σ → Prop} (hn : ∀ s, P s → P (W.next s).1) (ht : ∀ s e, P s → P (W.tell s e).1)
include ht

theorem keeps_emit {s : σ} (e : Event) (hs : P s) : (emit W.tell s e).Keeps P := by
  have := ht s e hs
  rw [emit]
  generalize W.tell s e = y at this
  obtain ⟨s', o⟩ := y
  cases o <;> exact this

theorem keeps_report (sc : Schema) (cur : Cursor) {s : σ} (o : Option Bytes) (hs : P s) :
    (report_parameter W.tell sc cur s o).Keeps P := by
  rw [report_parameter.eq_def]
  refine keeps_orPanic fun v => ?_
  cases v with
  | some i => exact keeps_emit ht _ hs
  | none =>
    cases o with
    | none => exact hs
    | some a => exact keeps_emit ht _ hs

include hn

theorem keeps_long (se : Searcher) (sc : Schema) (cur : Cursor) {s : σ} (flag : Bytes) (value : Option Bytes)
    (hs : P s) : (parse_longA W se sc cur s flag value).Keeps P := by
  rw [parse_longA]
  refine keeps_orPanic fun v => ?_
  rcases v with _ | ⟨⟨c, f⟩, t⟩
  · exact keeps_emit ht _ hs
  · refine keeps_orPanic fun fl => ?_
    cases fl.mode <;> cases t <;> cases value <;>
      first
      | exact keeps_emit ht _ hs
      | exact keeps_orPanic fun a => keeps_emit ht _ hs
      | (have := hn s hs
         simp only []
         generalize W.next s = y at this
         obtain ⟨s', o⟩ := y
         cases o with
         | none => exact keeps_emit ht _ this
         | some v => exact keeps_orPanic fun a => keeps_emit ht _ this)

theorem keeps_cursor (se : Searcher) (sc : Schema) (n : Nat) (p : Parser) {s : σ} (hs : P s) :
    (parse_cursorA W se sc n p s).Keeps P := by
  induction n generalizing p s with
  | zero => exact hs
  | succ n ih =>
    rw [parse_cursorA]
    have := hn s hs
    generalize W.next s = y at this
    obtain ⟨s', o⟩ := y
    cases o with
    | none => exact (keeps_report ht sc _ _ this).bind fun s _ h => h
    | some arg =>
      simp only []
      split
      · exact (keeps_report ht sc _ _ this).bind fun s _ h => ih _ h
      · split
        · exact (keeps_emit ht _ this).bind fun s _ h => ih _ h
        · exact ih _ this
        · exact (keeps_long hn ht se sc _ _ _ this).bind fun s _ h => ih _ h
        · split
          · exact (keeps_emit ht _ this).bind fun s _ h => ih _ h
          · split
            · refine Out.Keeps.bind ?_ fun s _ h => ih _ h
              rw [parse_command.eq_def]
              refine keeps_orPanic fun v => ?_
              cases v with
              | some c => exact this
              | none => exact (keeps_report ht sc _ _ this).bind fun s _ h => h
            · exact (keeps_report ht sc _ _ this).bind fun s _ h => ih _ h

end

/-- The two parsers do the same. -/
def Sim {α β : Type} (Q : List Bytes → α → β → Prop) : Out (σ × List Bytes) R α → Out σ R β → Prop
  | .panic, .panic => True
  | .brk s r, .brk s' r' => s.1 = s' ∧ r = r'
  | .cont s a, .cont s' b => s.1 = s' ∧ Q s.2 a b
  | _, _ => False

theorem Sim.bind {α β γ δ : Type} {Q : List Bytes → α → β → Prop} {Q' : List Bytes → γ → δ → Prop}
    {x : Out (σ × List Bytes) R α} {y : Out σ R β} {f : σ × List Bytes → α → Out (σ × List Bytes) R γ}
    {g : σ → β → Out σ R δ} (h : Sim Q x y) (hf : ∀ s l a b, Q l a b → Sim Q' (f (s, l) a) (g s b)) :
    Sim Q' (x.bind f) (y.bind g) := by
  rcases x with _ | ⟨⟨s, l⟩, r⟩ | ⟨⟨s, l⟩, a⟩ <;> rcases y with _ | ⟨s', r'⟩ | ⟨s', b⟩ <;>
    first
    | trivial
    | exact h.elim
    | exact h
    | (obtain ⟨e, q⟩ := h
       subst e
       exact hf s l a b q)

theorem sim_orPanic {α β γ : Type} {Q : List Bytes → β → γ → Prop} {x : Option α}
    {f : α → Out (σ × List Bytes) R β} {g : α → Out σ R γ} (hf : ∀ a, Sim Q (f a) (g a)) :
    Sim Q (orPanic x f) (orPanic x g) := by
  cases x with
  | none => trivial
  | some a => exact hf a

variable (h : σ → Event → σ × Option R)

theorem sim_emit (s : σ) (args : List Bytes) (e : Event) :
    Sim (fun l _ _ => l = args) (emit (listing h).tell (s, args) e) (emit h s e) := by
  rw [emit, emit]
  have : (listing h).tell (s, args) e = (((h s e).1, args), (h s e).2) := rfl
  rw [this]
  generalize h s e = y
  obtain ⟨s', o⟩ := y
  cases o
  · exact ⟨rfl, rfl⟩
  · exact ⟨rfl, rfl⟩

theorem sim_report (sc : Schema) (cur : Cursor) (s : σ) (args : List Bytes) (o : Option Bytes) :
    Sim (fun l _ _ => l = args) (report_parameter (listing h).tell sc cur (s, args) o)
      (report_parameter h sc cur s o) := by
  rw [report_parameter.eq_def, report_parameter.eq_def]
  refine sim_orPanic fun v => ?_
  cases v with
  | some i => exact sim_emit h s args _
  | none =>
    cases o with
    | none => exact ⟨rfl, rfl⟩
    | some a => exact sim_emit h s args _

theorem sim_then {s : σ} {args : List Bytes} (e : Event) :
    Sim (fun l _ b => l = b) (emit (listing h).tell (s, args) e) ((emit h s e).bind fun s _ => .cont s args) := by
  have : emit (listing h).tell (s, args) e = (emit (listing h).tell (s, args) e).bind fun s a => .cont s a := by
    cases emit (listing h).tell (s, args) e <;> rfl
  rw [this]
  exact (sim_emit h s args e).bind fun s l a b q => ⟨rfl, q⟩

theorem sim_long (se : Searcher) (sc : Schema) (cur : Cursor) (s : σ) (args : List Bytes) (flag : Bytes)
    (value : Option Bytes) :
    Sim (fun l _ b => l = b) (parse_longA (listing h) se sc cur (s, args) flag value)
      (parse_long h se sc cur args s flag value) := by
  rw [parse_longA, parse_long]
  refine sim_orPanic fun v => ?_
  rcases v with _ | ⟨⟨c, f⟩, t⟩
  · exact sim_then h _
  · refine sim_orPanic fun fl => ?_
    cases fl.mode <;> cases t <;> cases value <;>
      first
      | exact sim_then h _
      | exact sim_orPanic fun a => sim_then h _
      | (cases args with
         | nil => exact sim_then h _
         | cons v args => exact sim_orPanic fun a => sim_then h _)

theorem parse_long_le (se : Searcher) (sc : Schema) (cur : Cursor) (s s' : σ) (args left : List Bytes) (flag : Bytes)
    (value : Option Bytes) (hp : parse_long h se sc cur args s flag value = .cont s' left) :
    left.length ≤ args.length := by
  have ht : ∀ {s : σ} {args left : List Bytes} (e : Event),
      (emit h s e).bind (fun s _ => .cont s args) = (.cont s' left : Out σ R _) → args = left := by
    intro s args left e he
    cases hx : emit h s e with
    | panic => rw [hx] at he; cases he
    | brk a b => rw [hx] at he; cases he
    | cont a b => rw [hx] at he; cases he; rfl
  have ho : ∀ {α β : Type} {x : Option α} {f : α → Out σ R β} {y : β},
      orPanic x f = .cont s' y → ∃ a, f a = .cont s' y := by
    intro α β x f y hx
    cases x with
    | none => cases hx
    | some a => exact ⟨a, hx⟩
  rw [parse_long] at hp
  obtain ⟨v, hp⟩ := ho hp
  rcases v with _ | ⟨⟨c, f⟩, t⟩
  · rw [ht _ hp]; exact Nat.le_refl _
  · obtain ⟨fl, hp⟩ := ho hp
    revert hp
    cases fl.mode <;> cases t <;> cases value <;> intro hp <;>
      first
      | (rw [ht _ hp]; exact Nat.le_refl _; done)
      | (obtain ⟨a, hp⟩ := ho hp
         rw [ht _ hp]; exact Nat.le_refl _; done)
      | (cases args with
         | nil => rw [ht _ hp]; exact Nat.le_refl _
         | cons v args =>
           obtain ⟨a, hp⟩ := ho hp
           rw [← ht _ hp, List.length_cons]; omega)

theorem sim_cursor (se : Searcher) (sc : Schema) (n : Nat) (p : Parser) (s : σ) (args : List Bytes)
    (hl : args.length < n) :
    Sim (fun _ a b => a = some b) (parse_cursorA (listing h) se sc n p (s, args))
      (parse_cursor h se sc n p args s) := by
  induction n generalizing p s args with
  | zero => omega
  | succ n ih =>
    cases args with
    | nil =>
      rw [parse_cursorA, parse_cursor]
      exact (sim_report h sc _ s [] none).bind fun s l a b q => ⟨rfl, rfl⟩
    | cons arg args =>
      rw [List.length_cons] at hl
      rw [parse_cursorA, parse_cursor]
      have e1 : (listing h).next (s, arg :: args) = ((s, args), some arg) := rfl
      rw [e1]
      simp only []
      have rep : ∀ p, Sim (fun _ a b => a = some b)
          ((report_parameter (listing h).tell sc p.cursor (s, args) (some arg)).bind fun s _ =>
            parse_cursorA (listing h) se sc n p s)
          ((report_parameter h sc p.cursor s (some arg)).bind fun s _ => parse_cursor h se sc n p args s) :=
        fun p => (sim_report h sc _ s args _).bind fun s l a b q => by subst q; exact ih _ _ _ (by omega)
      have emi : ∀ e, Sim (fun _ a b => a = some b)
          ((emit (listing h).tell (s, args) e).bind fun s _ => parse_cursorA (listing h) se sc n p s)
          ((emit h s e).bind fun s _ => parse_cursor h se sc n p args s) :=
        fun e => (sim_emit h s args _).bind fun s l a b q => by subst q; exact ih _ _ _ (by omega)
      by_cases hf : (p.commands_finalized && p.flags_finalized) = true
      · rw [if_pos hf, if_pos hf]
        exact rep p
      · rw [if_neg hf, if_neg hf]
        have hlong : ∀ flag value, Sim (fun _ a b => a = some b)
            ((parse_longA (listing h) se sc p.cursor (s, args) flag value).bind fun s _ =>
              parse_cursorA (listing h) se sc n p s)
            ((parse_long h se sc p.cursor args s flag value).bind fun s args => parse_cursor h se sc n p args s) := by
          intro flag value
          cases hp : parse_long h se sc p.cursor args s flag value with
          | panic =>
            have q := sim_long h se sc p.cursor s args flag value
            rw [hp] at q
            generalize parse_longA (listing h) se sc p.cursor (s, args) flag value = y at q
            cases y with
            | panic => trivial
            | brk a b => exact q.elim
            | cont a b => exact q.elim
          | brk a b =>
            have q := sim_long h se sc p.cursor s args flag value
            rw [hp] at q
            generalize parse_longA (listing h) se sc p.cursor (s, args) flag value = y at q
            cases y with
            | panic => exact q.elim
            | brk a b => exact q
            | cont a b => exact q.elim
          | cont s' left =>
            have q := sim_long h se sc p.cursor s args flag value
            have hle := parse_long_le h se sc p.cursor s s' args left flag value hp
            rw [hp] at q
            generalize parse_longA (listing h) se sc p.cursor (s, args) flag value = y at q
            rcases y with _ | ⟨a, b⟩ | ⟨⟨a, l⟩, b⟩
            · exact q.elim
            · exact q.elim
            · obtain ⟨q1, q2⟩ := q
              simp only [] at q1 q2
              subst q1 q2
              exact ih _ _ _ (by omega)
        generalize (if p.flags_finalized = true then none else split_flag arg) = d
        rcases d with _ | ⟨flag, u, value⟩
        · simp only []
          split
          · exact emi _
          · split
            · refine Sim.bind (Q := fun l a b => l = args ∧ a = b) ?_ fun s l a b q => ?_
              · rw [parse_command.eq_def, parse_command.eq_def]
                refine sim_orPanic fun v => ?_
                cases v with
                | some c => exact ⟨rfl, rfl, rfl⟩
                | none => exact (sim_report h sc _ s args _).bind fun s l a b q => ⟨rfl, q, rfl⟩
              · obtain ⟨rfl, rfl⟩ := q
                exact ih _ _ _ (by omega)
            · exact rep p
        · cases u with
          | true => exact emi _
          | false =>
            cases flag with
            | cons x flag => cases value <;> exact hlong _ _
            | nil =>
              cases value with
              | some v => exact hlong _ _
              | none => exact ih _ _ _ (by omega)

/-- A piece of code with the states replaced. -/
def Out.mapS {τ α : Type} (g : τ → σ) : Out τ R α → Out σ R α
  | .panic => .panic
  | .brk s r => .brk (g s) r
  | .cont s a => .cont (g s) a

theorem mapS_bind {τ α β : Type} {g : τ → σ} {x : Out τ R α} {y : Out σ R α} {f : τ → α → Out τ R β}
    {k : σ → α → Out σ R β} (hx : x.mapS g = y) (hf : ∀ s a, (f s a).mapS g = k (g s) a) :
    (x.bind f).mapS g = y.bind k := by
  subst hx
  cases x with
  | panic => rfl
  | brk s r => rfl
  | cont s a => exact hf s a

theorem mapS_orPanic {τ α β : Type} {g : τ → σ} {x : Option α} {f : α → Out τ R β} {k : α → Out σ R β}
    (hf : ∀ a, (f a).mapS g = k a) : (orPanic x f).mapS g = orPanic x k := by
  cases x with
  | none => rfl
  | some a => exact hf a

section
variable {τ : Type} {g : τ → σ} {W : Caller σ R} {V : Caller τ R}
  (hn : ∀ t, W.next (g t) = (g (V.next t).1, (V.next t).2))
  (ht : ∀ t e, W.tell (g t) e = (g (V.tell t e).1, (V.tell t e).2))
include ht

theorem mapS_emit (t : τ) (e : Event) : (emit V.tell t e).mapS g = emit W.tell (g t) e := by
  rw [emit, emit, ht]
  generalize V.tell t e = y
  obtain ⟨s', o⟩ := y
  cases o <;> rfl

theorem mapS_report (sc : Schema) (cur : Cursor) (t : τ) (o : Option Bytes) :
    (report_parameter V.tell sc cur t o).mapS g = report_parameter W.tell sc cur (g t) o := by
  rw [report_parameter.eq_def, report_parameter.eq_def]
  refine mapS_orPanic fun v => ?_
  cases v with
  | some i => exact mapS_emit ht _ _
  | none =>
    cases o with
    | none => rfl
    | some a => exact mapS_emit ht _ _

include hn

theorem mapS_long (se : Searcher) (sc : Schema) (cur : Cursor) (t : τ) (flag : Bytes) (value : Option Bytes) :
    (parse_longA V se sc cur t flag value).mapS g = parse_longA W se sc cur (g t) flag value := by
  rw [parse_longA, parse_longA]
  refine mapS_orPanic fun v => ?_
  rcases v with _ | ⟨⟨c, f⟩, b⟩
  · exact mapS_emit ht _ _
  · refine mapS_orPanic fun fl => ?_
    cases fl.mode <;> cases b <;> cases value <;>
      first
      | exact mapS_emit ht _ _
      | exact mapS_orPanic fun a => mapS_emit ht _ _
      | (simp only [hn]
         generalize V.next t = y
         obtain ⟨s', o⟩ := y
         cases o with
         | none => exact mapS_emit ht _ _
         | some v => exact mapS_orPanic fun a => mapS_emit ht _ _)

/-- What one caller cannot see does not matter. -/
theorem mapS_cursor (se : Searcher) (sc : Schema) (n : Nat) (p : Parser) (t : τ) :
    (parse_cursorA V se sc n p t).mapS g = parse_cursorA W se sc n p (g t) := by
  induction n generalizing p t with
  | zero => rfl
  | succ n ih =>
    rw [parse_cursorA, parse_cursorA, hn]
    generalize V.next t = y
    obtain ⟨t, o⟩ := y
    cases o with
    | none => exact mapS_bind (mapS_report ht sc _ _ _) fun s _ => rfl
    | some arg =>
      simp only []
      by_cases hf : (p.commands_finalized && p.flags_finalized) = true
      · rw [if_pos hf, if_pos hf]
        exact mapS_bind (mapS_report ht sc _ _ _) fun s _ => ih _ _
      · rw [if_neg hf, if_neg hf]
        generalize (if p.flags_finalized = true then none else split_flag arg) = d
        rcases d with _ | ⟨flag, u, value⟩
        · simp only []
          split
          · exact mapS_bind (mapS_emit ht _ _) fun s _ => ih _ _
          · split
            · refine mapS_bind ?_ fun s _ => ih _ _
              rw [parse_command.eq_def, parse_command.eq_def]
              refine mapS_orPanic fun v => ?_
              cases v with
              | some c => rfl
              | none => exact mapS_bind (mapS_report ht sc _ _ _) fun s _ => rfl
            · exact mapS_bind (mapS_report ht sc _ _ _) fun s _ => ih _ _
        · cases u with
          | true => exact mapS_bind (mapS_emit ht _ _) fun s _ => ih _ _
          | false =>
            cases flag with
            | cons x flag => cases value <;> exact mapS_bind (mapS_long hn ht se sc _ _ _ _) fun s _ => ih _ _
            | nil =>
              cases value with
              | some v => exact mapS_bind (mapS_long hn ht se sc _ _ _ _) fun s _ => ih _ _
              | none => exact ih _ _

end

end
end Verif.Args
