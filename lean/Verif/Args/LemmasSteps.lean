import Verif.Args.SpecSteps
/-! # Lemmas: the classification of arguments that follow each other -/
namespace Verif.Args.Steps

/-- After this item, words of commands are still recognised. -/
def openCmds : Item → Bool
  | .command _ => true
  | .terminator => false
  | .report _ (.parameter _ _) | .report _ (.error (.parameterUnexpected _)) => false
  | .report _ _ => true

/-- After this item, flags are still recognised. -/
def openFlags : Item → Bool
  | .terminator => false
  | _ => true

/-- The item tells that a value is missing. -/
def waits : Item → Bool
  | .report _ (.error (.flagNoValue _)) => true
  | _ => false

variable (S : List Command) (find : Path → Bytes → Option (Nat × Nat))

/-- The item of an argument, whatever follows it. -/
def Single (ws : Path) (k f : Bool) (a : Bytes) (it : Item) : Prop :=
  waits it = false ∧ ∀ rest, items S find ws k f (a :: rest) =
    it :: items S find (ws ++ commandWords [it]) (k && openCmds it) (f && openFlags it) rest

/-- An argument is classified alone, or together with the next one. -/
theorem items_step (ws : Path) (k f : Bool) (a : Bytes) :
    (∃ it, Single S find ws k f a it) ∨
    ∃ name c fl at_, items S find ws k f [a] = [.report [a] (.error (.flagNoValue name))] ∧
      ∀ v rest, items S find ws k f (a :: v :: rest) =
        .report [a, v] (.parse c fl at_ name v) :: items S find ws k f rest := by
  have hrep : ∀ (used : List Bytes) (e : Event), e.isFlag = true →
      commandWords [.report used e] = [] ∧ openCmds (.report used e) = true ∧ waits (.report used e) = false := by
    intro used e h
    cases e with
    | error x => cases x <;> first | exact ⟨rfl, rfl, rfl⟩ | cases h
    | parameter c o => cases h
    | _ => exact ⟨rfl, rfl, rfl⟩
  have single : ∀ (e : Event), e.isFlag = true →
      (∀ rest, items S find ws k f (a :: rest) = .report [a] e :: items S find ws k f rest) →
      ∃ it, Single S find ws k f a it := by
    intro e he h
    obtain ⟨h1, h2, h3⟩ := hrep [a] e he
    refine ⟨.report [a] e, h3, fun rest => ?_⟩
    rw [h rest, h1, h2, List.append_nil, Bool.and_true]
    have : openFlags (.report [a] e) = true := rfl
    rw [this, Bool.and_true]
  cases hsh : (if f then shape a else .word) with
  | terminator =>
    have hf : f = true := by cases f <;> first | rfl | cases hsh
    subst hf
    refine Or.inl ⟨.terminator, rfl, fun rest => ?_⟩
    rw [items, hsh]
    show _ = Item.terminator :: items S find (ws ++ []) (k && false) (true && false) rest
    rw [List.append_nil, Bool.and_false, Bool.and_false]
  | badName => exact Or.inl (single (.error (.flagUnknown a)) rfl (fun rest => by rw [items, hsh]))
  | shorts => exact Or.inl (single (.error (.shortsUnknown a)) rfl (fun rest => by rw [items, hsh]))
  | word =>
    left
    by_cases hx : (k && isUtf8 a && Extends S (ws ++ [a])) = true
    · have hk : k = true := by
        cases k
        · cases hx
        · rfl
      subst hk
      refine ⟨.command a, rfl, fun rest => ?_⟩
      rw [items, hsh]
      simp only [hx, if_true]
      show _ = Item.command a :: items S find (ws ++ [a]) true (f && true) rest
      rw [Bool.and_true]
    · refine ⟨paramItem S ws a, ?_, fun rest => ?_⟩
      · rw [paramItem]; cases selected S ws <;> rfl
      · rw [items, hsh]
        simp only [hx, if_false, Bool.false_eq_true]
        have h1 : commandWords [paramItem S ws a] = [] := rfl
        have h2 : openCmds (paramItem S ws a) = false := by rw [paramItem]; cases selected S ws <;> rfl
        have h3 : openFlags (paramItem S ws a) = true := rfl
        rw [h1, h2, h3, List.append_nil, Bool.and_false, Bool.and_true]
  | long name value =>
    cases hres : resolve (find ws) name with
    | none =>
      exact Or.inl (single (.error (.flagUnknown name)) rfl (fun rest => by rw [items, hsh]; simp only [hres]))
    | some x =>
      obtain ⟨⟨c, fl⟩, negated⟩ := x
      cases hact : action (modeOf S (c, fl)) negated value with
      | set => exact Or.inl (single (.set c fl ((nearest S ws).getD c) name) rfl
          (fun rest => by rw [items, hsh]; simp only [hres, hact]))
      | toggle b => exact Or.inl (single (.toggle c fl ((nearest S ws).getD c) name b) rfl
          (fun rest => by rw [items, hsh]; simp only [hres, hact]))
      | parse v => exact Or.inl (single (.parse c fl ((nearest S ws).getD c) name v) rfl
          (fun rest => by rw [items, hsh]; simp only [hres, hact]))
      | badToggle => exact Or.inl (single (.error (.flagUnexpectedToggle name)) rfl
          (fun rest => by rw [items, hsh]; simp only [hres, hact]))
      | badValue v => exact Or.inl (single (.error (.flagUnexpectedValue name v)) rfl
          (fun rest => by rw [items, hsh]; simp only [hres, hact]))
      | parseNext =>
        refine Or.inr ⟨name, c, fl, (nearest S ws).getD c, ?_, fun v rest => ?_⟩
        · rw [items, hsh]; simp only [hres, hact]
        · rw [items, hsh]; simp only [hres, hact]

theorem words_cons (it : Item) (its : List Item) : commandWords (it :: its) = commandWords [it] ++ commandWords its := by
  rw [show it :: its = [it] ++ its from rfl, commandWords, List.filterMap_append]; rfl

/-- What follows is classified on its own, given the words before and whether there were parameters and `--`. -/
theorem items_append : ∀ (n : Nat) (x : List Bytes), x.length ≤ n → ∀ (ws : Path) (k f : Bool) (y : List Bytes),
    ((items S find ws k f x).any waits) = false →
    items S find ws k f (x ++ y) = items S find ws k f x ++
      items S find (ws ++ commandWords (items S find ws k f x)) (k && (items S find ws k f x).all openCmds)
        (f && (items S find ws k f x).all openFlags) y := by
  intro n
  induction n with
  | zero =>
    intro x hn ws k f y _
    have : x = [] := List.length_eq_zero_iff.mp (by omega)
    subst this
    have e : items S find ws k f [] = [] := by rw [items]
    rw [e]
    show _ = [] ++ items S find (ws ++ []) (k && true) (f && true) y
    rw [List.append_nil, Bool.and_true, Bool.and_true]; rfl
  | succ n ih =>
    intro x hn ws k f y hc
    cases x with
    | nil =>
      have e : items S find ws k f [] = [] := by rw [items]
      rw [e]
      show _ = [] ++ items S find (ws ++ []) (k && true) (f && true) y
      rw [List.append_nil, Bool.and_true, Bool.and_true]; rfl
    | cons a x =>
      rcases items_step S find ws k f a with ⟨it, hw, hs⟩ | ⟨name, c, fl, at_, h1, h2⟩
      · rw [hs x, List.any_cons, Bool.or_eq_false_iff] at hc
        rw [List.cons_append, hs, hs, ih x (by simpa using hn) _ _ _ y hc.2,
          words_cons it (items S find (ws ++ commandWords [it]) (k && openCmds it) (f && openFlags it) x), List.all_cons, List.all_cons,
          List.append_assoc, Bool.and_assoc, Bool.and_assoc]
        rfl
      · cases x with
        | nil => rw [h1] at hc; cases hc
        | cons v x =>
          rw [h2, List.any_cons, Bool.or_eq_false_iff] at hc
          have hl : x.length ≤ n := by simp only [List.length_cons] at hn; omega
          rw [List.cons_append, List.cons_append, h2, h2, ih x hl _ _ _ y hc.2, words_cons, List.all_cons, List.all_cons]
          rfl

theorem deliver_record (s evs : List Event) : deliver record s evs = (s ++ evs, none) := by
  induction evs generalizing s with
  | nil => rw [List.append_nil]; rfl
  | cons e evs ih =>
    show deliver record (s ++ [e]) evs = _
    rw [ih, List.append_assoc]; rfl

/-- What is told are the reports of the items. -/
theorem told_items (so : Sorter) (se : Searcher) (cs : List Command) (find : Path → Bytes → Option (Nat × Nat))
    (hp : ∀ (σ R : Type) (h : σ → Event → σ × Option R) (args : List Bytes) (s : σ),
        parse h se (compile so cs) args s =
          specResult h s (compile so cs).cmds (items (compile so cs).cmds find [] true true args)) (args : List Bytes) :
    told so se cs args = (items (compile so cs).cmds find [] true true args).filterMap Item.event ∧
    chosen so se cs args =
      selected (compile so cs).cmds (commandWords (items (compile so cs).cmds find [] true true args)) := by
  rw [told, chosen, hp]
  generalize hS : (compile so cs).cmds = S
  have hacc := reports_are_faithful S find [] true true args
  generalize items S find [] true true args = its at hacc
  constructor
  · rw [specResult_state, deliver_record, List.nil_append]
    show (events S its).filter Event.isArg = _
    rw [events, List.filter_append]
    have h1 : (endEvents S (commandWords its)).filter Event.isArg = [] := by
      rw [endEvents]; cases selected S (commandWords its) <;> rfl
    rw [h1, List.append_nil, List.filter_eq_self]
    intro e he
    obtain ⟨it, hit, he⟩ := List.mem_filterMap.mp he
    cases it with
    | command w => cases he
    | terminator => cases he
    | report used e' =>
      cases he
      have := hacc used e hit
      cases e with
      | parameter c o => cases o with
        | none => exact absurd this (by simp [Accounts])
        | some p => rfl
      | _ => rfl
  · rw [specResult, deliver_record]
    simp only []
    cases selected S (commandWords its) <;> rfl

/-- Items wait if it is told. -/
theorem waits_told (its : List Item) (h : ¬ Waits (its.filterMap Item.event)) : its.any waits = false := by
  rw [List.any_eq_false]
  intro it hit hw
  cases it with
  | command w => cases hw
  | terminator => cases hw
  | report used e =>
    cases e with
    | error x =>
      cases x with
      | flagNoValue n => exact h ⟨n, List.mem_filterMap.mpr ⟨_, hit, rfl⟩⟩
      | _ => cases hw
    | _ => cases hw

/-- An argument that is reported as a flag leaves everything as it was. -/
theorem flag_step (ws : Path) (k f : Bool) (a : Bytes) (e : Event) (he : e.isFlag = true)
    (h : (items S find ws k f [a]).filterMap Item.event = [e]) (rest : List Bytes) :
    items S find ws k f (a :: rest) = .report [a] e :: items S find ws k f rest := by
  rcases items_step S find ws k f a with ⟨it, hw, hs⟩ | ⟨name, c, fl, at_, h1, h2⟩
  · have h0 := hs []
    have hnil : ∀ ws k f, items S find ws k f [] = [] := by intro ws k f; rw [items]
    rw [hnil] at h0
    have hacc := reports_are_faithful S find ws k f [a]
    rw [h0] at h hacc
    cases it with
    | command w => cases h
    | terminator => cases h
    | report used e' =>
      have h : [e'] = [e] := h
      cases h
      have hused : used = [a] := by
        have := every_argument_once S find ws k f [a]
        rw [h0] at this
        simpa [Item.args] using this
      subst hused
      rw [hs rest]
      have h1 : openCmds (.report [a] e) = true := by
        cases e with
        | error x => cases x <;> first | rfl | cases he
        | parameter c o => cases he
        | _ => rfl
      have h2 : openFlags (.report [a] e) = true := rfl
      have h3 : commandWords [.report [a] e] = [] := rfl
      rw [h1, h2, h3, Bool.and_true, Bool.and_true, List.append_nil]
  · rw [h1] at h
    have h : [Event.error (.flagNoValue name)] = [e] := h
    cases h
    cases he

/-- An argument that waits for its value takes it from the next one. -/
theorem wait_step (ws : Path) (k f : Bool) (a name : Bytes)
    (h : (items S find ws k f [a]).filterMap Item.event = [.error (.flagNoValue name)]) :
    ∃ c fl at_, ∀ v rest, items S find ws k f (a :: v :: rest) =
        .report [a, v] (.parse c fl at_ name v) :: items S find ws k f rest := by
  rcases items_step S find ws k f a with ⟨it, hw, hs⟩ | ⟨name', c, fl, at_, h1, h2⟩
  · have h0 := hs []
    have hnil : ∀ ws k f, items S find ws k f [] = [] := by intro ws k f; rw [items]
    rw [hnil] at h0
    rw [h0] at h
    cases it with
    | command w => cases h
    | terminator => cases h
    | report used e' =>
      have h : [e'] = [.error (.flagNoValue name)] := h
      cases h
      cases hw
  · rw [h1] at h
    have h : [Event.error (.flagNoValue name')] = [.error (.flagNoValue name)] := h
    cases h
    exact ⟨c, fl, at_, h2⟩

end Verif.Args.Steps
