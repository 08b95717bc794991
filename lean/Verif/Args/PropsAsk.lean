import Verif.Args.LemmasAsk2
import Verif.Args.Props
/-! # Properties: arguments are taken when they are needed (C113)

`parse` gets an iterator that the caller may go on using. The theorems say when it is called. -/
namespace Verif.Args

section
variable {σ R : Type}

/-- **C113.** Whatever the caller's iterator and reports do, and after any number of rounds: the log of calls into
the caller's code is exactly the script that belongs to the answers of the iterator. A report that asks to stop is
the last call. If `parse` finds its end itself, the conversation is complete, whatever the iterator would have
answered further, and the result is the command that the words name. -/
theorem conversation (so : Sorter) (se : Searcher) (cs : List Command) :
    ∃ find, FlagLookup (compile so cs).cmds find ∧
      ∀ (σ R : Type) (W : Caller σ R) (n : Nat) (s : σ),
        let ideal := script (compile so cs).cmds find [] true true
        let words := entered (compile so cs).cmds find [] true true
        match parseA (watched W) se (compile so cs) n (s, []) with
        | .running x => x.2 = ideal (asks x.2) ∧ n ≤ (asks x.2).length
        | .returned .panic => False
        | .returned (.stopped x _) => ∃ l, x.2 = l ++ [.stop] ∧ l = ideal (asks l)
        | .returned (.ok x i) => x.2 = ideal (asks x.2) ∧ (∀ more, ideal (asks x.2 ++ more) = ideal (asks x.2)) ∧
            selected (compile so cs).cmds (words (asks x.2)) = some i
        | .returned (.noCommand x) => x.2 = ideal (asks x.2) ∧ (∀ more, ideal (asks x.2 ++ more) = ideal (asks x.2)) ∧
            selected (compile so cs).cmds (words (asks x.2)) = none := by
  have hc := compile_compiled so cs
  generalize compile so cs = sc at hc
  refine ⟨codeFind se sc, codeFind_lookup se hc, ?_⟩
  intro σ R W n s
  have hg := parse_cursorA_good W se hc n [] (Or.inl rfl) true true s []
  rw [← cursor_with_eq] at hg
  simp only [Bool.not_true] at hg
  simp only [parseA]
  generalize parse_cursorA (watched W) se sc n _ (s, []) = y at hg
  rcases y with _ | ⟨x, r⟩ | ⟨x, _ | p⟩
  · exact hg
  · obtain ⟨l1, h1, h2⟩ := hg
    exact ⟨l1, h1, h2⟩
  · obtain ⟨l1, h1, h2, h3⟩ := hg
    rw [List.nil_append] at h1
    simp only [h1]
    exact ⟨h2, h3⟩
  · obtain ⟨l1, h1, h2, _, h5, h4⟩ := hg
    rw [List.nil_append] at h1
    simp only [h4, command_eq hc.sorted]
    cases hsel : selected sc.cmds (entered sc.cmds (codeFind se sc) [] true true (asks l1)) with
    | none => simp only [h1]; exact ⟨h2, h5, hsel⟩
    | some i => simp only [h1]; exact ⟨h2, h5, hsel⟩

/-- **C113.** Whenever the iterator is asked, everything that is to be said about the arguments before has been
said: nothing is read ahead of the reports. -/
theorem reported_before_next (so : Sorter) (se : Searcher) (cs : List Command) :
    ∃ find, FlagLookup (compile so cs).cmds find ∧
      ∀ (σ R : Type) (W : Caller σ R) (n : Nat) (s : σ) (x : σ × List Act),
        (parseA (watched W) se (compile so cs) n (s, [])).state = some x →
        ∀ l1 o l2, x.2 = l1 ++ .ask o :: l2 → l1 = script (compile so cs).cmds find [] true true (asks l1) := by
  obtain ⟨find, hf, hc⟩ := conversation so se cs
  refine ⟨find, hf, ?_⟩
  intro σ R W n s x hx l1 o l2 hl
  have h := hc σ R W n s
  have key : ∀ l : List Act, l = script (compile so cs).cmds find [] true true (asks l) →
      ∀ l2, l = l1 ++ .ask o :: l2 → l1 = script (compile so cs).cmds find [] true true (asks l1) := by
    intro l h l2 hl
    exact script_before _ _ o l2 (asks l) [] true true l1 (h.symm.trans hl)
  simp only [] at h
  generalize parseA (watched W) se (compile so cs) n (s, []) = y at hx h
  rcases y with y | (_ | ⟨y, i⟩ | y | ⟨y, r⟩)
  · cases hx; exact key _ h.1 _ hl
  · cases hx
  · cases hx; exact key _ h.1 _ hl
  · cases hx; exact key _ h.1 _ hl
  · cases hx
    obtain ⟨l, h1, h2⟩ := h
    rw [h1] at hl
    rcases List.eq_nil_or_concat l2 with rfl | ⟨l3, z, rfl⟩
    · have := List.append_inj' hl rfl
      cases this.2
    · have e : l1 ++ .ask o :: (l3 ++ [z]) = (l1 ++ .ask o :: l3) ++ [z] := by simp
      rw [List.concat_eq_append, e] at hl
      exact key l h2 l3 (List.append_inj' hl rfl).1

/-- The log changes nothing. -/
theorem watched_same (W : Caller σ R) (se : Searcher) (sc : Schema) (n : Nat) (s : σ) (l : List Act) :
    (parseA (watched W) se sc n (s, l)).mapState Prod.fst = parseA W se sc n s := by
  have := mapS_cursor (W := W) (V := watched W) (g := Prod.fst) (fun t => rfl) (fun t e => rfl) se sc n
    ⟨false, false, Cursor_with sc⟩ (s, l)
  rw [parseA, parseA]
  simp only [] at this
  rw [← this]
  generalize parse_cursorA (watched W) se sc n _ (s, l) = y
  rcases y with _ | ⟨x, r⟩ | ⟨x, _ | p⟩
  · rfl
  · rfl
  · rfl
  · simp only [Out.mapS]
    generalize command sc p.cursor = c
    rcases c with _ | _ | i <;> rfl

/-- **C113.** With an iterator that goes through a list, `parse` returns what it returns for the list. -/
theorem listed_same (h : σ → Event → σ × Option R) (se : Searcher) (sc : Schema) (args : List Bytes) (s : σ) (n : Nat)
    (hn : n = args.length + 1) :
    ∃ r, parseA (listing h) se sc n (s, args) = .returned r ∧ r.mapState Prod.fst = parse h se sc args s := by
  subst hn
  have := sim_cursor h se sc (args.length + 1) ⟨false, false, Cursor_with sc⟩ s args (Nat.lt_succ_self _)
  rw [parseA, parse]
  generalize parse_cursorA (listing h) se sc _ _ (s, args) = x at this
  generalize parse_cursor h se sc _ _ args s = y at this
  rcases x with _ | ⟨x, r⟩ | ⟨x, a⟩ <;> rcases y with _ | ⟨y, r'⟩ | ⟨y, b⟩ <;> try exact this.elim
  · exact ⟨.panic, rfl, rfl⟩
  · obtain ⟨rfl, rfl⟩ := this
    exact ⟨.stopped x r, rfl, rfl⟩
  · obtain ⟨rfl, rfl⟩ := this
    simp only []
    generalize command sc b.cursor = c
    rcases c with _ | _ | i
    · exact ⟨.panic, rfl, rfl⟩
    · exact ⟨.noCommand x, rfl, rfl⟩
    · exact ⟨.ok x i, rfl, rfl⟩

/-- What a list iterator has answered and what is left of it. -/
theorem listed_asks (h : σ → Event → σ × Option R) (se : Searcher) (sc : Schema) (args : List Bytes) (s : σ) (n : Nat)
    (x : (σ × List Bytes) × List Act)
    (hx : (parseA (watched (listing h)) se sc n ((s, args), [])).state = some x) :
    ∃ k m, asks x.2 = (args.take k).map some ++ List.replicate m none ∧ x.1.2 = args.drop k ∧
      k ≤ args.length ∧ (k < args.length → m = 0) := by
  let P : (σ × List Bytes) × List Act → Prop := fun x =>
    ∃ k m, asks x.2 = (args.take k).map some ++ List.replicate m none ∧ x.1.2 = args.drop k ∧
      k ≤ args.length ∧ (k < args.length → m = 0)
  have hn : ∀ x, P x → P ((watched (listing h)).next x).1 := by
    rintro ⟨⟨s, l⟩, log⟩ ⟨k, m, h1, h2, h3, h4⟩
    simp only [] at h1 h2
    have e : (watched (listing h)).next ((s, l), log) = (((s, l.tail), log ++ [.ask l.head?]), l.head?) := rfl
    rw [e]
    by_cases hk : k < args.length
    · have hm := h4 hk
      subst hm
      have hd : l = args[k] :: args.drop (k + 1) := by rw [h2]; exact List.drop_eq_getElem_cons hk
      refine ⟨k + 1, 0, ?_, ?_, hk, fun _ => rfl⟩
      · simp only [asks_append, h1, hd, List.head?_cons]
        rw [List.take_add_one, List.getElem?_eq_getElem hk, List.map_append]
        show _ ++ [] ++ [some args[k]] = _
        rw [List.append_nil, List.replicate_zero, List.append_nil]
        rfl
      · simp [hd]
    · have : k = args.length := by omega
      subst this
      rw [List.drop_length] at h2
      subst h2
      refine ⟨args.length, m + 1, ?_, ?_, Nat.le_refl _, fun h => absurd h (Nat.lt_irrefl _)⟩
      · simp only [asks_append, h1, List.head?_nil, List.replicate_succ']
        simp [asks]
      · simp
  have ht : ∀ x e, P x → P ((watched (listing h)).tell x e).1 := by
    rintro ⟨⟨s, l⟩, log⟩ e ⟨k, m, h1, h2⟩
    refine ⟨k, m, ?_, h2⟩
    show asks (log ++ .tell e :: _) = _
    rw [asks_append, h1]
    have : ∀ b : Bool, asks (.tell e :: if b then [.stop] else []) = [] := by intro b; cases b <;> rfl
    exact (congrArg (_ ++ ·) (this _)).trans (List.append_nil _)
  have hp : P ((s, args), []) := ⟨0, 0, by simp [asks], rfl, Nat.zero_le _, fun _ => rfl⟩
  have q := keeps_cursor hn ht se sc n ⟨false, false, Cursor_with sc⟩ hp
  rw [parseA] at hx
  generalize parse_cursorA (watched (listing h)) se sc n _ ((s, args), []) = y at hx q
  rcases y with _ | ⟨y, r⟩ | ⟨y, _ | p⟩
  · cases hx
  · cases hx; exact q
  · cases hx; exact q
  · simp only [] at hx
    generalize command sc p.cursor = c at hx
    rcases c with _ | _ | i <;> cases hx <;> exact q

/-- **C113.** If a report asks to stop, the iterator is left right behind the arguments that were dealt with: the
log is the script for those, and the others are still there. -/
theorem left_behind (so : Sorter) (se : Searcher) (cs : List Command) :
    ∃ find, FlagLookup (compile so cs).cmds find ∧
      ∀ (σ R : Type) (h : σ → Event → σ × Option R) (n : Nat) (s s' : σ) (args left : List Bytes) (log : List Act) (r : R),
        parseA (watched (listing h)) se (compile so cs) n ((s, args), []) = .returned (.stopped ((s', left), log) r) →
        ∃ taken ends, args = taken ++ left ∧ (left ≠ [] → ends = 0) ∧
          log = script (compile so cs).cmds find [] true true (taken.map some ++ List.replicate ends none) ++ [.stop] := by
  obtain ⟨find, hf, hc⟩ := conversation so se cs
  refine ⟨find, hf, ?_⟩
  intro σ R h n s s' args left log r hr
  have q := hc _ R (listing h) n (s, args)
  obtain ⟨k, m, h1, h2, h3, h4⟩ := listed_asks h se (compile so cs) args s n _ (by rw [hr]; rfl)
  simp only [hr] at q
  obtain ⟨l, h5, h6⟩ := q
  simp only [] at h1 h2
  have h7 : asks log = asks l := by
    rw [h5, asks_append]; show asks l ++ [] = _; rw [List.append_nil]
  refine ⟨args.take k, m, by rw [h2, List.take_append_drop], ?_, ?_⟩
  · intro hl
    refine h4 ?_
    rcases Nat.lt_or_ge k args.length with hk | hk
    · exact hk
    · rw [List.drop_of_length_le hk] at h2
      exact absurd h2 hl
  · rw [← h1, h7, ← h6]; exact h5

/-- **C113.** If nothing asks to stop, all arguments are taken, each once and in order, and what is reported is what
the classification of the list says. The iterator is asked once more to find its end, and yet once more if the
last argument is a flag without its value. -/
theorem asked_in_full (so : Sorter) (se : Searcher) (cs : List Command) :
    ∃ find, FlagLookup (compile so cs).cmds find ∧
      ∀ (σ R : Type) (h : σ → Event → σ × Option R) (n : Nat) (s : σ) (args : List Bytes) (x : (σ × List Bytes) × List Act),
        ((∃ i, parseA (watched (listing h)) se (compile so cs) n ((s, args), []) = .returned (.ok x i)) ∨
          parseA (watched (listing h)) se (compile so cs) n ((s, args), []) = .returned (.noCommand x)) →
        let its := items (compile so cs).cmds find [] true true args
        x.1.2 = [] ∧ tells x.2 = events (compile so cs).cmds its ∧
        asks x.2 = args.map some ++ none :: if (its.filterMap Item.event).any noValue then [none] else [] := by
  obtain ⟨find, hf, hc⟩ := conversation so se cs
  refine ⟨find, hf, ?_⟩
  intro σ R h n s args x hr
  have hst : (parseA (watched (listing h)) se (compile so cs) n ((s, args), [])).state = some x := by
    rcases hr with ⟨i, hr⟩ | hr <;> rw [hr] <;> rfl
  have q : x.2 = script (compile so cs).cmds find [] true true (asks x.2) ∧
      ∀ more, script (compile so cs).cmds find [] true true (asks x.2 ++ more) =
        script (compile so cs).cmds find [] true true (asks x.2) := by
    have q := hc _ R (listing h) n (s, args)
    rcases hr with ⟨i, hr⟩ | hr
    · simp only [hr] at q; exact ⟨q.1, q.2.1⟩
    · simp only [hr] at q; exact ⟨q.1, q.2.1⟩
  obtain ⟨k, m, h1, h2, h3, h4⟩ := listed_asks h se (compile so cs) args s n _ hst
  have all : k = args.length := by
    rcases Nat.lt_or_ge k args.length with hk | hk
    · exfalso
      have hm := h4 hk
      subst hm
      -- a conversation about some of the arguments is not complete
      have qq := q.2 ((args.drop k).map some ++ none :: none :: [])
      rw [h1] at qq
      simp only [List.replicate_zero, List.append_nil] at qq
      rw [← List.append_assoc, ← List.map_append, List.take_append_drop] at qq
      have e := congrArg (fun l => (asks l).length) qq
      replace e : (asks _).length = (asks _).length := e
      rw [(script_list (compile so cs).cmds find [] args [] true true).2.2] at e
      have e2 : asks (script (compile so cs).cmds find [] true true ((args.take k).map some)) = (args.take k).map some := by
        have e3 := congrArg asks q.1
        rw [h1] at e3
        simp only [List.replicate_zero, List.append_nil] at e3
        exact e3.symm
      rw [e2] at e
      simp only [List.length_append, List.length_map, List.length_cons, List.length_take] at e
      omega
    · omega
  subst all
  rw [List.take_length] at h1
  rw [List.drop_length] at h2
  have qq := q.2 (none :: none :: [])
  have sl := script_list (compile so cs).cmds find
  have nones : List.replicate m none ++ none :: none :: ([] : List (Option Bytes)) =
      none :: none :: List.replicate m none := by
    show List.replicate m none ++ List.replicate 2 none = _
    rw [List.replicate_append_replicate]
    rfl
  refine ⟨h2, ?_, ?_⟩
  · rw [q.1, ← qq, h1, List.append_assoc, nones, (sl _ args [] true true).1, events, List.nil_append]
  · rw [q.1, ← qq, h1, List.append_assoc, nones]
    exact (sl _ args [] true true).2.2

/-- **C113 (partial).** As long as no flag has missed its value, the iterator is not asked again after it has
returned `None`. Missing: the call after a flag that missed its value, see `asked_after_end`. -/
theorem ends_once_partial (so : Sorter) (se : Searcher) (cs : List Command) (W : Caller σ R) (n : Nat) (s : σ)
    (x : σ × List Act) (hx : (parseA (watched W) se (compile so cs) n (s, [])).state = some x)
    (hv : ∀ e ∈ tells x.2, noValue e = false) :
    ∃ as : List Bytes, asks x.2 = as.map some ∨ asks x.2 = as.map some ++ [none] := by
  obtain ⟨find, -, hc⟩ := conversation so se cs
  have h := hc σ R W n s
  have key : ∀ l : List Act, l = script (compile so cs).cmds find [] true true (asks l) →
      (∀ e ∈ tells l, noValue e = false) →
      ∃ as : List Bytes, asks l = as.map some ∨ asks l = as.map some ++ [none] := by
    intro l h hv
    refine script_once (compile so cs).cmds find (asks l) [] true true ?_ ?_
    · rw [← h]
    · rw [← h]; exact hv
  simp only [] at h
  generalize parseA (watched W) se (compile so cs) n (s, []) = y at hx h
  rcases y with y | (_ | ⟨y, i⟩ | y | ⟨y, r⟩)
  · cases hx; exact key _ h.1 hv
  · cases hx
  · cases hx; exact key _ h.1 hv
  · cases hx; exact key _ h.1 hv
  · cases hx
    obtain ⟨l, h1, h2⟩ := h
    have e1 : asks x.2 = asks l := by rw [h1, asks_append]; show asks l ++ [] = _; rw [List.append_nil]
    have e2 : tells x.2 = tells l := by rw [h1, tells_append]; show tells l ++ [] = _; rw [List.append_nil]
    rw [e1]
    exact key l h2 (e2 ▸ hv)

end

/-! ## Examples -/

/-- A caller whose iterator answers from a list that may contain `None`, and whose reports never stop. -/
def answering : Caller (List (Option Bytes)) Unit where
  next l := (l.tail, l.headD none)
  tell l _ := (l, none)

/-- **C113: the negation.** A flag that misses its value does not end the arguments: the iterator is asked again
after it has returned `None`, and what it then yields is parsed. (Iterators that go on after `None` exist: only
`FusedIterator`s promise not to.) -/
theorem asked_after_end :
    parseA (watched answering) linearSearcher (compile insertSorter demo) 9
      ([some (b "remote"), some (b "add"), some (b "--url"), none, some (b "x")], []) =
    .returned (.ok ([], [.ask (some (b "remote")), .ask (some (b "add")), .ask (some (b "--url")), .ask none,
      .tell (.error (.flagNoValue (b "url"))), .ask (some (b "x")), .tell (.parameter 2 (some (b "x"))),
      .ask none, .tell (.parameter 2 none)]) 2) := by decide +kernel

/-- Report handlers that stop at the second report. -/
def stopAt2 : Nat → Event → Nat × Option Unit := fun k _ => (k + 1, if k = 1 then some () else none)

/-- `left_behind`: the arguments after the one whose report asked to stop are left in the iterator. -/
example : parseA (watched (listing stopAt2)) linearSearcher (compile insertSorter demo) 9
      ((0, [b "remote", b "add", b "--url", b "u", b "x", b "y", b "z"]), []) =
    .returned (.stopped ((2, [b "y", b "z"]), [.ask (some (b "remote")), .ask (some (b "add")),
      .ask (some (b "--url")), .ask (some (b "u")), .tell (.parse 2 0 2 (b "url") (b "u")),
      .ask (some (b "x")), .tell (.parameter 2 (some (b "x"))), .stop]) ()) := by decide +kernel

/-- `asked_in_full`: the end is looked for twice after a flag without value. -/
example : (parseA (watched (listing fun (k : Nat) (_ : Event) => (k, (none : Option Unit)))) linearSearcher
      (compile insertSorter demo) 9 ((0, [b "remote", b "add", b "--url"]), [])).state.map (asks ·.2) =
    some [some (b "remote"), some (b "add"), some (b "--url"), none, none] := by decide +kernel

/-- `conversation` for an iterator without end: the reports are made as the arguments come. -/
example : parseA (watched (⟨fun k => (k + 1, some (b "p")), fun k _ => (k, none)⟩ : Caller Nat Unit)) linearSearcher
      (compile insertSorter demo) 2 (0, []) =
    .running (2, [.ask (some (b "p")), .tell (.parameter 0 (some (b "p"))), .ask (some (b "p")),
      .tell (.parameter 0 (some (b "p")))]) := by decide +kernel

/-- `ends_once_partial`: its hypotheses are met. -/
example : (parseA (watched answering) linearSearcher (compile insertSorter demo) 9
      ([some (b "remote"), some (b "--bogus"), none, some (b "x")], [])).state =
    some ([some (b "x")], [.ask (some (b "remote")), .ask (some (b "--bogus")),
      .tell (.error (.flagUnknown (b "bogus"))), .ask none, .tell (.parameter 1 none)]) := by decide +kernel

end Verif.Args
