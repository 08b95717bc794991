import Verif.Args.LemmasRefine
/-! # Property theorems: argument parsing (C18 to C23)

`S` below is always the command list of a compiled schema. `items` (Spec.lean) classifies the arguments
word by word; `parse_refines` says that the parser does exactly what the classification says, whatever the
caller's report objects do. The other theorems are about the classification. -/
namespace Verif.Args

/-! ## The sorting and searching that the standard library is trusted for exist -/

/-- Insert before the first element that is not smaller. -/
def insertBy {α : Type} (cmp : α → α → Ordering) (a : α) : List α → List α
  | [] => [a]
  | b :: l => if cmp a b = .gt then b :: insertBy cmp a l else a :: b :: l

theorem insertBy_perm {α : Type} (cmp : α → α → Ordering) (a : α) (l : List α) :
    (insertBy cmp a l).Perm (a :: l) := by
  induction l with
  | nil => exact List.Perm.refl _
  | cons b l ih =>
    rw [insertBy]
    split
    · exact (ih.cons b).trans (List.Perm.swap a b l)
    · exact List.Perm.refl _

theorem insertBy_sorted {α : Type} (cmp : α → α → Ordering) [Std.TransCmp cmp] (a : α) (l : List α)
    (h : l.Pairwise fun a b => cmp a b ≠ .gt) : (insertBy cmp a l).Pairwise fun a b => cmp a b ≠ .gt := by
  have hle : ∀ a b, cmp a b ≠ .gt ↔ (cmp a b).isLE := by intro a b; cases cmp a b <;> simp
  simp only [hle] at h ⊢
  induction l with
  | nil => simp [insertBy]
  | cons b l ih =>
    rw [List.pairwise_cons] at h
    rw [insertBy]
    split
    · rename_i hg
      rw [List.pairwise_cons]
      refine ⟨?_, ih h.2⟩
      intro x hx
      rcases List.mem_cons.mp ((insertBy_perm cmp a l).mem_iff.mp hx) with rfl | hx
      · rw [Std.OrientedCmp.eq_swap (cmp := cmp), hg]; rfl
      · exact h.1 x hx
    · rename_i hg
      have hab : (cmp a b).isLE := (hle a b).mp hg
      rw [List.pairwise_cons, List.pairwise_cons]
      refine ⟨?_, h.1, h.2⟩
      intro x hx
      rcases List.mem_cons.mp hx with rfl | hx
      · exact hab
      · exact Std.TransCmp.isLE_trans hab (h.1 x hx)

/-- Insertion sort is an allowed sorter. -/
def insertSorter : Sorter where
  run cmp l := l.foldr (insertBy cmp) []
  perm cmp l := by
    induction l with
    | nil => exact List.Perm.refl _
    | cons a l ih => exact (insertBy_perm cmp a _).trans (ih.cons a)
  sorted cmp _ l := by
    induction l with
    | nil => exact List.Pairwise.nil
    | cons a l ih => exact insertBy_sorted cmp a _ ih

/-- Linear search is an allowed search. -/
def linearSearcher : Searcher where
  run f l := l.findIdx? fun a => f a == .eq
  found f l i _ h := by
    rw [List.findIdx?_eq_some_iff_getElem] at h
    obtain ⟨h1, h2, _⟩ := h
    exact ⟨l[i], List.getElem?_eq_getElem h1, by simpa using h2⟩
  missing f l _ h a ha := by
    rw [List.findIdx?_eq_none_iff] at h
    simpa using h a ha

/-! ## The parser does what the classification says -/

/-- The same for every schema that is in order, however it was made. -/
theorem parse_compiled (se : Searcher) {sc : Schema} (hc : Compiled sc) :
    ∃ find, FlagLookup sc.cmds find ∧
      ∀ (σ R : Type) (h : σ → Event → σ × Option R) (args : List Bytes) (s : σ),
        parse h se sc args s = specResult h s sc.cmds (items sc.cmds find [] true true args) := by
  refine ⟨codeFind se sc, codeFind_lookup se hc, ?_⟩
  intro σ R h args s
  have hm := parse_cursor_eq h se hc (args.length + 1) [] (Or.inl rfl) true true args (by omega) s
  rw [← cursor_with_eq, runItems, List.nil_append] at hm
  rw [parse, specResult, events]
  generalize deliver h s _ = d at hm ⊢
  obtain ⟨s', o⟩ := d
  cases hp : parse_cursor h se sc (args.length + 1) ⟨false, false, Cursor_with sc⟩ args s with
  | panic =>
    rw [show (!true) = false from rfl, hp] at hm
    cases o <;> cases hm
  | brk s1 r =>
    rw [show (!true) = false from rfl, hp] at hm
    cases o with
    | none => cases hm
    | some r' => cases hm; rfl
  | cont s1 p =>
    rw [show (!true) = false from rfl, hp] at hm
    cases o with
    | some r' => cases hm
    | none =>
      simp only [Out.bind, fin, Out.cont.injEq] at hm
      obtain ⟨rfl, hcur⟩ := hm
      simp only [hcur, command_eq hc.sorted]
      cases selected sc.cmds _ <;> rfl

/-- **C18, C19, C21, C22.** For every schema, every argument list and every behaviour of the report objects
(`h`), parsing does not panic, delivers the reports of the specification in order until one asks to stop, and
returns the command that the command words select. -/
theorem parse_refines (so : Sorter) (se : Searcher) (cs : List Command) :
    ∃ find, FlagLookup (compile so cs).cmds find ∧
      ∀ (σ R : Type) (h : σ → Event → σ × Option R) (args : List Bytes) (s : σ),
        parse h se (compile so cs) args s =
          specResult h s (compile so cs).cmds (items (compile so cs).cmds find [] true true args) :=
  parse_compiled se (compile_compiled so cs)

/-- The commands of a compiled schema are the given ones, with their flags reordered. -/
theorem compile_perm (so : Sorter) (cs : List Command) :
    ((compile so cs).cmds.map (·.path)).Perm (cs.map (·.path)) ∧
    ∀ c ∈ (compile so cs).cmds, ∃ c' ∈ cs, c'.path = c.path ∧ c.flags.Perm c'.flags := by
  have hp := so.perm (fun a b : Command => cmpPath a.path b.path)
    (cs.map fun c => { c with flags := FlagSet_compile so c.flags })
  constructor
  · have := hp.map (·.path)
    have e : (compile so cs).cmds = so.run (fun a b : Command => cmpPath a.path b.path)
        (cs.map fun c => { c with flags := FlagSet_compile so c.flags }) := rfl
    rw [e]
    simpa [Function.comp_def] using this
  · intro c hc
    have := hp.mem_iff.mp hc
    rw [List.mem_map] at this
    obtain ⟨c', hc', rfl⟩ := this
    exact ⟨c', hc', rfl, so.perm _ _⟩

/-! ## C18: command selection -/

/-- **C18.** If no report asks to stop, the returned command is the one whose path is the command words, and
there is none only if no command has that path. -/
theorem parse_selects (so : Sorter) (se : Searcher) (cs : List Command) (σ R : Type)
    (h : σ → Event → σ × Option R) (hgo : ∀ s e, (h s e).2 = none) (args : List Bytes) (s : σ) :
    ∃ find, FlagLookup (compile so cs).cmds find ∧
      let words := commandWords (items (compile so cs).cmds find [] true true args)
      ((∃ s' i c, parse h se (compile so cs) args s = .ok s' i ∧ (compile so cs).cmds[i]? = some c ∧ c.path = words) ∨
       (∃ s', parse h se (compile so cs) args s = .noCommand s' ∧ ∀ c ∈ cs, c.path ≠ words)) := by
  obtain ⟨find, hf, hp⟩ := parse_refines so se cs
  refine ⟨find, hf, ?_⟩
  have hdel : ∀ es s, (deliver h s es).2 = none := by
    intro es
    induction es with
    | nil => intro s; rfl
    | cons e es ih =>
      intro s
      rw [deliver]
      have := hgo s e
      generalize h s e = x at this
      obtain ⟨s', o⟩ := x
      cases this
      exact ih s'
  simp only [hp]
  rw [specResult]
  have hd := hdel (events (compile so cs).cmds (items (compile so cs).cmds find [] true true args)) s
  generalize deliver h s _ = x at hd ⊢
  obtain ⟨s', o⟩ := x
  cases hd
  simp only []
  cases hsel : selected (compile so cs).cmds (commandWords (items (compile so cs).cmds find [] true true args)) with
  | some i =>
    left
    rw [selected, List.findIdx?_eq_some_iff_getElem] at hsel
    obtain ⟨h1, h2, _⟩ := hsel
    exact ⟨s', i, _, rfl, List.getElem?_eq_getElem h1, by simpa using h2⟩
  | none =>
    right
    refine ⟨s', rfl, ?_⟩
    intro c hc he
    rw [selected, List.findIdx?_eq_none_iff] at hsel
    have hmem : c.path ∈ (compile so cs).cmds.map (·.path) :=
      (compile_perm so cs).1.mem_iff.mpr (List.mem_map_of_mem hc)
    rw [List.mem_map] at hmem
    obtain ⟨c', hc', hpath⟩ := hmem
    have := hsel c' hc'
    rw [hpath, he] at this
    simp at this

/-- **C18.** A list of plain words is split into command words and parameters: the command words are taken as
long as some registered path starts with them, and everything else goes to the selected command. -/
theorem plain_words (S : List Command) (hu : ∀ c ∈ S, ∀ w ∈ c.path, isUtf8 w = true)
    (find : Path → Bytes → Option (Nat × Nat)) (args : List Bytes) (hw : ∀ a ∈ args, shape a = .word) :
    ∃ n, n ≤ args.length ∧ (∀ k, 0 < k → k ≤ n → Extends S (args.take k) = true) ∧
      (n < args.length → Extends S (args.take (n + 1)) = false) ∧
      items S find [] true true args =
        (args.take n).map .command ++ (args.drop n).map (paramItem S (args.take n)) := by
  have hparams : ∀ (l : List Bytes) words, (∀ a ∈ l, shape a = .word) →
      items S find words false true l = l.map (paramItem S words) := by
    intro l words
    induction l with
    | nil => intro _; simp [items]
    | cons a l ih =>
      intro h
      rw [items, if_pos rfl, h a (by simp)]
      simp only [Bool.false_and, Bool.false_eq_true, if_false]
      rw [ih (fun x hx => h x (by simp [hx]))]; rfl
  have hutf : ∀ ws a, Extends S (ws ++ [a]) = true → isUtf8 a = true := by
    intro ws a h
    rw [Extends, List.any_eq_true] at h
    obtain ⟨c, hc, hp⟩ := h
    rw [List.isPrefixOf_iff_prefix] at hp
    exact hu c hc a (hp.subset (by simp))
  have hgen : ∀ (l ws : List Bytes), (∀ a ∈ l, shape a = .word) →
      ∃ n, n ≤ l.length ∧ (∀ k, 0 < k → k ≤ n → Extends S (ws ++ l.take k) = true) ∧
        (n < l.length → Extends S (ws ++ l.take (n + 1)) = false) ∧
        items S find ws true true l = (l.take n).map .command ++ (l.drop n).map (paramItem S (ws ++ l.take n)) := by
    intro l
    induction l with
    | nil => intro ws _; exact ⟨0, by simp, by intro k h1 h2; omega, by simp, by simp [items]⟩
    | cons a l ih =>
      intro ws h
      rw [items, if_pos rfl, h a (by simp)]
      simp only [Bool.true_and]
      cases hx : Extends S (ws ++ [a]) with
      | true =>
        rw [hutf ws a hx]
        obtain ⟨n, h1, h2, h3, h4⟩ := ih (ws ++ [a]) (fun x hx => h x (by simp [hx]))
        refine ⟨n + 1, by simpa using h1, ?_, ?_, ?_⟩
        · intro k hk1 hk2
          obtain ⟨k, rfl⟩ : ∃ k', k = k' + 1 := ⟨k - 1, by omega⟩
          rw [List.take_succ_cons]
          cases k with
          | zero => simpa using hx
          | succ k =>
            have := h2 (k + 1) (by omega) (by omega)
            simpa using this
        · intro hn
          have := h3 (by simpa using hn)
          rw [List.take_succ_cons]
          simpa using this
        · rw [if_pos (by simp), h4]
          simp
      | false =>
        refine ⟨0, by simp, by intro k h1 h2; omega, by intro _; simpa using hx, ?_⟩
        rw [if_neg (by simp), hparams l ws (fun x hx => h x (by simp [hx]))]
        simp
  obtain ⟨n, h1, h2, h3, h4⟩ := hgen args [] hw
  exact ⟨n, h1, by simpa using h2, by simpa using h3, by simpa using h4⟩

/-! ## C19: every argument once -/

/-- The report `e` is one that the arguments `args` can give rise to, and carries their text. -/
def Accounts (args : List Bytes) : Event → Prop
  | .parameter _ (some p) => args = [p]
  | .parameter _ none => False
  | .error (.parameterUnexpected p) => args = [p]
  | .error (.shortsUnknown x) => args = [x] ∧ shape x = .shorts
  | .error (.flagUnknown x) => ∃ a, args = [a] ∧ ((shape a = .badName ∧ x = a) ∨ ∃ v, shape a = .long x v)
  | .error (.flagUnexpectedToggle n) => ∃ a v, args = [a] ∧ shape a = .long n v
  | .error (.flagUnexpectedValue n v) => ∃ a, args = [a] ∧ shape a = .long n (some v)
  | .error (.flagNoValue n) => ∃ a, args = [a] ∧ shape a = .long n none
  | .error (.flagValueNotUtf8 _ _) | .error (.parameterNotUtf8 _) => False
  | .set _ _ _ n => ∃ a, args = [a] ∧ shape a = .long n none
  | .toggle _ _ _ n _ => ∃ a, args = [a] ∧ shape a = .long n none
  | .parse _ _ _ n v => ∃ a, (args = [a] ∧ shape a = .long n (some v)) ∨ (args = [a, v] ∧ shape a = .long n none)

theorem action_value {m : FlagMode} {neg : Bool} {value : Option Bytes} :
    match action m neg value with
    | .set | .toggle _ | .parseNext => value = none
    | .parse v | .badValue v => value = some v
    | .badToggle => True := by
  cases m <;> cases neg <;> cases value <;> simp [action]

/-- Induction over a classification: each item and the rest of the arguments after it. -/
theorem items_induct (S : List Command) (find : Path → Bytes → Option (Nat × Nat))
    (P : Path → Bool → Bool → List Bytes → List Item → Prop)
    (hnil : ∀ w c f, P w c f [] [])
    (hterm : ∀ w c a rest, shape a = .terminator →
      P w false false rest (items S find w false false rest) →
      P w c true (a :: rest) (.terminator :: items S find w false false rest))
    (hcmd : ∀ w f a rest, isUtf8 a = true → Extends S (w ++ [a]) = true → (f = true → shape a = .word) →
      P (w ++ [a]) true f rest (items S find (w ++ [a]) true f rest) →
      P w true f (a :: rest) (.command a :: items S find (w ++ [a]) true f rest))
    (hpar : ∀ w c f a rest, (f = true → shape a = .word) →
      P w false f rest (items S find w false f rest) →
      P w c f (a :: rest) (paramItem S w a :: items S find w false f rest))
    (hrep : ∀ w c a used e rest, Accounts (a :: used) e →
      (∀ cc ff, (∃ at_ n, e = .set cc ff at_ n) ∨ (∃ at_ n b, e = .toggle cc ff at_ n b) ∨
        (∃ at_ n v, e = .parse cc ff at_ n v) → ∃ n v neg, shape a = .long n v ∧ resolve (find w) n = some ((cc, ff), neg)) →
      P w c true rest (items S find w c true rest) →
      P w c true (a :: (used ++ rest)) (.report (a :: used) e :: items S find w c true rest))
    (w : Path) (c f : Bool) (args : List Bytes) : P w c f args (items S find w c f args) := by
  have hmain : ∀ n args, args.length ≤ n → ∀ w c f, P w c f args (items S find w c f args) := by
    intro n
    induction n with
    | zero =>
      intro args hl w c f
      match args, hl with
      | [], _ => rw [items]; exact hnil w c f
    | succ n ih =>
      intro args hl w c f
      match args, hl with
      | [], _ => rw [items]; exact hnil w c f
      | a :: rest, hl =>
        have hr : rest.length ≤ n := by simpa using hl
        rw [items]
        cases f with
        | false =>
          simp only [Bool.false_eq_true, if_false]
          split
          · rename_i hx
            simp only [Bool.and_eq_true] at hx
            obtain ⟨⟨rfl, h1⟩, h2⟩ := hx
            exact hcmd w false a rest h1 h2 (by simp) (ih rest hr _ _ _)
          · exact hpar w c false a rest (by simp) (ih rest hr _ _ _)
        | true =>
          rw [if_pos rfl]
          cases hsh : shape a with
          | terminator => exact hterm w c a rest hsh (ih rest hr _ _ _)
          | badName =>
            exact hrep w c a [] _ rest ⟨a, rfl, Or.inl ⟨hsh, rfl⟩⟩
              (by rintro cc ff (⟨_, _, h⟩ | ⟨_, _, _, h⟩ | ⟨_, _, _, h⟩) <;> cases h) (ih rest hr _ _ _)
          | shorts =>
            exact hrep w c a [] _ rest ⟨rfl, hsh⟩
              (by rintro cc ff (⟨_, _, h⟩ | ⟨_, _, _, h⟩ | ⟨_, _, _, h⟩) <;> cases h) (ih rest hr _ _ _)
          | word =>
            simp only []
            split
            · rename_i hx
              simp only [Bool.and_eq_true] at hx
              obtain ⟨⟨rfl, h1⟩, h2⟩ := hx
              exact hcmd w true a rest h1 h2 (fun _ => hsh) (ih rest hr _ _ _)
            · exact hpar w c true a rest (fun _ => hsh) (ih rest hr _ _ _)
          | long name value =>
            simp only []
            cases hres : resolve (find w) name with
            | none =>
              exact hrep w c a [] _ rest ⟨a, rfl, Or.inr ⟨value, hsh⟩⟩
                (by rintro cc ff (⟨_, _, h⟩ | ⟨_, _, _, h⟩ | ⟨_, _, _, h⟩) <;> cases h) (ih rest hr _ _ _)
            | some x =>
              obtain ⟨⟨cc, ff⟩, neg⟩ := x
              simp only []
              have hav := action_value (m := modeOf S (cc, ff)) (neg := neg) (value := value)
              cases hact : action (modeOf S (cc, ff)) neg value with
              | set =>
                rw [hact] at hav; subst hav
                exact hrep w c a [] _ rest ⟨a, rfl, hsh⟩
                  (by rintro c' f' (⟨_, _, h⟩ | ⟨_, _, _, h⟩ | ⟨_, _, _, h⟩) <;> cases h; exact ⟨_, _, _, hsh, hres⟩)
                  (ih rest hr _ _ _)
              | toggle b =>
                rw [hact] at hav; subst hav
                exact hrep w c a [] _ rest ⟨a, rfl, hsh⟩
                  (by rintro c' f' (⟨_, _, h⟩ | ⟨_, _, _, h⟩ | ⟨_, _, _, h⟩) <;> cases h; exact ⟨_, _, _, hsh, hres⟩)
                  (ih rest hr _ _ _)
              | parse v =>
                rw [hact] at hav; subst hav
                exact hrep w c a [] _ rest ⟨a, Or.inl ⟨rfl, hsh⟩⟩
                  (by rintro c' f' (⟨_, _, h⟩ | ⟨_, _, _, h⟩ | ⟨_, _, _, h⟩) <;> cases h; exact ⟨_, _, _, hsh, hres⟩)
                  (ih rest hr _ _ _)
              | badToggle =>
                exact hrep w c a [] _ rest ⟨a, value, rfl, hsh⟩
                  (by rintro cc ff (⟨_, _, h⟩ | ⟨_, _, _, h⟩ | ⟨_, _, _, h⟩) <;> cases h) (ih rest hr _ _ _)
              | badValue v =>
                rw [hact] at hav; subst hav
                exact hrep w c a [] _ rest ⟨a, rfl, hsh⟩
                  (by rintro cc ff (⟨_, _, h⟩ | ⟨_, _, _, h⟩ | ⟨_, _, _, h⟩) <;> cases h) (ih rest hr _ _ _)
              | parseNext =>
                rw [hact] at hav; subst hav
                match rest, hr with
                | [], _ =>
                  have := hrep w c a [] (.error (.flagNoValue name)) [] ⟨a, rfl, hsh⟩
                    (by rintro cc ff (⟨_, _, h⟩ | ⟨_, _, _, h⟩ | ⟨_, _, _, h⟩) <;> cases h)
                    (by rw [items]; exact hnil _ _ _)
                  rw [items] at this
                  exact this
                | v :: rest, hr =>
                  exact hrep w c a [v] _ rest ⟨a, Or.inr ⟨rfl, hsh⟩⟩
                    (by rintro c' f' (⟨_, _, h⟩ | ⟨_, _, _, h⟩ | ⟨_, _, _, h⟩) <;> cases h; exact ⟨_, _, _, hsh, hres⟩)
                    (ih rest (by simp at hr; omega) _ _ _)
  exact hmain args.length args (Nat.le_refl _) w c f

/-- `--` is the only spelling of the terminator. -/
theorem shape_terminator (a : Bytes) : shape a = .terminator ↔ a = dashes := by
  constructor
  · intro h
    unfold shape at h
    split at h
    · rename_i _ tail
      simp only [] at h
      cases hm : isUtf8 (tail.takeWhile (· ≠ 0x3d)) with
      | false => rw [hm] at h; cases h
      | true =>
        rw [hm, if_neg (by simp)] at h
        by_cases h2 : tail.takeWhile (· ≠ 0x3d) = [] ∧
            (if (0x3d : UInt8) ∈ tail then some (tail.drop ((tail.takeWhile (· ≠ 0x3d)).length + 1)) else none) = none
        · obtain ⟨h3, h4⟩ := h2
          cases tail with
          | nil => rfl
          | cons b tail =>
            exfalso
            by_cases hm : (0x3d : UInt8) ∈ b :: tail
            · rw [if_pos hm] at h4; cases h4
            · rw [List.takeWhile_cons_of_pos] at h3
              · cases h3
              · simp only [ne_eq, decide_not, Bool.not_eq_eq_eq_not, Bool.not_true, decide_eq_false_iff_not]
                intro e; subst e; simp at hm
        · rw [if_neg h2] at h; cases h
    · cases h
    · cases h
  · rintro rfl; decide

/-- **C19.** The items use up the arguments, each once and in order. -/
theorem every_argument_once (S : List Command) (find : Path → Bytes → Option (Nat × Nat)) (words : Path)
    (cmds flags : Bool) (args : List Bytes) :
    (items S find words cmds flags args).flatMap Item.args = args := by
  refine items_induct S find (fun _ _ _ args its => its.flatMap Item.args = args) ?_ ?_ ?_ ?_ ?_ words cmds flags args
  · intros; rfl
  · intro w c a rest hsh ih
    rw [List.flatMap_cons, ih, (shape_terminator a).mp hsh]; rfl
  · intro w f a rest _ _ _ ih
    rw [List.flatMap_cons, ih]; rfl
  · intro w c f a rest _ ih
    rw [List.flatMap_cons, ih]; rfl
  · intro w c a used e rest _ _ ih
    rw [List.flatMap_cons, ih]; rfl

/-- **C19.** Each report fits the arguments it was made for and carries their text unchanged. -/
theorem reports_are_faithful (S : List Command) (find : Path → Bytes → Option (Nat × Nat)) (words : Path)
    (cmds flags : Bool) (args : List Bytes) :
    ∀ used e, .report used e ∈ items S find words cmds flags args → Accounts used e := by
  refine items_induct S find (fun _ _ _ _ its => ∀ used e, .report used e ∈ its → Accounts used e)
    ?_ ?_ ?_ ?_ ?_ words cmds flags args
  · intro w c f used e h; cases h
  · intro w c a rest hsh ih used e h
    rcases List.mem_cons.mp h with h | h
    · cases h
    · exact ih used e h
  · intro w f a rest _ _ _ ih used e h
    rcases List.mem_cons.mp h with h | h
    · cases h
    · exact ih used e h
  · intro w c f a rest _ ih used e h
    rcases List.mem_cons.mp h with h | h
    · unfold paramItem at h
      split at h <;> cases h <;> rfl
    · exact ih used e h
  · intro w c a used e rest hacc _ ih used' e' h
    rcases List.mem_cons.mp h with h | h
    · cases h; exact hacc
    · exact ih used' e' h

/-- A handler that also keeps a log of the reports it was given. -/
def logged {σ R : Type} (h : σ → Event → σ × Option R) : σ × List Event → Event → (σ × List Event) × Option R :=
  fun (s, l) e => ((( h s e).1, l ++ [e]), (h s e).2)

/-- The log in the final state of a result. -/
def Result.log {σ R : Type} : Result (σ × List Event) R → Option (List Event × Bool)
  | .panic => none
  | .ok s _ => some (s.2, false)
  | .noCommand s => some (s.2, false)
  | .stopped s _ => some (s.2, true)

theorem deliver_logged {σ R : Type} (h : σ → Event → σ × Option R) (es : List Event) (s : σ) (l : List Event) :
    ∃ es1 es2, es = es1 ++ es2 ∧ (deliver (logged h) (s, l) es).1.2 = l ++ es1 ∧
      ((deliver (logged h) (s, l) es).2 = none → es2 = []) ∧
      ((deliver (logged h) (s, l) es).2 ≠ none → es1 ≠ []) := by
  induction es generalizing s l with
  | nil => exact ⟨[], [], rfl, by simp [deliver], fun _ => rfl, fun h => absurd rfl h⟩
  | cons e es ih =>
    rw [deliver]
    have : logged h (s, l) e = (((h s e).1, l ++ [e]), (h s e).2) := rfl
    rw [this]
    cases ho : (h s e).2 with
    | none =>
      obtain ⟨es1, es2, h1, h2, h3, h4⟩ := ih (h s e).1 (l ++ [e])
      refine ⟨e :: es1, es2, by rw [h1]; rfl, ?_, h3, fun _ => by simp⟩
      simp only []
      rw [h2]; simp
    | some r => exact ⟨[e], es, rfl, rfl, (by intro h; cases h), fun _ => by simp⟩

/-- **C19.** The reports made are exactly the reports of the items and the end-of-arguments report, in order;
if one asks to stop, nothing further is reported. -/
theorem reports_in_order (so : Sorter) (se : Searcher) (cs : List Command) (σ R : Type)
    (h : σ → Event → σ × Option R) (args : List Bytes) (s : σ) :
    ∃ find, FlagLookup (compile so cs).cmds find ∧
      ∃ log stopped, (parse (logged h) se (compile so cs) args (s, [])).log = some (log, stopped) ∧
        ∃ rest, events (compile so cs).cmds (items (compile so cs).cmds find [] true true args) = log ++ rest ∧
          (stopped = false → rest = []) := by
  obtain ⟨find, hf, hp⟩ := parse_refines so se cs
  refine ⟨find, hf, ?_⟩
  rw [hp, specResult]
  obtain ⟨es1, es2, h1, h2, h3, _⟩ := deliver_logged h
    (events (compile so cs).cmds (items (compile so cs).cmds find [] true true args)) s []
  generalize hd : deliver (logged h) (s, []) _ = d at h2 h3 ⊢
  obtain ⟨s', o⟩ := d
  cases o with
  | some r =>
    refine ⟨s'.2, true, rfl, es2, ?_, by simp⟩
    rw [h1, h2]; rfl
  | none =>
    refine ⟨s'.2, false, ?_, es2, by rw [h1, h2]; rfl, fun _ => h3 rfl⟩
    simp only []
    split <;> rfl

/-! ## C20: flags belong to commands on the path -/

/-- **C20 (partial).** While the command words so far are themselves a registered path, a flag is found in the
command with the longest path among those on the way that define it. Missing: positions where no command is
registered for the words so far; there the statement is false, see `flag_of_unselected_command`. -/
theorem flags_on_path_partial (so : Sorter) (cs : List Command) (hd : (cs.map (·.path)).Nodup)
    (find : Path → Bytes → Option (Nat × Nat)) (hf : FlagLookup (compile so cs).cmds find)
    (words : Path) (hw : ∃ c ∈ cs, c.path = words) (name : Bytes) :
    match find words name with
    | none => ∀ c ∈ (compile so cs).cmds, c.path <+: words → hasFlag name c = false
    | some (j, f) => ∃ c fl, (compile so cs).cmds[j]? = some c ∧ c.path <+: words ∧
        c.flags[f]? = some fl ∧ fl.name = name ∧
        ∀ d ∈ (compile so cs).cmds, d.path <+: words → hasFlag name d = true → d.path.length ≤ c.path.length := by
  have hs := (compile_compiled so cs).sorted
  have hperm := (compile_perm so cs).1
  generalize (compile so cs).cmds = S at *
  have hnd : (S.map (·.path)).Nodup := hperm.nodup_iff.mpr hd
  obtain ⟨c0, hc0, hp0⟩ := hw
  have hmem : words ∈ S.map (·.path) := hperm.mem_iff.mpr (by rw [← hp0]; exact List.mem_map_of_mem hc0)
  have hinj : ∀ (i j : Nat) (x y : Command), S[i]? = some x → S[j]? = some y → x.path = y.path → i = j := by
    intro i j x y hx hy hxy
    have h1 : (S.map (·.path))[i]? = some x.path := by rw [List.getElem?_map, hx]; rfl
    have h2 : (S.map (·.path))[j]? = some y.path := by rw [List.getElem?_map, hy]; rfl
    rw [hxy] at h1
    obtain ⟨hi, hi'⟩ := List.getElem?_eq_some_iff.mp h1
    obtain ⟨hj, hj'⟩ := List.getElem?_eq_some_iff.mp h2
    exact (List.getElem?_inj hi hnd).mp (h1.trans h2.symm)
  rw [List.mem_map] at hmem
  obtain ⟨a, ha, hap⟩ := hmem
  obtain ⟨i, hi⟩ := List.mem_iff_getElem?.mp ha
  have hanc : anchor S words = some i := by
    rw [anchor_some]
    refine ⟨⟨a, hi, by rw [hap]; exact List.prefix_refl _⟩, ?_⟩
    intro j c hj hc hp
    by_cases he : words = c.path
    · have := hinj i j a c hi hc (by rw [hap, he])
      omega
    · have := hs.before hi hc (by rw [hap]; exact hp) (by rw [hap]; exact he)
      omega
  have hle : ∀ k d, S[k]? = some d → d.path <+: words → k ≤ i := by
    intro k d hk hp
    by_cases he : d.path = a.path
    · exact Nat.le_of_eq (hinj k i d a hk hi he)
    · exact Nat.le_of_lt (hs.before hk hi (by rw [hap]; exact hp) he)
  have hl := hf.1 words name i a hanc hi
  rw [hap] at hl
  revert hl
  cases find words name with
  | none =>
    intro hl c hc hp
    obtain ⟨k, hk⟩ := List.mem_iff_getElem?.mp hc
    exact hl k c (hle k c hk hp) hk hp
  | some x =>
    obtain ⟨j, f⟩ := x
    rintro ⟨c, fl, h1, h2, h3, h4, h5, h6⟩
    refine ⟨c, fl, h1, h3, h4, h5, ?_⟩
    intro d hd' hp hfl
    obtain ⟨k, hk⟩ := List.mem_iff_getElem?.mp hd'
    have hkj : k ≤ j := by
      apply Nat.le_of_not_lt
      intro hlt
      rw [h6 k d hlt (hle k d hk hp) hk hp] at hfl
      cases hfl
    rcases List.prefix_or_prefix_of_prefix hp h3 with h | h
    · exact h.length_le
    · by_cases he : c.path = d.path
      · rw [he]; exact Nat.le_refl _
      · have := hs.before h1 hk h he
        omega

/-- **C20.** In a run, each report to a flag was found in the lookup of the command words before it. -/
theorem flag_reports_come_from_lookup (S : List Command) (find : Path → Bytes → Option (Nat × Nat)) (words : Path)
    (cmds flags : Bool) (args : List Bytes) :
    ∀ before used e after, items S find words cmds flags args = before ++ .report used e :: after →
      ∀ cc ff, (∃ at_ n, e = .set cc ff at_ n) ∨ (∃ at_ n b, e = .toggle cc ff at_ n b) ∨
        (∃ at_ n v, e = .parse cc ff at_ n v) →
      ∃ n v neg, (∃ a, used.head? = some a ∧ shape a = .long n v) ∧
        resolve (find (words ++ commandWords before)) n = some ((cc, ff), neg) := by
  have hpar : ∀ S w a used e cc ff, paramItem S w a = .report used e →
      ¬ ((∃ at_ n, e = .set cc ff at_ n) ∨ (∃ at_ n b, e = .toggle cc ff at_ n b) ∨
        (∃ at_ n v, e = .parse cc ff at_ n v)) := by
    intro S w a used e cc ff h
    unfold paramItem at h
    rintro (⟨_, _, rfl⟩ | ⟨_, _, _, rfl⟩ | ⟨_, _, _, rfl⟩) <;> split at h <;> cases h
  refine items_induct S find (fun words _ _ _ its => ∀ before used e after, its = before ++ .report used e :: after →
      ∀ cc ff, (∃ at_ n, e = .set cc ff at_ n) ∨ (∃ at_ n b, e = .toggle cc ff at_ n b) ∨
        (∃ at_ n v, e = .parse cc ff at_ n v) →
      ∃ n v neg, (∃ a, used.head? = some a ∧ shape a = .long n v) ∧
        resolve (find (words ++ commandWords before)) n = some ((cc, ff), neg)) ?_ ?_ ?_ ?_ ?_ words cmds flags args
  · intro w c f before used e after h
    cases before <;> cases h
  · intro w c a rest _ ih before used e after h cc ff he
    cases before with
    | nil => cases h
    | cons b before =>
      rw [List.cons_append, List.cons.injEq] at h
      obtain ⟨rfl, h⟩ := h
      exact ih before used e after h cc ff he
  · intro w f a rest _ _ _ ih before used e after h cc ff he
    cases before with
    | nil => cases h
    | cons b before =>
      rw [List.cons_append, List.cons.injEq] at h
      obtain ⟨rfl, h⟩ := h
      obtain ⟨n, v, neg, h1, h2⟩ := ih before used e after h cc ff he
      refine ⟨n, v, neg, h1, ?_⟩
      have : commandWords (.command a :: before) = a :: commandWords before := rfl
      rw [this]
      simpa using h2
  · intro w c f a rest _ ih before used e after h cc ff he
    cases before with
    | nil =>
      rw [List.nil_append, List.cons.injEq] at h
      exact absurd he (hpar S w a used e cc ff h.1)
    | cons b before =>
      rw [List.cons_append, List.cons.injEq] at h
      obtain ⟨hb, h⟩ := h
      obtain ⟨n, v, neg, h1, h2⟩ := ih before used e after h cc ff he
      refine ⟨n, v, neg, h1, ?_⟩
      have : commandWords (b :: before) = commandWords before := by
        rw [← hb]; rfl
      rw [this]; exact h2
  · intro w c a used' e' rest hacc hres ih before used e after h cc ff he
    cases before with
    | nil =>
      rw [List.nil_append, List.cons.injEq] at h
      obtain ⟨hb, _⟩ := h
      cases hb
      obtain ⟨n, v, neg, h1, h2⟩ := hres cc ff he
      exact ⟨n, v, neg, ⟨a, rfl, h1⟩, by simpa [commandWords] using h2⟩
    | cons b before =>
      rw [List.cons_append, List.cons.injEq] at h
      obtain ⟨hb, h⟩ := h
      obtain ⟨n, v, neg, h1, h2⟩ := ih before used e after h cc ff he
      refine ⟨n, v, neg, h1, ?_⟩
      have : commandWords (b :: before) = commandWords before := by
        rw [← hb]; rfl
      rw [this]; exact h2

/-- Bytes of a string, for examples. -/
def b (s : String) : Bytes := s.toUTF8.toList

/-- A recording handler that never stops. -/
def record : List Event → Event → List Event × Option Unit := fun l e => (l ++ [e], none)

/-- **C20, false as stated.** A schema with the single command `foo`, which defines `--bar`. The arguments are
just `--bar`: `foo` was never entered, and no command is registered for the empty path, yet the flag of `foo`
is reported as set. -/
theorem flag_of_unselected_command :
    parse record linearSearcher (compile insertSorter [⟨[b "foo"], [⟨b "bar", .set, none⟩], none⟩]) [b "--bar"] [] =
      .noCommand [.set 0 0 0 (b "bar")] := by
  decide +kernel

/-! ## C21: `--` -/

/-- **C21.** Everything after `--` is a parameter, verbatim and in order. -/
theorem double_dash (S : List Command) (find : Path → Bytes → Option (Nat × Nat)) (words : Path) (cmds : Bool)
    (rest : List Bytes) :
    items S find words cmds true (dashes :: rest) = .terminator :: rest.map (paramItem S words) := by
  have hp : ∀ l : List Bytes, items S find words false false l = l.map (paramItem S words) := by
    intro l
    induction l with
    | nil => simp [items]
    | cons a l ih =>
      rw [items, if_neg (by simp)]
      simp only [Bool.false_and, Bool.false_eq_true, if_false]
      rw [ih]; rfl
  rw [items, if_pos rfl, (shape_terminator dashes).mpr rfl]
  simp only []
  rw [hp]

/-- **C21.** In a run, once `--` was recognised, all that follows are parameters of the selected command. -/
theorem after_double_dash (S : List Command) (find : Path → Bytes → Option (Nat × Nat)) (args : List Bytes)
    (before after : List Item) (hi : items S find [] true true args = before ++ .terminator :: after) :
    ∃ pre rest, args = pre ++ dashes :: rest ∧ before.flatMap Item.args = pre ∧
      after = rest.map (paramItem S (commandWords before)) := by
  have hgen : ∀ w c f (args : List Bytes), ∀ before after, items S find w c f args = before ++ .terminator :: after →
      after = (after.flatMap Item.args).map (paramItem S (w ++ commandWords before)) := by
    intro w c f args
    refine items_induct S find (fun w _ _ _ its => ∀ before after, its = before ++ .terminator :: after →
      after = (after.flatMap Item.args).map (paramItem S (w ++ commandWords before))) ?_ ?_ ?_ ?_ ?_ w c f args
    · intro w c f before after h; cases before <;> cases h
    · intro w c a rest _ ih before after h
      cases before with
      | nil =>
        rw [List.nil_append, List.cons.injEq] at h
        rw [← h.2]
        have hd := double_dash S find w true rest
        rw [items, if_pos rfl, (shape_terminator dashes).mpr rfl] at hd
        simp only [List.cons.injEq, true_and] at hd
        rw [every_argument_once, hd]
        simp [commandWords]
      | cons b before =>
        rw [List.cons_append, List.cons.injEq] at h
        obtain ⟨rfl, h⟩ := h
        exact ih before after h
    · intro w f a rest _ _ _ ih before after h
      cases before with
      | nil => cases h
      | cons b before =>
        rw [List.cons_append, List.cons.injEq] at h
        obtain ⟨rfl, h⟩ := h
        have := ih before after h
        have e : commandWords (.command a :: before) = a :: commandWords before := rfl
        rw [e]
        simpa using this
    · intro w c f a rest _ ih before after h
      cases before with
      | nil =>
        rw [List.nil_append, List.cons.injEq] at h
        cases h.1
      | cons b before =>
        rw [List.cons_append, List.cons.injEq] at h
        obtain ⟨hb, h⟩ := h
        have e : commandWords (b :: before) = commandWords before := by rw [← hb]; rfl
        rw [e]; exact ih before after h
    · intro w c a used e rest _ _ ih before after h
      cases before with
      | nil => cases h
      | cons b before =>
        rw [List.cons_append, List.cons.injEq] at h
        obtain ⟨hb, h⟩ := h
        have e : commandWords (b :: before) = commandWords before := by rw [← hb]; rfl
        rw [e]; exact ih before after h
  have h1 := hgen [] true true args before after hi
  have h2 := every_argument_once S find [] true true args
  rw [hi, List.flatMap_append, List.flatMap_cons] at h2
  exact ⟨_, _, h2.symm, rfl, by simpa using h1⟩

/-! ## C22: the flag table -/

/-- **C22.** Spelling of a flag without value. -/
theorem shape_flag (name : Bytes) (hu : isUtf8 name = true) (he : (0x3d : UInt8) ∉ name) (hne : name ≠ []) :
    shape (dashes ++ name) = .long name none := by
  have ht : name.takeWhile (· ≠ 0x3d) = name := by
    have := List.takeWhile_append_of_pos (p := fun x : UInt8 => decide (x ≠ 0x3d)) (l₁ := name) (l₂ := []) (by
      intro x hx
      simp only [decide_eq_true_eq]
      intro e; subst e; exact he hx)
    simpa using this
  show shape (0x2d :: 0x2d :: name) = _
  unfold shape
  simp only [ht, if_neg he, hu]
  simp [hne]

/-- **C22.** Spelling of a flag with inline value; the value may be any bytes. -/
theorem shape_flag_value (name value : Bytes) (hu : isUtf8 name = true) (he : (0x3d : UInt8) ∉ name) :
    shape (dashes ++ name ++ 0x3d :: value) = .long name (some value) := by
  have ht : (name ++ 0x3d :: value).takeWhile (· ≠ 0x3d) = name := by
    rw [List.takeWhile_append_of_pos]
    · simp
    · intro x hx
      simp only [decide_eq_true_eq]
      intro e; subst e; exact he hx
  show shape (0x2d :: 0x2d :: (name ++ 0x3d :: value)) = _
  unfold shape
  simp only [ht, hu]
  have hd : (name ++ 0x3d :: value).drop (name.length + 1) = value := by
    rw [show name ++ 0x3d :: value = (name ++ [0x3d]) ++ value by simp, List.drop_left' (by simp)]
  simp [hd]

/-- **C22.** A flag makes exactly one report, as its mode, its `no-` prefix and its value prescribe. -/
theorem flag_table (S : List Command) (find : Path → Bytes → Option (Nat × Nat)) (words : Path) (cmds : Bool)
    (a name : Bytes) (value : Option Bytes) (rest : List Bytes) (ha : shape a = .long name value) :
    let here e := .report [a] e :: items S find words cmds true rest
    let run := items S find words cmds true (a :: rest)
    match (generalizing := false) resolve (find words) name with
    | none => run = here (.error (.flagUnknown name))
    | some ((c, f), negated) =>
      let at_ := (nearest S words).getD c
      match (generalizing := false) modeOf S (c, f), negated, value with
      | .set, false, none => run = here (.set c f at_ name)
      | .set, false, some v => run = here (.error (.flagUnexpectedValue name v))
      | .set, true, _ => run = here (.error (.flagUnexpectedToggle name))
      | .toggle, neg, none => run = here (.toggle c f at_ name (!neg))
      | .toggle, _, some v => run = here (.error (.flagUnexpectedValue name v))
      | .parse, true, _ => run = here (.error (.flagUnexpectedToggle name))
      | .parse, false, some v => run = here (.parse c f at_ name v)
      | .parse, false, none =>
        match (generalizing := false) rest with
        | [] => run = [.report [a] (.error (.flagNoValue name))]
        | v :: rest => run = .report [a, v] (.parse c f at_ name v) :: items S find words cmds true rest := by
  simp only []
  rw [items, if_pos rfl, ha]
  simp only []
  cases hres : resolve (find words) name with
  | none => rfl
  | some x =>
    obtain ⟨⟨c, f⟩, neg⟩ := x
    simp only []
    cases modeOf S (c, f) <;> cases neg <;> cases value <;> simp only [action]
    cases rest <;> rfl

/-! ## C23: parents -/

/-- Walking up from command `i`. -/
def ancestors (sc : Schema) : Nat → Nat → List Nat
  | 0, _ => []
  | f + 1, i =>
    match up_from sc i with
    | some (some j) => j :: ancestors sc f j
    | _ => []

/-- **C23.** Walking up from a command visits exactly the commands whose paths are proper prefixes of its
path, longest first. -/
theorem ancestors_spec (so : Sorter) (cs : List Command) (hd : (cs.map (·.path)).Nodup) (i : Nat) (a : Command)
    (ha : (compile so cs).cmds[i]? = some a) :
    let sc := compile so cs
    (∀ j, j ∈ ancestors sc sc.cmds.length i ↔ ∃ c, sc.cmds[j]? = some c ∧ c.path <+: a.path ∧ c.path ≠ a.path) ∧
    (ancestors sc sc.cmds.length i).Pairwise
      (fun j k => ∃ c d, sc.cmds[j]? = some c ∧ sc.cmds[k]? = some d ∧ d.path.length < c.path.length) := by
  simp only []
  have hc := compile_compiled so cs
  have hperm := (compile_perm so cs).1
  generalize compile so cs = sc at *
  have hnd : (sc.cmds.map (·.path)).Nodup := hperm.nodup_iff.mpr hd
  have hs := hc.sorted
  have hinj : ∀ (i j : Nat) (x y : Command), sc.cmds[i]? = some x → sc.cmds[j]? = some y → x.path = y.path → i = j := by
    intro i j x y hx hy hxy
    have h1 : (sc.cmds.map (·.path))[i]? = some x.path := by rw [List.getElem?_map, hx]; rfl
    have h2 : (sc.cmds.map (·.path))[j]? = some y.path := by rw [List.getElem?_map, hy]; rfl
    rw [hxy] at h1
    obtain ⟨hi, hi'⟩ := List.getElem?_eq_some_iff.mp h1
    obtain ⟨hj, hj'⟩ := List.getElem?_eq_some_iff.mp h2
    exact (List.getElem?_inj hi hnd).mp (h1.trans h2.symm)
  have hmain : ∀ i f a, i < f → sc.cmds[i]? = some a →
      (∀ j, j ∈ ancestors sc f i ↔ ∃ c, sc.cmds[j]? = some c ∧ c.path <+: a.path ∧ c.path ≠ a.path) ∧
      (ancestors sc f i).Pairwise
        (fun j k => ∃ c d, sc.cmds[j]? = some c ∧ sc.cmds[k]? = some d ∧ d.path.length < c.path.length) := by
    intro i
    induction i using Nat.strongRecOn with
    | ind i ih =>
      intro f a hf ha
      obtain ⟨f, rfl⟩ : ∃ f', f = f' + 1 := ⟨f - 1, by omega⟩
      have hi : i < sc.cmds.length := (List.getElem?_eq_some_iff.mp ha).1
      have hbefore : ∀ j c, sc.cmds[j]? = some c → c.path <+: a.path → c.path ≠ a.path → j < i :=
        fun j c h1 h2 h3 => hs.before h1 ha h2 h3
      have hup : upSpec sc.cmds i = lastBelow sc.cmds (fun d => d.path.isPrefixOf a.path) i := by
        rw [upSpec, ha]
      rw [ancestors, up_from, hc.ups i hi]
      cases hu : upSpec sc.cmds i with
      | none =>
        rw [hup, lastBelow_none] at hu
        simp only [List.not_mem_nil, false_iff, List.Pairwise.nil, and_true]
        rintro j ⟨c, h1, h2, h3⟩
        have := hu j c (hbefore j c h1 h2 h3) h1
        rw [Bool.eq_false_iff] at this
        exact this (List.isPrefixOf_iff_prefix.mpr h2)
      | some v =>
        rw [hup, lastBelow_some] at hu
        obtain ⟨hvi, ⟨cv, hcv, hpv⟩, hmax⟩ := hu
        rw [List.isPrefixOf_iff_prefix] at hpv
        obtain ⟨ih1, ih2⟩ := ih v hvi f cv (by omega) hcv
        have hne : cv.path ≠ a.path := by
          intro e; have := hinj v i cv a hcv ha e; omega
        simp only []
        constructor
        · intro j
          rw [List.mem_cons, ih1]
          constructor
          · rintro (rfl | ⟨c, h1, h2, h3⟩)
            · exact ⟨cv, hcv, hpv, hne⟩
            · refine ⟨c, h1, h2.trans hpv, ?_⟩
              intro e
              rw [e] at h2
              exact hne (hpv.eq_of_length_le h2.length_le)
          · rintro ⟨c, h1, h2, h3⟩
            have hji := hbefore j c h1 h2 h3
            by_cases hjv : j = v
            · exact Or.inl hjv
            · right
              have hlt : j < v := by
                apply Nat.lt_of_not_le
                intro hge
                have := hmax j c (by omega) hji h1
                rw [Bool.eq_false_iff] at this
                exact this (List.isPrefixOf_iff_prefix.mpr h2)
              refine ⟨c, h1, hs.contiguous h1 hcv ha (by omega) (by omega) (List.prefix_refl _) h2, ?_⟩
              intro e
              exact hjv (hinj j v c cv h1 hcv e)
        · rw [List.pairwise_cons]
          refine ⟨?_, ih2⟩
          intro k hk
          obtain ⟨d, h1, h2, h3⟩ := (ih1 k).mp hk
          refine ⟨cv, d, hcv, h1, ?_⟩
          apply Nat.lt_of_not_le
          intro hge
          exact h3 (h2.eq_of_length_le hge)
  exact hmain i _ a (List.getElem?_eq_some_iff.mp ha).1 ha

/-! ## Examples: the theorems apply to a schema with nested commands -/

/-- Commands: the root with `--help`, `remote` with `--verbose`, `remote add` with `--url`, and `remove`. -/
def demo : List Command :=
  [⟨[b "remote", b "add"], [⟨b "url", .parse, none⟩], none⟩, ⟨[], [⟨b "help", .set, none⟩], none⟩,
   ⟨[b "remove"], [], none⟩, ⟨[b "remote"], [⟨b "verbose", .toggle, none⟩], none⟩]

/-- C18 to C22 on a run: command words, a flag of the command, one of its parent with `no-`, one of the root,
a value in the next argument, a parameter that looks like a command, and `--`. -/
example : parse record linearSearcher (compile insertSorter demo)
    [b "remote", b "add", b "--url", b "--x", b "--no-verbose", b "--help", b "p", b "add", b "--url=a=b", b "--bogus",
     b "--help=1", b "--", b "--help"] [] =
    .ok [.parse 2 0 2 (b "url") (b "--x"), .toggle 1 0 2 (b "no-verbose") false, .set 0 0 2 (b "help"),
      .parameter 2 (some (b "p")), .parameter 2 (some (b "add")), .parse 2 0 2 (b "url") (b "a=b"),
      .error (.flagUnknown (b "bogus")), .error (.flagUnexpectedValue (b "help") (b "1")),
      .parameter 2 (some (b "--help")), .parameter 2 none] 2 := by decide +kernel

/-- Hypotheses of C20 and C23: distinct paths, and `remote add` is registered. -/
example : (demo.map (·.path)).Nodup ∧ (∃ c ∈ demo, c.path = [b "remote", b "add"]) ∧
    (compile insertSorter demo).cmds[2]? = some ⟨[b "remote", b "add"], [⟨b "url", .parse, none⟩], none⟩ ∧
    ancestors (compile insertSorter demo) 4 2 = [1, 0] := by
  refine ⟨by decide +kernel, ⟨_, List.mem_cons_self, rfl⟩, by decide +kernel, by decide +kernel⟩

/-- Hypotheses of `plain_words`. -/
example : (∀ c ∈ demo, ∀ w ∈ c.path, isUtf8 w = true) ∧
    (∀ a ∈ [b "remote", b "x", b "add"], shape a = .word) := by
  constructor <;> decide +kernel

/-- Hypotheses of the flag spellings. -/
example : isUtf8 (b "url") = true ∧ (0x3d : UInt8) ∉ b "url" ∧ b "url" ≠ [] ∧
    shape (b "--url=\n") = .long (b "url") (some [0x0a]) := by decide +kernel

/-- C19: a report that asks to stop ends the run. -/
example : (parse (logged (fun (n : Nat) _ => (n + 1, if n = 1 then some () else none))) linearSearcher
    (compile insertSorter demo) [b "a", b "c", b "d"] (0, [])).log =
    some ([.parameter 0 (some (b "a")), .parameter 0 (some (b "c"))], true) := by decide +kernel

/-- An instance of `parse_selects`: nothing asks to stop. -/
example := parse_selects insertSorter linearSearcher demo (List Event) Unit record (fun _ _ => rfl)
  [b "remote", b "--verbose", b "add", b "--", b "x"] []

/-- An instance of `flags_on_path_partial`: a flag after `remote add`. -/
example : ∃ find, FlagLookup (compile insertSorter demo).cmds find ∧ match find [b "remote", b "add"] (b "verbose") with
    | none => ∀ c ∈ (compile insertSorter demo).cmds, c.path <+: [b "remote", b "add"] → hasFlag (b "verbose") c = false
    | some (j, f) => ∃ c fl, (compile insertSorter demo).cmds[j]? = some c ∧ c.path <+: [b "remote", b "add"] ∧
        c.flags[f]? = some fl ∧ fl.name = b "verbose" ∧ ∀ d ∈ (compile insertSorter demo).cmds, d.path <+: [b "remote", b "add"] →
          hasFlag (b "verbose") d = true → d.path.length ≤ c.path.length := by
  obtain ⟨find, hf, _⟩ := parse_refines insertSorter linearSearcher demo
  exact ⟨find, hf, flags_on_path_partial insertSorter demo (by decide +kernel) find hf _ ⟨_, List.mem_cons_self, rfl⟩ _⟩

/-- Instances of `shape_flag` and `shape_flag_value`. -/
example := shape_flag (b "url") (by decide +kernel) (by decide +kernel) (by decide +kernel)
example := shape_flag_value (b "url") (b "a=\n") (by decide +kernel) (by decide +kernel)

/-- A lookup that knows the flags `url` and `verbose`. -/
def demoFind : Path → Bytes → Option (Nat × Nat) := fun _ n =>
  if n = b "url" then some (2, 0) else if n = b "verbose" then some (1, 0) else none

-- Hypotheses of `flag_table`, `reports_are_faithful`, `flag_reports_come_from_lookup` and `after_double_dash`: a run with a
-- flag that takes its value from the next argument, and with `--`.
#guard shape (b "--url") = .long (b "url") none ∧
    items (compile insertSorter demo).cmds demoFind [] true true [b "remote", b "--url", b "v", b "--", b "--x"] =
      [.command (b "remote"), .report [b "--url", b "v"] (.parse 2 0 1 (b "url") (b "v"))] ++ .terminator ::
        [b "--x"].map (paramItem (compile insertSorter demo).cmds [b "remote"])
example := flag_table (compile insertSorter demo).cmds demoFind [b "remote"] true (b "--url=1") (b "url") (some (b "1")) [b "p"]
  (by decide +kernel)

end Verif.Args
