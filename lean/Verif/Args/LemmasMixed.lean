import Verif.Args.SpecMixed
import Verif.Args.PropsBind
/-! # Lemmas: the classification of a command line whose parts are in any order -/
namespace Verif.Args.Mixed

theorem items_setting (so : Sorter) (cs : List Command) (hd : (cs.map (·.path)).Nodup)
    (hn : ∀ c ∈ cs, (c.flags.map (·.name)).Nodup)
    (find : Path → Bytes → Option (Nat × Nat)) (hf : FlagLookup (compile so cs).cmds find)
    (P : Path) (hP : ∃ c ∈ cs, c.path = P) (i : Nat) (hi : nearest (compile so cs).cmds P = some i)
    (st : Setting) (hu : Usable cs P st) (k : Bool) (rest : List Bytes) :
    ∃ ev, letter (compile so cs).cmds ev = some (.flag st.owner st.flag.name i st.report) ∧
      items (compile so cs).cmds find P k true (st.args ++ rest) =
        .report st.args ev :: items (compile so cs).cmds find P k true rest := by
  obtain ⟨j, f, c, hfind, hcj, hco, hcf⟩ := find_usable so cs hd hn find hf P hP st hu
  have hmo : modeOf (compile so cs).cmds (j, f) = st.flag.mode := by
    simp [modeOf, hcj, hcf]
  have hlet : ∀ r, flagLetter (compile so cs).cmds j f i r = some (.flag st.owner st.flag.name i r) := by
    intro r; simp [flagLetter, hcj, hcf, hco]
  have hres : resolve (find P) st.flag.name = some ((j, f), false) := by rw [resolve_strip, hfind]
  have hm := hu.mode
  obtain ⟨owner, ⟨name, mode, hs⟩, word⟩ := st
  simp only [] at hfind hmo hlet hres hm
  have hutf : isUtf8 name = true := hu.utf8
  have heq : (0x3d : UInt8) ∉ name := hu.noEq
  have hne : name ≠ [] := hu.nonempty
  cases word with
  | on =>
    have hsh := shape_flag name hutf heq hne
    have ht := flag_table (compile so cs).cmds find P k (dashes ++ name) name none rest hsh
    simp only [hres, hmo, hi, Option.getD_some] at ht
    have hm : mode = .set ∨ mode = .toggle := hm
    rcases hm with rfl | rfl
    · exact ⟨.set j f i name, hlet _, ht⟩
    · exact ⟨.toggle j f i name true, hlet _, ht⟩
  | off =>
    obtain ⟨hm, hno⟩ : mode = .toggle ∧ ∀ d ∈ cs, d.path <+: P → hasFlag (noDash ++ name) d = false := hm
    subst hm
    have hnone := find_unused so cs hd find hf P hP (noDash ++ name) hno
    have hres' : resolve (find P) (noDash ++ name) = some ((j, f), true) := by
      rw [resolve_strip, hnone]
      have : stripPrefix sNo (noDash ++ name) = some name := by simp [noDash, sNo, stripPrefix]
      simp only [this, hfind, Option.map_some]
    have hsh := shape_flag (noDash ++ name) (isUtf8_no name hutf) (by simp [noDash, heq]) (by simp [noDash])
    have ht := flag_table (compile so cs).cmds find P k (dashes ++ (noDash ++ name)) (noDash ++ name) none rest hsh
    simp only [hres', hmo, hi, Option.getD_some] at ht
    refine ⟨.toggle j f i (noDash ++ name) false, hlet _, ?_⟩
    show items _ find P k true ([dashes ++ noDash ++ name] ++ rest) = .report [dashes ++ noDash ++ name] _ :: _
    rw [List.append_assoc]
    exact ht
  | inline v =>
    have hm : mode = .parse := hm
    subst hm
    have hsh := shape_flag_value name v hutf heq
    have ht := flag_table (compile so cs).cmds find P k _ name (some v) rest hsh
    simp only [hres, hmo, hi, Option.getD_some] at ht
    exact ⟨.parse j f i name v, hlet _, ht⟩
  | next v =>
    have hm : mode = .parse := hm
    subst hm
    have hsh := shape_flag name hutf heq hne
    have ht := flag_table (compile so cs).cmds find P k _ name none (v :: rest) hsh
    simp only [hres, hmo, hi, Option.getD_some] at ht
    exact ⟨.parse j f i name v, hlet _, ht⟩

/-- What a list of items says. -/
theorem words_append (x y : List Item) : commandWords (x ++ y) = commandWords x ++ commandWords y :=
  List.filterMap_append

/-- The letters of items. -/
def mail (S : List Command) (its : List Item) : List Letter := (its.filterMap Item.event).filterMap (letter S)

theorem mail_append (S : List Command) (x y : List Item) : mail S (x ++ y) = mail S x ++ mail S y := by
  rw [mail, List.filterMap_append, List.filterMap_append]; rfl

theorem mail_report (S : List Command) (as : List Bytes) (ev : Event) (its : List Item) (l : Letter)
    (h : letter S ev = some l) : mail S (.report as ev :: its) = l :: mail S its := by
  show List.filterMap (letter S) (ev :: its.filterMap Item.event) = _
  rw [List.filterMap_cons_some h]; rfl

theorem words_report (as : List Bytes) (ev : Event) (its : List Item) :
    commandWords (.report as ev :: its) = commandWords its := rfl

/-- The end of the line. -/
theorem items_after (S : List Command) (find : Path → Bytes → Option (Nat × Nat)) (P : Path) (i : Nat) (c : Command)
    (hi : selected S P = some i) (hc : S[i]? = some c) (hp : c.path = P) (k : Bool) (after : Option (List Bytes)) :
    let its := items S find P k true (lineEnd after)
    commandWords its = [] ∧ mail S its = (after.getD []).map (fun p => .param P (some p)) := by
  cases after with
  | none => exact ⟨by simp [lineEnd, items, commandWords], by simp [lineEnd, items, mail]⟩
  | some ps =>
    simp only [lineEnd, double_dash]
    have hl : ∀ a, letter S (.parameter i (some a)) = some (.param P (some a)) := by
      intro a; rw [letter, hc]; simp [hp]
    have hpar : ∀ a, paramItem S P a = .report [a] (.parameter i (some a)) := by
      intro a; rw [paramItem, hi]
    have key : ∀ ps : List Bytes, commandWords (ps.map (paramItem S P)) = [] ∧
        mail S (ps.map (paramItem S P)) = ps.map (fun p => .param P (some p)) := by
      intro ps
      induction ps with
      | nil => exact ⟨rfl, rfl⟩
      | cons a ps ih =>
        rw [List.map_cons, hpar, words_report, mail_report _ _ _ _ _ (hl a), ih.2, List.map_cons]
        exact ⟨ih.1, rfl⟩
    exact key ps

/-- The parts of a line. -/
theorem items_parts (so : Sorter) (cs : List Command) (hd : (cs.map (·.path)).Nodup)
    (hn : ∀ c ∈ cs, (c.flags.map (·.name)).Nodup)
    (find : Path → Bytes → Option (Nat × Nat)) (hf : FlagLookup (compile so cs).cmds find)
    (P : Path) (hP : ∃ c ∈ cs, c.path = P) (hu : ∀ w ∈ P, isUtf8 w = true)
    (hw : ∀ w ∈ P, ∀ x xs, w ≠ 0x2d :: x :: xs) (idx : Path → Nat)
    (hidx : ∀ c ∈ cs, selected (compile so cs).cmds c.path = some (idx c.path) ∧
      ∃ c', (compile so cs).cmds[idx c.path]? = some c' ∧ c'.path = c.path) (tail : List Bytes) :
    ∀ (parts : List Part) (ws : Path) (seen : Bool), InPlace cs P ws seen parts → ws ++ partWords parts = P →
      ∃ its k, commandWords its = partWords parts ∧
        mail (compile so cs).cmds its = partLetters idx P ws parts ∧
        items (compile so cs).cmds find ws (!seen) true (parts.flatMap Part.args ++ tail) =
          its ++ items (compile so cs).cmds find P k true tail := by
  obtain ⟨c0, hc0, hp0⟩ := hP
  intro parts
  induction parts with
  | nil =>
    intro ws seen _ hws
    have hws : ws = P := by simpa [partWords] using hws
    subst hws
    exact ⟨[], !seen, rfl, rfl, rfl⟩
  | cons x parts ih =>
    intro ws seen hpl hws
    cases x with
    | word w =>
      obtain ⟨rfl, hpl⟩ := hpl
      have hws' : ws ++ w :: partWords parts = P := hws
      have hmem : w ∈ P := by rw [← hws']; simp
      obtain ⟨its, k, h1, h2, h3⟩ := ih (ws ++ [w]) false hpl (by rw [List.append_assoc]; exact hws')
      refine ⟨.command w :: its, k, ?_, ?_, ?_⟩
      · show w :: commandWords its = w :: partWords parts
        rw [h1]
      · exact h2
      · rw [List.flatMap_cons]
        show items _ find ws true true (w :: (parts.flatMap Part.args ++ tail)) = _
        rw [items, if_pos rfl, shape_word w (hw w hmem)]
        have hx : Extends (compile so cs).cmds (ws ++ [w]) = true := by
          rw [Extends, List.any_eq_true]
          exact ⟨_, (compile_mem so cs _).mpr ⟨c0, hc0, rfl⟩, List.isPrefixOf_iff_prefix.mpr
            ⟨partWords parts, by rw [List.append_assoc]; exact hws'.trans hp0.symm⟩⟩
        simp only [hu w hmem, hx, Bool.and_self, if_true]
        exact congrArg (Item.command w :: ·) h3
    | setting st =>
      obtain ⟨⟨c, hc, hcp⟩, hus, hpl⟩ := hpl
      obtain ⟨its, k, h1, h2, h3⟩ := ih ws seen hpl hws
      obtain ⟨hsel, _⟩ := hidx c hc
      rw [hcp] at hsel
      have hnear : nearest (compile so cs).cmds ws = some (idx ws) := by rw [nearest, hsel]; rfl
      obtain ⟨ev, h4, h5⟩ := items_setting so cs hd hn find hf ws ⟨c, hc, hcp⟩ (idx ws) hnear st hus (!seen)
        (parts.flatMap Part.args ++ tail)
      refine ⟨.report st.args ev :: its, k, h1, ?_, ?_⟩
      · rw [mail_report _ _ _ _ _ h4, h2]; rfl
      · rw [List.flatMap_cons, List.append_assoc]
        show items _ find ws (!seen) true (st.args ++ _) = _
        rw [h5, h3]; rfl
    | param p =>
      obtain ⟨rfl, hsh, hno, hpl⟩ := hpl
      obtain ⟨its, k, h1, h2, h3⟩ := ih ws true hpl hws
      obtain ⟨hsel, c', hc', hp'⟩ := hidx c0 hc0
      rw [hp0] at hsel hc' hp'
      refine ⟨.report [p] (.parameter (idx ws) (some p)) :: its, k, h1, ?_, ?_⟩
      · rw [mail_report _ _ _ _ (.param ws (some p)) (by rw [letter, hc']; simp [hp']), h2]; rfl
      · rw [List.flatMap_cons]
        show items _ find ws (!seen) true (p :: (parts.flatMap Part.args ++ tail)) = _
        rw [items, if_pos rfl, shape_word p hsh]
        have hx : (!seen && isUtf8 p && Extends (compile so cs).cmds (ws ++ [p])) = false := by
          cases seen with
          | true => rfl
          | false =>
            have : Extends (compile so cs).cmds (ws ++ [p]) = false := by
              rw [Bool.eq_false_iff, Ne, Extends, List.any_eq_true]
              rintro ⟨c, hc, h⟩
              obtain ⟨c', hc', rfl⟩ := (compile_mem so cs c).mp hc
              exact hno rfl c' hc' (List.isPrefixOf_iff_prefix.mp h)
            rw [this, Bool.and_false]
        simp only [hx, paramItem, hsel]
        exact congrArg (Item.report [p] (.parameter (idx ws) (some p)) :: ·) h3

/-- The reports of a whole line. -/
theorem events_mixedLine (so : Sorter) (cs : List Command) (hd : (cs.map (·.path)).Nodup)
    (hn : ∀ c ∈ cs, (c.flags.map (·.name)).Nodup)
    (find : Path → Bytes → Option (Nat × Nat)) (hf : FlagLookup (compile so cs).cmds find)
    (P : Path) (hP : ∃ c ∈ cs, c.path = P) (hu : ∀ w ∈ P, isUtf8 w = true)
    (hw : ∀ w ∈ P, ∀ x xs, w ≠ 0x2d :: x :: xs) (idx : Path → Nat)
    (hidx : ∀ c ∈ cs, selected (compile so cs).cmds c.path = some (idx c.path) ∧
      ∃ c', (compile so cs).cmds[idx c.path]? = some c' ∧ c'.path = c.path)
    (parts : List Part) (after : Option (List Bytes)) (hpl : InPlace cs P [] false parts) (hws : partWords parts = P) :
    let its := items (compile so cs).cmds find [] true true (mixedLine parts after)
    commandWords its = P ∧
    (events (compile so cs).cmds its).filterMap (letter (compile so cs).cmds) = mixedLetters idx P parts after := by
  obtain ⟨c0, hc0, hp0⟩ := hP
  obtain ⟨hsel, c', hc', hp'⟩ := hidx c0 hc0
  rw [hp0] at hsel hc' hp'
  obtain ⟨its, k, h1, h2, h3⟩ := items_parts so cs hd hn find hf P ⟨c0, hc0, hp0⟩ hu hw idx hidx
    (lineEnd after) parts [] false hpl hws
  obtain ⟨h4, h5⟩ := items_after (compile so cs).cmds find P (idx P) c' hsel hc' hp' k after
  have h3 : items (compile so cs).cmds find [] true true (mixedLine parts after) = _ := h3
  simp only []
  rw [h3]
  have hcw : commandWords (its ++ items (compile so cs).cmds find P k true (lineEnd after)) = P := by
    rw [words_append, h1, h4, List.append_nil, hws]
  refine ⟨hcw, ?_⟩
  rw [events, hcw, endEvents, hsel]
  simp only []
  rw [List.filterMap_append]
  have e : List.filterMap (letter (compile so cs).cmds) (List.filterMap Item.event
      (its ++ items (compile so cs).cmds find P k true (lineEnd after))) = partLetters idx P [] parts ++ (after.getD []).map (fun p => .param P (some p)) := by
    have := mail_append (compile so cs).cmds its (items (compile so cs).cmds find P k true (lineEnd after))
    rw [h2, h5] at this
    exact this
  rw [e, mixedLetters, List.filterMap_cons_some (b := Letter.param P none) (by rw [letter, hc']; simp [hp'])]
  rfl

/-- The settings of one target. -/
theorem toLoc_parts (B : Binding) (l : B.Loc) (idx : Path → Nat) (P : Path) : ∀ (parts : List Part) (ws : Path),
    toLoc B l (partLetters idx P ws parts) =
      ((said ws parts).filter fun x => letI := B.dec; decide (B.loc x.2.owner x.2.flag.name = l)).map
        fun x => (idx x.1, x.2.report) := by
  letI := B.dec
  intro parts
  induction parts with
  | nil => intro ws; rfl
  | cons x parts ih =>
    intro ws
    cases x with
    | word w => exact ih _
    | param p => exact ih _
    | setting st =>
      rw [partLetters, said, List.filter_cons]
      by_cases h : B.loc st.owner st.flag.name = l
      · rw [if_pos (by simp [h]), List.map_cons, ← ih ws, toLoc,
          List.filterMap_cons_some (b := (idx ws, st.report)) (by simp [h])]; rfl
      · rw [if_neg (by simp [h]), ← ih ws, toLoc, List.filterMap_cons_none (by simp [h])]; rfl

theorem toLoc_mixed (B : Binding) (l : B.Loc) (idx : Path → Nat) (P : Path) (parts : List Part)
    (after : Option (List Bytes)) :
    toLoc B l (mixedLetters idx P parts after) = (saidTo B l parts).map fun x => (idx x.1, x.2.report) := by
  have ha : ∀ x y, toLoc B l (x ++ y) = toLoc B l x ++ toLoc B l y := fun x y => List.filterMap_append
  have hz : ∀ ps : List Bytes, toLoc B l (ps.map fun p => .param P (some p)) = [] := by
    intro ps; induction ps with
    | nil => rfl
    | cons a ps ih => rw [List.map_cons, toLoc, List.filterMap_cons]; exact ih
  rw [mixedLetters, ha, ha, hz, toLoc_parts, show toLoc B l [.param P none] = [] from rfl, List.append_nil,
    List.append_nil]
  rfl

/-- The parameters of one command. -/
theorem toPath_mixed (q : Path) (idx : Path → Nat) (P : Path) (parts : List Part) (after : Option (List Bytes)) :
    toPath q (mixedLetters idx P parts after) =
      if q = P then (partParams parts after).map some ++ [none] else [] := by
  have ha : ∀ x y, toPath q (x ++ y) = toPath q x ++ toPath q y := fun x y => List.filterMap_append
  have hone : ∀ o, toPath q [.param P o] = if q = P then [o] else [] := by
    intro o
    by_cases h : q = P
    · subst h; simp [toPath]
    · have h' : P ≠ q := fun e => h e.symm
      rw [if_neg h]; simp [toPath, h']
  have hps : ∀ ps : List Bytes, toPath q (ps.map fun p => .param P (some p)) = if q = P then ps.map some else [] := by
    intro ps
    induction ps with
    | nil => cases Decidable.em (q = P) <;> simp [toPath]
    | cons a ps ih =>
      rw [List.map_cons, show ∀ (x : Letter) ys, x :: ys = [x] ++ ys from fun _ _ => rfl, ha, ih, hone]
      by_cases h : q = P
      · simp only [if_pos h, List.map_cons]; rfl
      · simp only [if_neg h]; rfl
  have hparts : ∀ (parts : List Part) (ws : Path), toPath q (partLetters idx P ws parts) =
      if q = P then (partParams parts none).map some else [] := by
    intro parts
    induction parts with
    | nil => intro ws; by_cases h : q = P <;> simp [h, toPath, partLetters, partParams]
    | cons x parts ih =>
      intro ws
      cases x with
      | word w => exact ih _
      | setting st => exact ih _
      | param p =>
        rw [partLetters, show ∀ (x : Letter) ys, x :: ys = [x] ++ ys from fun _ _ => rfl, ha, ih, hone]
        by_cases h : q = P
        · simp only [if_pos h]; rfl
        · simp only [if_neg h]; rfl
  rw [mixedLetters, ha, ha, hparts, hps, hone]
  by_cases h : q = P
  · simp only [if_pos h, partParams, Option.getD_none, List.append_nil, List.map_append]
  · simp only [if_neg h]; rfl

/-- Only help objects look at where they are asked. -/
theorem value_said (k : Kind) (hk : k ≠ .help) (t : k.T) (l l' : List (Nat × Report)) (h : l.map (·.2) = l'.map (·.2)) :
    k.value t l = k.value t l' := by
  cases k with
  | help => exact absurd rfl hk
  | _ => simp only [Kind.value, h]

/-- A setting that fits its target is no error. -/
theorem setting_fits (k : Kind) (st : Setting) (cs : List Command) (ws : Path) (hu : Usable cs ws st)
    (h1 : k.fits st.flag.mode = true) (h2 : k.text = true → ∀ v, st.word.value = some v → isUtf8 v = true) :
    k.error st.report = [] := by
  have hm := hu.mode
  clear hu
  obtain ⟨owner, ⟨name, mode, help⟩, word⟩ := st
  cases word with
  | on =>
    have hm : mode = .set ∨ mode = .toggle := hm
    rcases hm with rfl | rfl <;> cases k <;> first | rfl | cases h1
  | off =>
    have hm : mode = .toggle := hm.1
    subst hm
    cases k <;> first | rfl | cases h1
  | inline v =>
    have hm : mode = .parse := hm
    subst hm
    have h2 : k.text = true → isUtf8 v = true := fun ht => h2 ht v rfl
    cases k <;> first | rfl | (simp [Kind.error, Setting.report, valueErrors, h2 rfl]; done) | cases h1
  | next v =>
    have hm : mode = .parse := hm
    subst hm
    have h2 : k.text = true → isUtf8 v = true := fun ht => h2 ht v rfl
    cases k <;> first | rfl | (simp [Kind.error, Setting.report, valueErrors, h2 rfl]; done) | cases h1

/-- A parameter that is taken is no error. -/
theorem param_taken (k : CKind) (p : Bytes) (h : k.takes p = true) : k.error (some p) = [] := by
  cases k with
  | unit => cases h
  | vecOsStr => rfl
  | optVecOsStr => rfl
  | vecStr =>
    have h : isUtf8 p = true := h
    simp [CKind.error, paramErrors, h]
  | optVecStr =>
    have h : isUtf8 p = true := h
    simp [CKind.error, paramErrors, h]

/-- The settings of a line that is in order can be used. -/
theorem said_usable (cs : List Command) (P : Path) : ∀ (parts : List Part) (ws : Path) (seen : Bool),
    InPlace cs P ws seen parts → ∀ x ∈ said ws parts, Usable cs x.1 x.2 := by
  intro parts
  induction parts with
  | nil => intro ws seen _ x hx; cases hx
  | cons y parts ih =>
    intro ws seen h x hx
    cases y with
    | word w => exact ih _ _ h.2 x hx
    | param p => exact ih _ _ h.2.2.2 x hx
    | setting st =>
      rcases List.mem_cons.mp hx with rfl | hx
      · exact h.2.1
      · exact ih _ _ h.2.2 x hx

/-- The errors of a setting at its target. -/
def settingErrors (B : Binding) (st : Setting) : List Error := (B.kind (B.loc st.owner st.flag.name)).error st.report

/-- The errors of parts: those of the settings and those of the parameters, in some order. -/
theorem errors_parts (B : Binding) (idx : Path → Nat) (P : Path) : ∀ (parts : List Part) (ws : Path),
    (letterErrors B (partLetters idx P ws parts)).Perm
      ((said ws parts).flatMap (fun x => settingErrors B x.2) ++
        (partParams parts none).flatMap (fun p => (B.ckind P).error (some p))) := by
  intro parts
  induction parts with
  | nil => intro ws; exact List.Perm.refl _
  | cons y parts ih =>
    intro ws
    cases y with
    | word w => exact ih _
    | setting st =>
      show (settingErrors B st ++ letterErrors B (partLetters idx P ws parts)).Perm
        ((settingErrors B st ++ (said ws parts).flatMap (fun x => settingErrors B x.2)) ++
          (partParams parts none).flatMap (fun p => (B.ckind P).error (some p)))
      rw [List.append_assoc]
      exact (ih ws).append_left _
    | param p =>
      show ((B.ckind P).error (some p) ++ letterErrors B (partLetters idx P ws parts)).Perm
        ((said ws parts).flatMap (fun x => settingErrors B x.2) ++
          ((B.ckind P).error (some p) ++ (partParams parts none).flatMap (fun p => (B.ckind P).error (some p))))
      refine ((ih ws).append_left _).trans ?_
      rw [← List.append_assoc, ← List.append_assoc]
      exact List.perm_append_comm.append_right _

theorem errors_mixed (B : Binding) (idx : Path → Nat) (P : Path) (parts : List Part) (after : Option (List Bytes)) :
    (letterErrors B (mixedLetters idx P parts after)).Perm
      ((said [] parts).flatMap (fun x => settingErrors B x.2) ++
        (partParams parts after).flatMap (fun p => (B.ckind P).error (some p))) := by
  have hend : letterErrors B [.param P none] = [] := by
    show (B.ckind P).error none ++ [] = []
    rw [List.append_nil]
    cases B.ckind P <;> rfl
  have hps : ∀ ps : List Bytes, letterErrors B (ps.map fun p => .param P (some p)) =
      ps.flatMap (fun p => (B.ckind P).error (some p)) := by
    intro ps
    induction ps with
    | nil => rfl
    | cons p ps ih => rw [List.map_cons, List.flatMap_cons, ← ih]; rfl
  rw [mixedLetters, letterErrors_append, letterErrors_append, hend, hps, List.append_nil]
  have e : partParams parts after = partParams parts none ++ after.getD [] := by
    simp [partParams]
  rw [e, List.flatMap_append, ← List.append_assoc]
  exact (errors_parts B idx P parts []).append_right _

end Verif.Args.Mixed
