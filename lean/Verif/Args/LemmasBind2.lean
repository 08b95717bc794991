import Verif.Args.LemmasBind
/-! # Lemmas: the classification of a command line -/
namespace Verif.Args

theorem isUtf8_no (name : Bytes) (h : isUtf8 name = true) : isUtf8 (noDash ++ name) = true := by
  have h : validUpTo name = name.length := by simpa [isUtf8] using h
  have e : ∀ (a : UInt8) (l : Bytes), a < 0x80 → validUpTo (a :: l) = 1 + validUpTo l := by
    intro a l ha; rw [validUpTo.eq_def]; simp only [if_pos ha]
  rw [isUtf8, beq_iff_eq]
  show validUpTo (0x6e :: 0x6f :: 0x2d :: name) = (0x6e :: 0x6f :: 0x2d :: name).length
  rw [e _ _ (by decide), e _ _ (by decide), e _ _ (by decide), h]
  simp only [List.length_cons]; omega

/-- A word that can be a command. -/
theorem shape_word (w : Bytes) (h : ∀ x xs, w ≠ 0x2d :: x :: xs) : shape w = .word := by
  unfold shape
  split
  · exact absurd rfl (h _ _)
  · exact absurd rfl (h _ _)
  · rfl

/-- Command words. -/
theorem items_words (S : List Command) (find : Path → Bytes → Option (Nat × Nat)) (rest : List Bytes) :
    ∀ (P ws : Path), (∃ c ∈ S, c.path = ws ++ P) → (∀ w ∈ P, isUtf8 w = true) → (∀ w ∈ P, ∀ x xs, w ≠ 0x2d :: x :: xs) →
      items S find ws true true (P ++ rest) = P.map .command ++ items S find (ws ++ P) true true rest := by
  intro P
  induction P with
  | nil => intro ws _ _ _; simp
  | cons w P ih =>
    intro ws hc hu hw
    rw [List.cons_append, items, if_pos rfl, shape_word w (hw w (by simp))]
    have hx : Extends S (ws ++ [w]) = true := by
      obtain ⟨c, hc, hp⟩ := hc
      rw [Extends, List.any_eq_true]
      exact ⟨c, hc, List.isPrefixOf_iff_prefix.mpr ⟨P, by rw [hp]; simp⟩⟩
    simp only [hu w (by simp), hx, Bool.and_self, if_true]
    rw [ih (ws ++ [w]) (by simpa using hc) (fun x h => hu x (by simp [h])) (fun x h => hw x (by simp [h]))]
    simp

/-- Compiled flags are registered ones. -/
theorem compile_mem (so : Sorter) (cs : List Command) (c : Command) :
    c ∈ (compile so cs).cmds ↔ ∃ c' ∈ cs, c = { c' with flags := FlagSet_compile so c'.flags } := by
  have hp := so.perm (fun a b : Command => cmpPath a.path b.path)
    (cs.map fun c => { c with flags := FlagSet_compile so c.flags })
  have e : (compile so cs).cmds = so.run (fun a b : Command => cmpPath a.path b.path)
      (cs.map fun c => { c with flags := FlagSet_compile so c.flags }) := rfl
  rw [e, hp.mem_iff, List.mem_map]
  exact ⟨fun ⟨x, h1, h2⟩ => ⟨x, h1, h2.symm⟩, fun ⟨x, h1, h2⟩ => ⟨x, h1, h2.symm⟩⟩

theorem compile_hasFlag (so : Sorter) (c : Command) (name : Bytes) :
    hasFlag name { c with flags := FlagSet_compile so c.flags } = hasFlag name c := by
  have hp := so.perm (fun a b : Flag => cmpStr a.name b.name) c.flags
  rw [hasFlag, hasFlag, Bool.eq_iff_iff, List.any_eq_true, List.any_eq_true]
  constructor
  · rintro ⟨x, h1, h2⟩; exact ⟨x, hp.mem_iff.mp h1, h2⟩
  · rintro ⟨x, h1, h2⟩; exact ⟨x, hp.mem_iff.mpr h1, h2⟩

/-- What the lookup finds for a flag that can be used with `P`. -/
theorem find_usable (so : Sorter) (cs : List Command) (hd : (cs.map (·.path)).Nodup)
    (hn : ∀ c ∈ cs, (c.flags.map (·.name)).Nodup)
    (find : Path → Bytes → Option (Nat × Nat)) (hf : FlagLookup (compile so cs).cmds find)
    (P : Path) (hP : ∃ c ∈ cs, c.path = P) (st : Setting) (hu : Usable cs P st) :
    ∃ j f c, find P st.flag.name = some (j, f) ∧ (compile so cs).cmds[j]? = some c ∧ c.path = st.owner ∧
      c.flags[f]? = some st.flag := by
  have h := flags_on_path_partial so cs hd find hf P hP st.flag.name
  obtain ⟨c0, hc0, hp0, hfl0⟩ := hu.registered
  have hm0 : ({ c0 with flags := FlagSet_compile so c0.flags } : Command) ∈ (compile so cs).cmds :=
    (compile_mem so cs _).mpr ⟨c0, hc0, rfl⟩
  have hh0 : hasFlag st.flag.name c0 = true := by
    rw [hasFlag, List.any_eq_true]; exact ⟨st.flag, hfl0, by simp⟩
  revert h
  cases find P st.flag.name with
  | none =>
    intro h
    have h := h _ hm0 (by show c0.path <+: P; rw [hp0]; exact hu.above)
    rw [compile_hasFlag, hh0] at h
    cases h
  | some x =>
    obtain ⟨j, f⟩ := x
    rintro ⟨c, fl, h1, h2, h3, h4, h5⟩
    obtain ⟨c', hc', rfl⟩ := (compile_mem so cs c).mp (List.mem_of_getElem? h1)
    have hlen := h5 _ hm0 (by show c0.path <+: P; rw [hp0]; exact hu.above) (by rw [compile_hasFlag]; exact hh0)
    have hhc : hasFlag st.flag.name c' = true := by
      rw [← compile_hasFlag so, hasFlag, List.any_eq_true]
      exact ⟨fl, List.mem_of_getElem? h3, by simp [h4]⟩
    have hlen2 := hu.closest c' hc' h2 hhc
    have hpath : c'.path = st.owner := by
      have h2 : c'.path <+: P := h2
      have hlen : c0.path.length ≤ c'.path.length := hlen
      rw [hp0] at hlen
      exact (List.prefix_of_prefix_length_le h2 hu.above hlen2).eq_of_length_le hlen
    have hcc : c' = c0 := by
      have : ∀ (l : List Command), (l.map (·.path)).Nodup → ∀ a ∈ l, ∀ b ∈ l, a.path = b.path → a = b := by
        intro l
        induction l with
        | nil => intro _ a ha; cases ha
        | cons x l ih =>
          intro hnd a ha b hb e
          rw [List.map_cons, List.nodup_cons] at hnd
          rcases List.mem_cons.mp ha with rfl | ha1 <;> rcases List.mem_cons.mp hb with rfl | hb1
          · rfl
          · exact absurd (e ▸ List.mem_map_of_mem hb1) hnd.1
          · exact absurd (e ▸ List.mem_map_of_mem ha1) hnd.1
          · exact ih hnd.2 a ha1 b hb1 e
      exact this cs hd c' hc' c0 hc0 (by rw [hpath, hp0])
    subst hcc
    refine ⟨j, f, _, rfl, h1, hpath, ?_⟩
    have hmem : fl ∈ c'.flags := (so.perm _ _).mem_iff.mp (List.mem_of_getElem? h3)
    have : ∀ (l : List Flag), (l.map (·.name)).Nodup → ∀ a ∈ l, ∀ b ∈ l, a.name = b.name → a = b := by
      intro l
      induction l with
      | nil => intro _ a ha; cases ha
      | cons x l ih =>
        intro hnd a ha b hb e
        rw [List.map_cons, List.nodup_cons] at hnd
        rcases List.mem_cons.mp ha with rfl | ha1 <;> rcases List.mem_cons.mp hb with rfl | hb1
        · rfl
        · exact absurd (e ▸ List.mem_map_of_mem hb1) hnd.1
        · exact absurd (e ▸ List.mem_map_of_mem ha1) hnd.1
        · exact ih hnd.2 a ha1 b hb1 e
    rw [h3, this c'.flags (hn c' hc') fl hmem st.flag hfl0 h4]

/-- A flag that no command on the way has is not found. -/
theorem find_unused (so : Sorter) (cs : List Command) (hd : (cs.map (·.path)).Nodup)
    (find : Path → Bytes → Option (Nat × Nat)) (hf : FlagLookup (compile so cs).cmds find)
    (P : Path) (hP : ∃ c ∈ cs, c.path = P) (name : Bytes)
    (hno : ∀ d ∈ cs, d.path <+: P → hasFlag name d = false) : find P name = none := by
  have h := flags_on_path_partial so cs hd find hf P hP name
  revert h
  cases find P name with
  | none => intro _; rfl
  | some x =>
    obtain ⟨j, f⟩ := x
    rintro ⟨c, fl, h1, h2, h3, h4, _⟩
    obtain ⟨c', hc', rfl⟩ := (compile_mem so cs c).mp (List.mem_of_getElem? h1)
    have := hno c' hc' h2
    rw [← compile_hasFlag so, Bool.eq_false_iff] at this
    exact absurd (by rw [hasFlag, List.any_eq_true]; exact ⟨fl, List.mem_of_getElem? h3, by simp [h4]⟩) this

/-- One setting. -/
theorem items_setting (so : Sorter) (cs : List Command) (hd : (cs.map (·.path)).Nodup)
    (hn : ∀ c ∈ cs, (c.flags.map (·.name)).Nodup)
    (find : Path → Bytes → Option (Nat × Nat)) (hf : FlagLookup (compile so cs).cmds find)
    (P : Path) (hP : ∃ c ∈ cs, c.path = P) (i : Nat) (hi : nearest (compile so cs).cmds P = some i)
    (st : Setting) (hu : Usable cs P st) (rest : List Bytes) :
    ∃ ev, letter (compile so cs).cmds ev = some (.flag st.owner st.flag.name i st.report) ∧
      items (compile so cs).cmds find P true true (st.args ++ rest) =
        .report st.args ev :: items (compile so cs).cmds find P true true rest := by
  obtain ⟨j, f, c, hfind, hcj, hco, hcf⟩ := find_usable so cs hd hn find hf P hP st hu
  have hmo : modeOf (compile so cs).cmds (j, f) = st.flag.mode := by
    simp [modeOf, hcj, hcf]
  have hlet : ∀ r, flagLetter (compile so cs).cmds j f i r = some (.flag st.owner st.flag.name i r) := by
    intro r; simp [flagLetter, hcj, hcf, hco]
  have hres : resolve (find P) st.flag.name = some ((j, f), false) := by rw [resolve_strip, hfind]
  have hm := hu.mode
  obtain ⟨owner, ⟨name, mode, hs⟩, word⟩ := st
  simp only [] at hfind hmo hlet hres hm
  have hutf : isUtf8 name = true := hu.utf8
  have heq : (0x3d : UInt8) ∉ name := hu.noEq
  have hne : name ≠ [] := hu.nonempty
  cases word with
  | on =>
    have hsh := shape_flag name hutf heq hne
    have ht := flag_table (compile so cs).cmds find P true (dashes ++ name) name none rest hsh
    simp only [hres, hmo, hi, Option.getD_some] at ht
    have hm : mode = .set ∨ mode = .toggle := hm
    rcases hm with rfl | rfl
    · exact ⟨.set j f i name, hlet _, ht⟩
    · exact ⟨.toggle j f i name true, hlet _, ht⟩
  | off =>
    obtain ⟨hm, hno⟩ : mode = .toggle ∧ ∀ d ∈ cs, d.path <+: P → hasFlag (noDash ++ name) d = false := hm
    subst hm
    have hnone := find_unused so cs hd find hf P hP (noDash ++ name) hno
    have hres' : resolve (find P) (noDash ++ name) = some ((j, f), true) := by
      rw [resolve_strip, hnone]
      have : stripPrefix sNo (noDash ++ name) = some name := by simp [noDash, sNo, stripPrefix]
      simp only [this, hfind, Option.map_some]
    have hsh := shape_flag (noDash ++ name) (isUtf8_no name hutf) (by simp [noDash, heq]) (by simp [noDash])
    have ht := flag_table (compile so cs).cmds find P true (dashes ++ (noDash ++ name)) (noDash ++ name) none rest hsh
    simp only [hres', hmo, hi, Option.getD_some] at ht
    refine ⟨.toggle j f i (noDash ++ name) false, hlet _, ?_⟩
    show items _ find P true true ([dashes ++ noDash ++ name] ++ rest) = .report [dashes ++ noDash ++ name] _ :: _
    rw [List.append_assoc]
    exact ht
  | inline v =>
    have hm : mode = .parse := hm
    subst hm
    have hsh := shape_flag_value name v hutf heq
    have ht := flag_table (compile so cs).cmds find P true _ name (some v) rest hsh
    simp only [hres, hmo, hi, Option.getD_some] at ht
    exact ⟨.parse j f i name v, hlet _, ht⟩
  | next v =>
    have hm : mode = .parse := hm
    subst hm
    have hsh := shape_flag name hutf heq hne
    have ht := flag_table (compile so cs).cmds find P true _ name none (v :: rest) hsh
    simp only [hres, hmo, hi, Option.getD_some] at ht
    exact ⟨.parse j f i name v, hlet _, ht⟩

/-- All settings. -/
theorem items_settings (so : Sorter) (cs : List Command) (hd : (cs.map (·.path)).Nodup)
    (hn : ∀ c ∈ cs, (c.flags.map (·.name)).Nodup)
    (find : Path → Bytes → Option (Nat × Nat)) (hf : FlagLookup (compile so cs).cmds find)
    (P : Path) (hP : ∃ c ∈ cs, c.path = P) (i : Nat) (hi : nearest (compile so cs).cmds P = some i)
    (rest : List Bytes) : ∀ settings : List Setting, (∀ st ∈ settings, Usable cs P st) →
    ∃ evs : List (List Bytes × Event), evs.map (fun x => letter (compile so cs).cmds x.2) =
        settings.map (fun st => some (.flag st.owner st.flag.name i st.report)) ∧
      items (compile so cs).cmds find P true true (settings.flatMap Setting.args ++ rest) =
        evs.map (fun x => .report x.1 x.2) ++ items (compile so cs).cmds find P true true rest := by
  intro settings
  induction settings with
  | nil => intro _; exact ⟨[], rfl, rfl⟩
  | cons st settings ih =>
    intro hu
    obtain ⟨evs, h1, h2⟩ := ih (fun s h => hu s (by simp [h]))
    obtain ⟨ev, h3, h4⟩ := items_setting so cs hd hn find hf P hP i hi st (hu st (by simp))
      (settings.flatMap Setting.args ++ rest)
    refine ⟨(st.args, ev) :: evs, ?_, ?_⟩
    · simp only [List.map_cons, h1, h3]
    · rw [List.flatMap_cons, List.append_assoc, h4, h2]; rfl

/-- The selected command exists. -/
theorem selected_registered (so : Sorter) (cs : List Command) (P : Path) (hP : ∃ c ∈ cs, c.path = P) :
    ∃ i c, selected (compile so cs).cmds P = some i ∧ (compile so cs).cmds[i]? = some c ∧ c.path = P := by
  obtain ⟨c0, hc0, hp0⟩ := hP
  cases hs : selected (compile so cs).cmds P with
  | none =>
    rw [selected, List.findIdx?_eq_none_iff] at hs
    have := hs _ ((compile_mem so cs _).mpr ⟨c0, hc0, rfl⟩)
    simp [hp0] at this
  | some i =>
    have h := hs
    rw [selected, List.findIdx?_eq_some_iff_getElem] at h
    obtain ⟨h1, h2, _⟩ := h
    exact ⟨i, _, rfl, List.getElem?_eq_getElem h1, by simpa using h2⟩

theorem app_congr {A : Type} {x y z x' y' z' : List A} (h1 : x = x') (h2 : y = y') (h3 : z = z') :
    x ++ (y ++ z) = x' ++ (y' ++ z') := by rw [h1, h2, h3]

/-- The reports of a whole command line. -/
theorem events_commandLine (so : Sorter) (cs : List Command) (hd : (cs.map (·.path)).Nodup)
    (hn : ∀ c ∈ cs, (c.flags.map (·.name)).Nodup)
    (find : Path → Bytes → Option (Nat × Nat)) (hf : FlagLookup (compile so cs).cmds find)
    (P : Path) (hP : ∃ c ∈ cs, c.path = P) (hu : ∀ w ∈ P, isUtf8 w = true)
    (hw : ∀ w ∈ P, ∀ x xs, w ≠ 0x2d :: x :: xs)
    (i : Nat) (c : Command) (hi : selected (compile so cs).cmds P = some i)
    (hc : (compile so cs).cmds[i]? = some c) (hp : c.path = P)
    (settings : List Setting) (hs : ∀ st ∈ settings, Usable cs P st) (params : List Bytes) :
    let its := items (compile so cs).cmds find [] true true (commandLine P settings params)
    commandWords its = P ∧
    (events (compile so cs).cmds its).filterMap (letter (compile so cs).cmds) = lineLetters i P settings params := by
  have hnear : nearest (compile so cs).cmds P = some i := by rw [nearest, hi]; rfl
  obtain ⟨evs, h1, h2⟩ := items_settings so cs hd hn find hf P hP i hnear (dashes :: params) settings hs
  have hreg : ∃ c ∈ (compile so cs).cmds, c.path = [] ++ P := ⟨c, List.mem_of_getElem? hc, hp⟩
  have hits : items (compile so cs).cmds find [] true true (commandLine P settings params) =
      P.map .command ++ (evs.map (fun x => .report x.1 x.2) ++
        (.terminator :: params.map (paramItem (compile so cs).cmds P))) := by
    rw [commandLine, List.append_assoc, items_words _ find _ P [] hreg hu hw, List.nil_append, h2, double_dash]
  have hpar : ∀ a, paramItem (compile so cs).cmds P a = .report [a] (.parameter i (some a)) := by
    intro a; rw [paramItem, hi]
  have hparams : params.map (paramItem (compile so cs).cmds P) =
      params.map (fun a => .report [a] (.parameter i (some a))) := List.map_congr_left fun a _ => hpar a
  rw [hparams] at hits
  simp only []
  rw [hits]
  have hcw : ∀ (l : List (List Bytes × Event)) (ps : List Bytes),
      commandWords (P.map .command ++ (l.map (fun x => .report x.1 x.2) ++
        (.terminator :: ps.map (fun a => .report [a] (.parameter i (some a)))))) = P := by
    intro l ps
    rw [commandWords, List.filterMap_append, List.filterMap_append]
    have a1 : ∀ P : Path, List.filterMap (fun x : Item => match x with | .command w => some w | _ => none)
        (P.map Item.command) = P := by
      intro P; induction P with
      | nil => rfl
      | cons w P ih => rw [List.map_cons, List.filterMap_cons]; simp only []; rw [ih]
    have a2 : ∀ l : List (List Bytes × Event), List.filterMap (fun x : Item => match x with | .command w => some w | _ => none)
        (l.map (fun x => Item.report x.1 x.2)) = [] := by
      intro l; induction l with
      | nil => rfl
      | cons w P ih => rw [List.map_cons, List.filterMap_cons]; simp only []; exact ih
    have a3 : ∀ l : List Bytes, List.filterMap (fun x : Item => match x with | .command w => some w | _ => none)
        (l.map (fun a => Item.report [a] (.parameter i (some a)))) = [] := by
      intro l; induction l with
      | nil => rfl
      | cons w P ih => rw [List.map_cons, List.filterMap_cons]; simp only []; exact ih
    rw [List.filterMap_cons]
    simp only []
    exact (app_congr (a1 P) (a2 l) (a3 ps)).trans (by simp)
  refine ⟨hcw evs params, ?_⟩
  rw [events, hcw, endEvents, hi]
  simp only []
  rw [List.filterMap_append, List.filterMap_append, List.filterMap_append, List.filterMap_append,
    List.filterMap_append, lineLetters]
  have b1 : ∀ P : Path, List.filterMap Item.event (P.map Item.command) = [] := by
    intro P; induction P with
    | nil => rfl
    | cons w P ih => rw [List.map_cons, List.filterMap_cons]; exact ih
  have b2 : ∀ l : List (List Bytes × Event), List.filterMap Item.event (l.map (fun x => Item.report x.1 x.2)) = l.map (·.2) := by
    intro l; induction l with
    | nil => rfl
    | cons w P ih => rw [List.map_cons, List.filterMap_cons, List.map_cons, ← ih]; rfl
  have b3 : ∀ l : List Bytes, List.filterMap Item.event (l.map (fun a => Item.report [a] (.parameter i (some a)))) =
      l.map (fun a => .parameter i (some a)) := by
    intro l; induction l with
    | nil => rfl
    | cons w P ih => rw [List.map_cons, List.filterMap_cons, List.map_cons, ← ih]; rfl
  have b4 : List.filterMap Item.event (Item.terminator :: params.map (fun a => Item.report [a] (.parameter i (some a)))) =
      params.map (fun a => .parameter i (some a)) := by rw [← b3]; rfl
  rw [b1, b2, b4]
  have b5 : ∀ l : List Bytes, (l.map (fun a => Event.parameter i (some a))).filterMap (letter (compile so cs).cmds) =
      l.map (fun a => .param P (some a)) := by
    intro l; induction l with
    | nil => rfl
    | cons a l ih =>
      rw [List.map_cons, List.filterMap_cons_some (b := Letter.param P (some a)), ih]; rfl
      rw [letter, hc]; simp [hp]
  have b6 : ∀ (l : List (List Bytes × Event)) (ss : List Setting),
      l.map (fun x => letter (compile so cs).cmds x.2) =
        ss.map (fun st => some (.flag st.owner st.flag.name i st.report)) →
      (l.map (·.2)).filterMap (letter (compile so cs).cmds) =
        ss.map (fun st => .flag st.owner st.flag.name i st.report) := by
    intro l
    induction l with
    | nil => intro ss h; cases ss with
      | nil => rfl
      | cons s ss => cases h
    | cons x l ih =>
      intro ss h
      cases ss with
      | nil => cases h
      | cons s ss =>
        rw [List.map_cons, List.map_cons, List.cons.injEq] at h
        rw [List.map_cons, List.filterMap_cons_some h.1, ih ss h.2]; rfl
  have b7 : [Event.parameter i none].filterMap (letter (compile so cs).cmds) = [.param P none] := by
    rw [List.filterMap_cons_some (b := Letter.param P none)]; rfl
    rw [letter, hc]; simp [hp]
  rw [b5, b6 evs settings h1, b7]
  simp

/-- The settings of one target. -/
theorem toLoc_line (B : Binding) (l : B.Loc) (i : Nat) (P : Path) (settings : List Setting) (params : List Bytes) :
    toLoc B l (lineLetters i P settings params) =
      (settings.filter fun st => letI := B.dec; decide (B.loc st.owner st.flag.name = l)).map
        fun st => (i, st.report) := by
  letI := B.dec
  have ha : ∀ x y, toLoc B l (x ++ y) = toLoc B l x ++ toLoc B l y := fun x y => List.filterMap_append
  have hz : ∀ ps : List Bytes, toLoc B l (ps.map fun p => .param P (some p)) = [] := by
    intro ps; induction ps with
    | nil => rfl
    | cons a ps ih => rw [List.map_cons, toLoc, List.filterMap_cons]; exact ih
  rw [lineLetters, ha, ha, hz, show toLoc B l [.param P none] = [] from rfl, List.append_nil, List.append_nil]
  induction settings with
  | nil => rfl
  | cons st ss ih =>
    rw [List.map_cons, show ∀ (x : Letter) ys, x :: ys = [x] ++ ys from fun _ _ => rfl, ha, ih, List.filter_cons]
    by_cases h : B.loc st.owner st.flag.name = l
    · have hone : toLoc B l [.flag st.owner st.flag.name i st.report] = [(i, st.report)] := by simp [toLoc, h]
      rw [hone, if_pos (by simp [h])]; rfl
    · have hone : toLoc B l [.flag st.owner st.flag.name i st.report] = [] := by simp [toLoc, h]
      rw [hone, if_neg (by simp [h])]; rfl

/-- The parameters of one command. -/
theorem toPath_line (q : Path) (i : Nat) (P : Path) (settings : List Setting) (params : List Bytes) :
    toPath q (lineLetters i P settings params) = if q = P then params.map some ++ [none] else [] := by
  have ha : ∀ x y, toPath q (x ++ y) = toPath q x ++ toPath q y := fun x y => List.filterMap_append
  have hz : ∀ ss : List Setting, toPath q (ss.map fun st => .flag st.owner st.flag.name i st.report) = [] := by
    intro ss; induction ss with
    | nil => rfl
    | cons a ps ih => rw [List.map_cons, toPath, List.filterMap_cons]; exact ih
  rw [lineLetters, ha, ha, hz, List.nil_append]
  by_cases h : q = P
  · subst h
    rw [if_pos rfl, show toPath q [.param q none] = [none] by simp [toPath]]
    congr 1
    induction params with
    | nil => rfl
    | cons a ps ih =>
      rw [List.map_cons, show ∀ (x : Letter) ys, x :: ys = [x] ++ ys from fun _ _ => rfl, ha, ih,
        show toPath q [.param q (some a)] = [some a] by simp [toPath]]
      rfl
  · have h' : P ≠ q := fun e => h e.symm
    rw [if_neg h, show toPath q [.param P none] = [] by simp [toPath, h'], List.append_nil]
    induction params with
    | nil => rfl
    | cons a ps ih =>
      rw [List.map_cons, show ∀ (x : Letter) ys, x :: ys = [x] ++ ys from fun _ _ => rfl, ha, ih,
        show toPath q [.param P (some a)] = [] by simp [toPath, h']]
      rfl

/-- The end of the arguments changes no target. -/
theorem CKind.value_end (k : CKind) (t : k.T) (l : List (Option Bytes)) : k.value t (l ++ [none]) = k.value t l := by
  have h : ∀ ok, params ok (l ++ [none]) = params ok l := by
    intro ok
    rw [params, List.filterMap_append]; simp [params]
  cases k <;> simp only [CKind.value, h]

end Verif.Args
