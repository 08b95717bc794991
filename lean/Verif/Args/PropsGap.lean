import Verif.Args.PropsClosed
/-! # Property theorems: flags in command sets with gaps (C20)

C20 fails where the command words so far are no registered path (`flag_of_unselected_command`). Here is exactly where, and what
happens instead: the flags of the first command, in the order of paths, whose path continues the words are accepted as well, and no
others. -/
namespace Verif.Args

/-- The first registered command whose path begins with `words`, and its place. -/
def FirstBelow (S : List Command) (words : Path) (i : Nat) (a : Command) : Prop :=
  S[i]? = some a ∧ words <+: a.path ∧ ∀ j c, j < i → S[j]? = some c → ¬ words <+: c.path

/-- What C20 says of a lookup: it finds the flag in the command with the longest path among those on the way that define it. -/
def OnPath (S : List Command) (words : Path) (name : Bytes) : Option (Nat × Nat) → Prop
  | none => ∀ c ∈ S, c.path <+: words → hasFlag name c = false
  | some (j, f) => ∃ c fl, S[j]? = some c ∧ c.path <+: words ∧ c.flags[f]? = some fl ∧ fl.name = name ∧
      ∀ d ∈ S, d.path <+: words → hasFlag name d = true → d.path.length ≤ c.path.length

/-- The flag that a report is addressed to. -/
def Addressed (e : Event) (c f : Nat) : Prop :=
  (∃ at_ n, e = .set c f at_ n) ∨ (∃ at_ n b, e = .toggle c f at_ n b) ∨ (∃ at_ n v, e = .parse c f at_ n v)

/-- No flags where there is a gap: if words can be continued to a registered path and are none themselves, the first one of
those paths has no flags. -/
def NoLeak (S : List Command) : Prop :=
  ∀ words i a, FirstBelow S words i a → a.path = words ∨ a.flags = []

/-! ## Lemmas -/

theorem anchor_first {S : List Command} {w : Path} {i : Nat} {a : Command} (h : FirstBelow S w i a) : anchor S w = some i :=
  anchor_some.mpr ⟨⟨a, h.1, h.2.1⟩, h.2.2⟩

theorem hasFlag_get {name : Bytes} {c : Command} (h : hasFlag name c = true) : ∃ (f : Nat) (fl : Flag), c.flags[f]? = some fl ∧ fl.name = name := by
  unfold hasFlag at h
  rw [List.any_eq_true] at h
  obtain ⟨fl, hm, hn⟩ := h
  obtain ⟨f, hf⟩ := List.mem_iff_getElem?.mp hm
  exact ⟨f, fl, hf, by simpa using hn⟩

theorem hasFlag_of {name : Bytes} {c : Command} {f : Nat} {fl : Flag} (h : c.flags[f]? = some fl) (hn : fl.name = name) :
    hasFlag name c = true := by
  unfold hasFlag
  rw [List.any_eq_true]
  exact ⟨fl, List.mem_of_getElem? h, by simp [hn]⟩

/-! ## Theorems -/

/-- **C20 (a).** Between the command words and the first command below them: that command's flags are found. -/
theorem gap_leaks (so : Sorter) (cs : List Command)
    (find : Path → Bytes → Option (Nat × Nat)) (hf : FlagLookup (compile so cs).cmds find)
    (words : Path) (i : Nat) (a : Command) (hi : FirstBelow (compile so cs).cmds words i a) (name : Bytes)
    (hn : hasFlag name a = true) :
    ∃ f fl, find words name = some (i, f) ∧ a.flags[f]? = some fl ∧ fl.name = name := by
  have h := hf.1 words name i a (anchor_first hi) hi.1
  cases hr : find words name with
  | none =>
    rw [hr] at h
    rw [h i a (Nat.le_refl _) hi.1 (List.prefix_refl _)] at hn
    cases hn
  | some x =>
    obtain ⟨j, f⟩ := x
    rw [hr] at h
    obtain ⟨c, fl, h1, h2, h3, h4, h5, h6⟩ := h
    have hj : j = i := by
      apply Classical.byContradiction
      intro hne
      rw [h6 i a (by omega) (Nat.le_refl _) hi.1 (List.prefix_refl _)] at hn
      cases hn
    subst hj
    rw [hi.1] at h1
    cases h1
    exact ⟨f, fl, rfl, h4, h5⟩

/-- **C20 (b).** All other flags are found as C20 says. -/
theorem gap_otherwise (so : Sorter) (cs : List Command) (hd : (cs.map (·.path)).Nodup)
    (find : Path → Bytes → Option (Nat × Nat)) (hf : FlagLookup (compile so cs).cmds find)
    (words : Path) (i : Nat) (a : Command) (hi : FirstBelow (compile so cs).cmds words i a) (name : Bytes)
    (hn : a.path = words ∨ hasFlag name a = false) :
    OnPath (compile so cs).cmds words name (find words name) := by
  by_cases hreg : a.path = words
  · have hperm := (compile_perm so cs).1
    have : words ∈ cs.map (·.path) := hperm.mem_iff.mp (by rw [← hreg]; exact List.mem_map_of_mem (List.mem_of_getElem? hi.1))
    obtain ⟨c, hc, hcp⟩ := List.mem_map.mp this
    have h := flags_on_path_partial so cs hd find hf words ⟨c, hc, hcp⟩ name
    revert h
    cases find words name with
    | none => exact id
    | some x => exact id
  · have hn := hn.resolve_left hreg
    have hs := (compile_compiled so cs).sorted
    have hl := hf.1 words name i a (anchor_first hi) hi.1
    generalize (compile so cs).cmds = S at *
    -- commands on the way come before the first one below
    have hbefore : ∀ k d, S[k]? = some d → d.path <+: words → k < i := by
      intro k d hk hp
      refine hs.before hk hi.1 (hp.trans hi.2.1) ?_
      intro he
      rw [he] at hp
      exact hreg (hp.eq_of_length (Nat.le_antisymm hp.length_le hi.2.1.length_le))
    cases hr : find words name with
    | none =>
      rw [hr] at hl
      intro c hc hp
      obtain ⟨k, hk⟩ := List.mem_iff_getElem?.mp hc
      exact hl k c (Nat.le_of_lt (hbefore k c hk hp)) hk (hp.trans hi.2.1)
    | some x =>
      obtain ⟨j, f⟩ := x
      rw [hr] at hl
      obtain ⟨c, fl, h1, h2, h3, h4, h5, h6⟩ := hl
      have hji : j ≠ i := by
        rintro rfl
        rw [hi.1] at h1
        cases h1
        rw [hasFlag_of h4 h5] at hn
        cases hn
      have hcw : c.path <+: words := by
        rcases List.prefix_or_prefix_of_prefix h3 hi.2.1 with h | h
        · exact h
        · exact absurd h (hi.2.2 j c (by omega) h1)
      refine ⟨c, fl, h1, hcw, h4, h5, ?_⟩
      intro d hd' hp hfl
      obtain ⟨k, hk⟩ := List.mem_iff_getElem?.mp hd'
      have hkj : k ≤ j := by
        apply Nat.le_of_not_lt
        intro hlt
        rw [h6 k d hlt (Nat.le_of_lt (hbefore k d hk hp)) hk (hp.trans hi.2.1)] at hfl
        cases hfl
      rcases List.prefix_or_prefix_of_prefix hp hcw with h | h
      · exact h.length_le
      · by_cases he : c.path = d.path
        · rw [he]; exact Nat.le_refl _
        · have := hs.before h1 hk h he
          omega

/-- **C20 (c).** After words that can be continued to a registered path, every lookup is as C20 says if and only if the words
are a registered path or the first one that continues them has no flags. -/
theorem lookup_on_path_iff (so : Sorter) (cs : List Command) (hd : (cs.map (·.path)).Nodup)
    (find : Path → Bytes → Option (Nat × Nat)) (hf : FlagLookup (compile so cs).cmds find)
    (words : Path) (i : Nat) (a : Command) (hi : FirstBelow (compile so cs).cmds words i a) :
    (∀ name, OnPath (compile so cs).cmds words name (find words name)) ↔ (a.path = words ∨ a.flags = []) := by
  constructor
  · intro h
    cases hfl : a.flags with
    | nil => exact .inr rfl
    | cons fl rest =>
      left
      obtain ⟨f, fl', h1, h2, h3⟩ := gap_leaks so cs find hf words i a hi fl.name (by simp [hasFlag, hfl])
      have h4 := h fl.name
      rw [h1] at h4
      obtain ⟨c, _, h5, h6, _⟩ := h4
      rw [hi.1] at h5
      cases h5
      exact h6.eq_of_length (Nat.le_antisymm h6.length_le hi.2.1.length_le)
  · intro h name
    apply gap_otherwise so cs hd find hf words i a hi name
    rcases h with h | h
    · exact .inl h
    · exact .inr (by simp [hasFlag, h])

/-- Words that the parser takes as commands, one by one. -/
theorem items_entered (S : List Command) (find : Path → Bytes → Option (Nat × Nat)) (rest : List Bytes) :
    ∀ (l ws : Path), (∀ w ∈ l, shape w = .word ∧ isUtf8 w = true) → (∃ c ∈ S, ws ++ l <+: c.path) →
      items S find ws true true (l ++ rest) = l.map .command ++ items S find (ws ++ l) true true rest := by
  intro l
  induction l with
  | nil => intro ws _ _; simp
  | cons w l ih =>
    intro ws hw hx
    have hext : Extends S (ws ++ [w]) = true := by
      obtain ⟨c, hc, hp⟩ := hx
      rw [Extends, List.any_eq_true]
      refine ⟨c, hc, List.isPrefixOf_iff_prefix.mpr (List.IsPrefix.trans ?_ hp)⟩
      exact ⟨l, by simp⟩
    have := ih (ws ++ [w]) (fun x hx => hw x (by simp [hx])) (by simpa using hx)
    rw [List.cons_append, items, if_pos rfl, (hw w (by simp)).1]
    simp only [(hw w (by simp)).2, hext, Bool.and_self, if_true]
    rw [this]
    simp

/-- **C20 (d).** A flag of the first command below the words so far is accepted although that command was not entered: there is a
command line, the words followed by the flag, for which it is reported. -/
theorem gap_reported (so : Sorter) (cs : List Command)
    (find : Path → Bytes → Option (Nat × Nat)) (hf : FlagLookup (compile so cs).cmds find)
    (words : Path) (hw : ∀ w ∈ words, shape w = .word ∧ isUtf8 w = true) (i : Nat) (a : Command)
    (hi : FirstBelow (compile so cs).cmds words i a) (fl : Flag) (hfl : fl ∈ a.flags)
    (hu : isUtf8 fl.name = true) (he : (0x3d : UInt8) ∉ fl.name) (hne : fl.name ≠ []) :
    ∃ arg f e, (arg = dashes ++ fl.name ∨ arg = dashes ++ fl.name ++ [0x3d]) ∧ Addressed e i f ∧
      items (compile so cs).cmds find [] true true (words ++ [arg]) = words.map .command ++ [.report [arg] e] := by
  obtain ⟨f, fl', h1, h2, h3⟩ := gap_leaks so cs find hf words i a hi fl.name (by
    unfold hasFlag; rw [List.any_eq_true]; exact ⟨fl, hfl, by simp⟩)
  have hmode : modeOf (compile so cs).cmds (i, f) = fl'.mode := by simp [modeOf, hi.1, h2]
  have hstart : ∀ arg, items (compile so cs).cmds find [] true true (words ++ [arg]) =
      words.map .command ++ items (compile so cs).cmds find words true true [arg] := fun arg => by
    have := items_entered (compile so cs).cmds find [arg] words [] hw ⟨a, List.mem_of_getElem? hi.1, by simpa using hi.2.1⟩
    simpa using this
  have hres : resolve (find words) fl.name = some ((i, f), false) := by unfold resolve; rw [h1]
  cases hm : fl'.mode with
  | set =>
    refine ⟨_, f, _, .inl rfl, .inl ⟨((nearest (compile so cs).cmds words).getD i), fl.name, rfl⟩, ?_⟩
    rw [hstart, items, if_pos rfl, shape_flag fl.name hu he hne]
    simp only [hres, hmode, hm, action, items]
  | toggle =>
    refine ⟨_, f, _, .inl rfl, .inr (.inl ⟨((nearest (compile so cs).cmds words).getD i), fl.name, true, rfl⟩), ?_⟩
    rw [hstart, items, if_pos rfl, shape_flag fl.name hu he hne]
    simp only [hres, hmode, hm, action, items]
    rfl
  | parse =>
    refine ⟨_, f, _, .inr rfl, .inr (.inr ⟨((nearest (compile so cs).cmds words).getD i), fl.name, [], rfl⟩), ?_⟩
    rw [hstart, items, if_pos rfl, shape_flag_value fl.name [] hu he]
    simp only [hres, hmode, hm, action, items]

/-- **C20 (e), exact.** For all command sets with distinct paths whose words and flags can be written on a command line: flags are
accepted only for commands on the selected path, in every run, if and only if the first command behind every gap has no flags. -/
theorem flags_on_path_iff (so : Sorter) (se : Searcher) (cs : List Command) (hd : (cs.map (·.path)).Nodup)
    (hw : ∀ c ∈ (compile so cs).cmds, ∀ w ∈ c.path, shape w = .word ∧ isUtf8 w = true)
    (hn : ∀ c ∈ (compile so cs).cmds, ∀ fl ∈ c.flags, isUtf8 fl.name = true ∧ (0x3d : UInt8) ∉ fl.name ∧ fl.name ≠ []) :
    ∃ find, FlagLookup (compile so cs).cmds find ∧
      (∀ (σ R : Type) (h : σ → Event → σ × Option R) (args : List Bytes) (s : σ),
        parse h se (compile so cs) args s =
          specResult h s (compile so cs).cmds (items (compile so cs).cmds find [] true true args)) ∧
      ((∀ args before used e after,
          items (compile so cs).cmds find [] true true args = before ++ .report used e :: after →
          ∀ cc ff, Addressed e cc ff →
            ∃ c, (compile so cs).cmds[cc]? = some c ∧ c.path <+: commandWords before) ↔
        NoLeak (compile so cs).cmds) := by
  obtain ⟨find, hf, href⟩ := parse_refines so se cs
  refine ⟨find, hf, href, ?_, ?_⟩
  · intro hall words i a hi
    cases hfl : a.flags with
    | nil => exact .inr rfl
    | cons fl rest =>
      left
      have ha := List.mem_of_getElem? hi.1
      have hmem : fl ∈ a.flags := by rw [hfl]; exact List.mem_cons_self
      obtain ⟨hu, he, hne⟩ := hn a ha fl hmem
      obtain ⟨arg, f, e, _, hadd, hit⟩ := gap_reported so cs find hf words
        (fun w hw' => hw a ha w (hi.2.1.subset hw')) i a hi fl hmem hu he hne
      obtain ⟨c, hc, hp⟩ := hall _ _ _ _ _ hit i f hadd
      rw [hi.1] at hc
      cases hc
      have hcw : ∀ l : Path, commandWords (l.map .command) = l := by
        intro l
        induction l with
        | nil => rfl
        | cons x l ih => show x :: commandWords (l.map .command) = _; rw [ih]
      rw [hcw] at hp
      exact hp.eq_of_length (Nat.le_antisymm hp.length_le hi.2.1.length_le)
  · intro hno args before used e after hit cc ff hadd
    obtain ⟨given, v, neg, hsh, hr⟩ := flag_reports_come_from_lookup _ find [] true true args before used e after hit cc ff hadd
    clear hsh
    rw [List.nil_append] at hr
    have hlook : ∀ name, find (commandWords before) name = some (cc, ff) →
        ∃ c, (compile so cs).cmds[cc]? = some c ∧ c.path <+: commandWords before := by
      intro name hnm
      cases hanc : anchor (compile so cs).cmds (commandWords before) with
      | none => rw [hf.2 _ name hanc] at hnm; cases hnm
      | some i =>
        obtain ⟨⟨a, ha, hp⟩, hfirst⟩ := anchor_some.mp hanc
        have hi : FirstBelow (compile so cs).cmds (commandWords before) i a := ⟨ha, hp, hfirst⟩
        have h := (lookup_on_path_iff so cs hd find hf _ i a hi).mpr (hno _ i a hi) name
        rw [hnm] at h
        obtain ⟨c, _, h1, h2, _⟩ := h
        exact ⟨c, h1, h2⟩
    unfold resolve at hr
    cases hfind : find (commandWords before) given with
    | some x =>
      rw [hfind] at hr
      simp only [Option.some.injEq, Prod.mk.injEq] at hr
      exact hlook given (by rw [hfind, hr.1])
    | none =>
      rw [hfind] at hr
      simp only at hr
      split at hr
      · rename_i bare
        cases hb : find (commandWords before) bare with
        | none => rw [hb] at hr; cases hr
        | some x =>
          rw [hb] at hr
          simp only [Option.map_some, Option.some.injEq, Prod.mk.injEq] at hr
          exact hlook bare (by rw [hb, hr.1])
      · cases hr

/-! ## Examples -/

/-- Commands `foo bar` and `foo baz`, both with a flag, and nothing at `foo`. -/
def gappy : List Command :=
  [⟨[], [], none⟩, ⟨[b "foo", b "bar"], [⟨b "x", .set, none⟩], none⟩, ⟨[b "foo", b "baz"], [⟨b "y", .set, none⟩], none⟩]
example : (gappy.map (·.path)).Nodup := by decide +kernel
example : FirstBelow (compile insertSorter gappy).cmds [b "foo"] 1 ⟨[b "foo", b "bar"], [⟨b "x", .set, none⟩], none⟩ := by
  refine ⟨by decide +kernel, by decide +kernel, ?_⟩
  intro j c hj hc
  have hj0 : j = 0 := by omega
  subst hj0
  have h0 : (compile insertSorter gappy).cmds[0]? = some ⟨[], [], none⟩ := by decide +kernel
  rw [h0] at hc
  cases hc
  decide +kernel
-- After `foo`, the flag of `foo bar` is accepted, that of `foo baz` is not.
#guard parse record linearSearcher (compile insertSorter gappy) [b "foo", b "--x", b "--y"] [] =
  .noCommand [.set 1 0 0 (b "x"), .error (.flagUnknown (b "y"))]
example : (∀ c ∈ (compile insertSorter gappy).cmds, ∀ w ∈ c.path, shape w = .word ∧ isUtf8 w = true) ∧
    (∀ c ∈ (compile insertSorter gappy).cmds, ∀ fl ∈ c.flags, isUtf8 fl.name = true ∧ (0x3d : UInt8) ∉ fl.name ∧ fl.name ≠ []) := by
  constructor <;> decide +kernel

/-- Instances of `gap_leaks`, `gap_otherwise` and `lookup_on_path_iff`: after `foo`, the flag `x` of `foo bar` is found, `y` of
`foo baz` is looked up as it should, and hence not all are. -/
example : ∃ find, FlagLookup (compile insertSorter gappy).cmds find ∧ (∃ f, find [b "foo"] (b "x") = some (1, f)) ∧
    OnPath (compile insertSorter gappy).cmds [b "foo"] (b "y") (find [b "foo"] (b "y")) ∧
    ¬ ∀ name, OnPath (compile insertSorter gappy).cmds [b "foo"] name (find [b "foo"] name) := by
  obtain ⟨find, hf, _⟩ := parse_refines insertSorter linearSearcher gappy
  have hd : (gappy.map (·.path)).Nodup := by decide +kernel
  have h0 : (compile insertSorter gappy).cmds[0]? = some ⟨[], [], none⟩ := by decide +kernel
  have hi : FirstBelow (compile insertSorter gappy).cmds [b "foo"] 1 ⟨[b "foo", b "bar"], [⟨b "x", .set, none⟩], none⟩ := by
    refine ⟨by decide +kernel, by decide +kernel, ?_⟩
    intro j c hj hc
    obtain rfl : j = 0 := by omega
    rw [h0] at hc
    cases hc
    decide +kernel
  obtain ⟨f, _, h1, _⟩ := gap_leaks insertSorter gappy find hf _ 1 _ hi (b "x") (by decide +kernel)
  refine ⟨find, hf, ⟨f, h1⟩, gap_otherwise insertSorter gappy hd find hf _ 1 _ hi (b "y") (.inr (by decide +kernel)), ?_⟩
  rw [lookup_on_path_iff insertSorter gappy hd find hf _ 1 _ hi]
  decide +kernel

end Verif.Args
