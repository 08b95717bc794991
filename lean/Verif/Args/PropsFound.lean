import Verif.Args.LemmasBisect
import Verif.Args.PropsEdit
/-! # Property theorems: which changed schemas still work (C86)

`edited_partial` says what happens if names and paths are kept. Here: whatever the history was, the parser does what the
specification says if the schema is still in order, and with the search of the standard library it finds all commands, and all
flags, only then. -/
namespace Verif.Args

/-! ### Specification -/

/-- The commands are in order of their paths. -/
def CommandsInOrder (sc : Schema) : Prop := sc.cmds.Pairwise fun a b => cmpPath a.path b.path ≠ .gt

/-- The flags of each command are in order of their names. -/
def FlagsInOrder (sc : Schema) : Prop := ∀ c ∈ sc.cmds, c.flags.Pairwise fun a b => cmpStr a.name b.name ≠ .gt

/-- Each command is linked to the last one in front of it whose path is the beginning of its own, if there is one. -/
def LinksRight (sc : Schema) : Prop := ∀ j (cmd : Command), sc.cmds[j]? = some cmd → ∃ up : Option Nat, sc.ups[j]? = some up ∧
  match up with
  | none => ∀ i (c : Command), i < j → sc.cmds[i]? = some c → ¬ c.path <+: cmd.path
  | some i => i < j ∧ (∃ c : Command, sc.cmds[i]? = some c ∧ c.path <+: cmd.path)
      ∧ ∀ k (c : Command), i < k → k < j → sc.cmds[k]? = some c → ¬ c.path <+: cmd.path

/-- Entering one word after another. -/
def enterAll (se : Searcher) (sc : Schema) : Cursor → List Bytes → Option (Option Cursor)
  | cur, [] => some (some cur)
  | cur, w :: ws =>
    match enter se sc cur w with
    | none => none
    | some none => some none
    | some (some cur) => enterAll se sc cur ws

/-- Command `i` is selected when the words of its path are entered. -/
def Enterable (se : Searcher) (sc : Schema) (i : Nat) : Prop := ∀ c, sc.cmds[i]? = some c →
  ∃ cur, enterAll se sc (Cursor_with sc) c.path = some (some cur) ∧ command sc cur = some (some i)

/-- Flag `f` of command `i` is found when the parser is at that command. -/
def Findable (se : Searcher) (sc : Schema) (i f : Nat) : Prop := ∀ c fl, sc.cmds[i]? = some c → c.flags[f]? = some fl →
  find_flag se sc (some ⟨i, c.path.length⟩) fl.name = some (some (i, f))

/-! ### Lemmas -/

theorem linksRight_upSpec {sc : Schema} (h : LinksRight sc) (j : Nat) (hj : j < sc.cmds.length) :
    sc.ups[j]? = some (upSpec sc.cmds j) := by
  obtain ⟨up, hup, hm⟩ := h j _ (List.getElem?_eq_getElem hj)
  rw [hup]
  congr 1
  unfold upSpec
  rw [List.getElem?_eq_getElem hj]
  simp only []
  cases up with
  | none =>
    symm
    rw [lastBelow_none]
    intro i c hi hc
    rw [Bool.eq_false_iff]
    exact fun hp => hm i c hi hc (List.isPrefixOf_iff_prefix.mp hp)
  | some i =>
    symm
    obtain ⟨h1, ⟨c, hc, hp⟩, h2⟩ := hm
    rw [lastBelow_some]
    refine ⟨h1, ⟨c, hc, List.isPrefixOf_iff_prefix.mpr hp⟩, fun k d hk1 hk2 hd => ?_⟩
    rw [Bool.eq_false_iff]
    exact fun hp => h2 k d hk1 hk2 hd (List.isPrefixOf_iff_prefix.mp hp)

theorem cursor_with_key (sc : Schema) : key sc (Cursor_with sc) = some [] := by
  unfold Cursor_with
  cases h : sc.cmds with
  | nil => rfl
  | cons c l => simp [key, h]

/-- After entering words the parser knows these words, and the last one was entered from the others. -/
theorem enterAll_key {sc : Schema} : ∀ (ws : List Bytes) {cur cur' : Cursor} {k : Path}, key sc cur = some k →
    enterAll stdSearcher sc cur ws = some (some cur') → key sc cur' = some (k ++ ws) ∧
    ∀ ws' w, ws = ws' ++ [w] → ∃ cur1, key sc cur1 = some (k ++ ws') ∧ enter stdSearcher sc cur1 w = some (some cur')
  | [], cur, cur', k, hk, h => by
    cases h
    exact ⟨by rw [hk, List.append_nil], fun ws' w e => by simp at e⟩
  | w :: ws, cur, cur', k, hk, h => by
    unfold enterAll at h
    cases he : enter stdSearcher sc cur w with
    | none => rw [he] at h; cases h
    | some o =>
      cases o with
      | none => rw [he] at h; cases h
      | some cur1 =>
        rw [he] at h
        have hk1 : key sc cur1 = some (k ++ [w]) := by
          obtain ⟨i, j, rfl, _, _, ⟨d, hd, hp⟩, _⟩ := enter_std hk he
          simp only [key, hd, Option.bind_eq_bind, Option.bind_some]
          have hl := hp.length_le
          rw [List.length_append, List.length_singleton] at hl
          rw [if_pos hl]
          obtain ⟨t, ht⟩ := hp
          rw [← ht, List.take_left' (by simp)]
        obtain ⟨h1, h2⟩ := enterAll_key ws hk1 h
        refine ⟨by rw [h1]; simp, fun ws' w' e => ?_⟩
        cases ws' with
        | nil =>
          rw [List.nil_append, List.cons.injEq] at e
          obtain ⟨rfl, rfl⟩ := e
          cases h
          exact ⟨cur, by rw [hk, List.append_nil], he⟩
        | cons v vs =>
          rw [List.cons_append, List.cons.injEq] at e
          obtain ⟨rfl, e⟩ := e
          obtain ⟨cur2, q1, q2⟩ := h2 vs w' e
          exact ⟨cur2, by rw [q1]; simp, q2⟩

theorem command_index {sc : Schema} {v : CursorPosition} {i : Nat} (h : command sc (some v) = some (some i)) : v.index = i := by
  simp only [command, Option.bind_eq_bind, Option.bind_eq_some_iff] at h
  obtain ⟨c, _, h⟩ := h
  split at h
  · cases h; rfl
  · cases h

/-- In order, the words of a path lead to the first command below them. -/
theorem enterAll_sorted (se : Searcher) {sc : Schema} (hs : Sorted sc.cmds) : ∀ (ws : List Bytes) (k : Path),
    Reach sc.cmds k → (ws ≠ [] → Extends sc.cmds (k ++ ws) = true) →
    enterAll se sc (cursorOf sc.cmds k) ws = some (some (cursorOf sc.cmds (k ++ ws)))
  | [], k, _, _ => by rw [List.append_nil]; rfl
  | w :: ws, k, hr, he => by
    have e : k ++ w :: ws = (k ++ [w]) ++ ws := by simp
    have hx : Extends sc.cmds (k ++ w :: ws) = true := he (by simp)
    have hx1 : Extends sc.cmds (k ++ [w]) = true := by
      rw [Extends, List.any_eq_true] at hx ⊢
      obtain ⟨c, hc, hp⟩ := hx
      refine ⟨c, hc, List.isPrefixOf_iff_prefix.mpr ?_⟩
      rw [e, List.isPrefixOf_iff_prefix] at hp
      exact (List.prefix_append _ _).trans hp
    unfold enterAll
    rw [enter_eq se hs hr, hx1]
    simp only [if_true]
    rw [e] at hx ⊢
    exact enterAll_sorted se hs ws (k ++ [w]) (.inr hx1) fun _ => hx

/-- A flag that is found is found by the search in the flags of its command. -/
theorem findLoop_run (se : Searcher) (sc : Schema) (name : Bytes) : ∀ (n : Nat) (o : Option Nat) (i f : Nat),
    findLoop se sc name n o = some (some (i, f)) →
    ∃ c, sc.cmds[i]? = some c ∧ se.run (fun fl : Flag => cmpStr fl.name name) c.flags = some f
  | n, none, i, f, h => by unfold findLoop at h; cases h
  | 0, some _, i, f, h => by unfold findLoop at h; cases h
  | n + 1, some idx, i, f, h => by
    unfold findLoop at h
    simp only [Option.bind_eq_bind, Option.bind_eq_some_iff] at h
    obtain ⟨c, hc, h⟩ := h
    cases hr : se.run (fun fl : Flag => cmpStr fl.name name) c.flags with
    | some v =>
      rw [hr] at h
      cases h
      exact ⟨c, hc, hr⟩
    | none =>
      rw [hr] at h
      simp only [Option.bind_eq_some_iff] at h
      obtain ⟨up, _, h⟩ := h
      exact findLoop_run se sc name n up i f h

theorem pairwise_strict {α β : Type} (cmp : β → β → Ordering) [Std.LawfulEqCmp cmp] (key : α → β) (l : List α) (hd : (l.map key).Nodup) :
    l.Pairwise (fun a b => cmp (key a) (key b) ≠ .gt) ↔ l.Pairwise (fun a b => cmp (key a) (key b) = .lt) := by
  constructor
  · intro h
    rw [List.pairwise_iff_getElem] at h ⊢
    rw [List.nodup_iff_pairwise_ne, List.pairwise_map, List.pairwise_iff_getElem] at hd
    intro i j hi hj hij
    have h1 := h i j hi hj hij
    have h2 := hd i j hi hj hij
    cases hc : cmp (key l[i]) (key l[j]) with
    | lt => rfl
    | gt => exact absurd hc h1
    | eq => exact absurd (Std.LawfulEqCmp.eq_of_compare hc) h2
  · intro h
    exact h.imp fun q => by rw [q]; decide

/-! ### Theorems -/

/-- C86. After any history of assignments that leaves the schema in order, the parser does what the specification says of the
commands and flags that are now in it. Missing: schemas that are not in order, see the next theorems. -/
theorem edited_in_order_partial (so : Sorter) (se : Searcher) (cs : List Command) (es : List Edit) (sc : Schema)
    (_ : edits (compile so cs) es = some sc) (hc : CommandsInOrder sc) (hf : FlagsInOrder sc) (hl : LinksRight sc) :
    ∃ find, FlagLookup sc.cmds find ∧ ∀ (σ R : Type) (h : σ → Event → σ × Option R) (args : List Bytes) (s : σ),
      parse h se sc args s = specResult h s sc.cmds (items sc.cmds find [] true true args) :=
  parse_compiled se ⟨hc, hf, linksRight_upSpec hl⟩

/-- C86. Whatever the history was: if no two commands have the same path, all of them can be entered exactly if they are still in
order of their paths. -/
theorem commands_entered_iff (sc : Schema) (hd : (sc.cmds.map (·.path)).Nodup) :
    (∀ i, Enterable stdSearcher sc i) ↔ CommandsInOrder sc := by
  constructor
  · intro h
    unfold CommandsInOrder
    rw [List.pairwise_iff_getElem]
    intro i j hi hj hij
    refine bisect_sorted sc.cmds 0 sc.cmds.length sc.cmds.length (Nat.le_refl _) ?_ i j _ _ (Nat.zero_le _) hij (by omega)
      (List.getElem?_eq_getElem hi) (List.getElem?_eq_getElem hj)
    intro i c _ _ hc
    obtain ⟨cur, hcur, hcmd⟩ := h i c hc
    rcases List.eq_nil_or_concat c.path with e | ⟨ws', w, e⟩
    · exact .inl fun k d _ _ _ => by rw [e]; exact List.nil_prefix
    · rw [List.concat_eq_append] at e
      obtain ⟨_, h2⟩ := enterAll_key c.path (cursor_with_key sc) hcur
      obtain ⟨cur1, hk1, he1⟩ := h2 ws' w e
      obtain ⟨i', j', rfl, hij', hb, _, hall⟩ := enter_std hk1 he1
      have ei : i' = i := command_index hcmd
      subst ei
      rw [List.nil_append, ← e] at hb hall
      exact .inr ⟨j', hb, hij', hall⟩
  · intro hs i c hc
    have hs' : Sorted sc.cmds := hs
    have hx : Extends sc.cmds ([] ++ c.path) = true := by
      rw [Extends, List.any_eq_true]
      exact ⟨c, List.mem_of_getElem? hc, List.isPrefixOf_iff_prefix.mpr (List.prefix_refl _)⟩
    have q := enterAll_sorted stdSearcher hs' c.path [] (.inl rfl) fun _ => hx
    rw [← cursor_with_eq] at q
    refine ⟨_, q, ?_⟩
    rw [command_eq hs', List.nil_append]
    congr 1
    rw [selected, List.findIdx?_eq_some_iff_getElem]
    obtain ⟨hi, hci⟩ := List.getElem?_eq_some_iff.mp hc
    refine ⟨hi, by rw [hci]; simp, fun j hj he => ?_⟩
    rw [List.nodup_iff_pairwise_ne, List.pairwise_map, List.pairwise_iff_getElem] at hd
    rw [beq_iff_eq] at he
    exact hd j i (by omega) hi hj (by rw [hci]; exact he)

/-- C86. Whatever the history was: if no two flags of a command have the same name, all of them are found exactly if they are
still in order of their names. -/
theorem flags_found_iff (sc : Schema) (i : Nat) (c : Command) (hc : sc.cmds[i]? = some c) (hd : (c.flags.map (·.name)).Nodup) :
    (∀ f, Findable stdSearcher sc i f) ↔ c.flags.Pairwise fun a b => cmpStr a.name b.name ≠ .gt := by
  rw [pairwise_strict cmpStr (fun fl : Flag => fl.name) c.flags hd]
  have htr : ∀ a b c : Flag, cmpStr a.name b.name ≠ .gt → cmpStr b.name c.name ≠ .gt → cmpStr a.name c.name ≠ .gt := by
    intro a b c h1 h2 h3
    have h4 : cmpStr c.name a.name = .lt := Std.OrientedCmp.lt_of_gt (cmp := cmpStr) h3
    have hle : (cmpStr a.name b.name).isLE := by revert h1; cases cmpStr a.name b.name <;> simp
    exact h2 (Std.OrientedCmp.gt_of_lt (cmp := cmpStr) (Std.TransCmp.lt_of_lt_of_isLE (cmp := cmpStr) h4 hle))
  have hsw : ∀ a b : Flag, cmpStr a.name b.name = .gt ↔ cmpStr b.name a.name = .lt := fun a b =>
    ⟨fun h => Std.OrientedCmp.lt_of_gt (cmp := cmpStr) h, fun h => Std.OrientedCmp.gt_of_lt (cmp := cmpStr) h⟩
  have heq : ∀ a : Flag, cmpStr a.name a.name = .eq := fun a => Std.ReflCmp.compare_self (cmp := cmpStr)
  rw [← search_all_iff (fun a b : Flag => cmpStr a.name b.name) htr hsw heq c.flags]
  constructor
  · intro h f fl hfl
    have q := h f c fl hc hfl
    obtain ⟨c', hc', hr⟩ := findLoop_run _ _ _ _ _ _ _ q
    rw [hc] at hc'
    cases hc'
    exact hr
  · intro h f c' fl hc' hfl
    rw [hc] at hc'
    cases hc'
    have hr : stdSearcher.run (fun a : Flag => cmpStr a.name fl.name) c.flags = some f := h f fl hfl
    unfold find_flag
    simp only [Option.map_some]
    unfold findLoop
    simp only [hc, hr, Option.bind_eq_bind, Option.bind_some]

/-- C86. Whatever the history was: if the paths of all commands, and the names of the flags of each, are different, then all
commands can be entered and all their flags are found exactly if the schema is still in order. -/
theorem all_found_iff (sc : Schema) (hd : (sc.cmds.map (·.path)).Nodup) (hn : ∀ c ∈ sc.cmds, (c.flags.map (·.name)).Nodup) :
    ((∀ i, Enterable stdSearcher sc i) ∧ ∀ i f, Findable stdSearcher sc i f) ↔ CommandsInOrder sc ∧ FlagsInOrder sc := by
  rw [commands_entered_iff sc hd]
  refine and_congr_right fun _ => ⟨fun h c hc => ?_, fun h i f => ?_⟩
  · obtain ⟨i, hi, rfl⟩ := List.getElem_of_mem hc
    exact (flags_found_iff sc i _ (List.getElem?_eq_getElem hi) (hn _ hc)).mp fun f => h i f
  · cases hc : sc.cmds[i]? with
    | none => exact fun c fl hc' => by rw [hc] at hc'; cases hc'
    | some c =>
      have hm := List.mem_of_getElem? hc
      exact (flags_found_iff sc i c hc (hn _ hm)).mpr (h c hm) f

/-! ## Examples -/

/-- Five commands, one for the empty path, two below another. -/
def foundExample : List Command :=
  [⟨[b "run"], [⟨b "all", .set, none⟩, ⟨b "b", .set, none⟩, ⟨b "c", .set, none⟩], none⟩, ⟨[], [], none⟩,
    ⟨[b "run", b "fast"], [], none⟩, ⟨[b "list"], [], none⟩, ⟨[b "run", b "slow"], [], none⟩]

-- Renaming a command or a flag may leave the schema in order: then everything is found, and inherited as it should be.
example : (edits (compile insertSorter foundExample) [.command 1 ⟨[b "kill"], [], none⟩, .flag 2 1 ⟨b "bar", .set, none⟩]).map
      (fun sc => (((decide (sc.cmds.Pairwise fun a b => cmpPath a.path b.path ≠ .gt) : Bool),
        (decide (∀ c ∈ sc.cmds, c.flags.Pairwise fun a b => cmpStr a.name b.name ≠ .gt) : Bool)),
        sc.ups, parse record stdSearcher sc [b "run", b "fast", b "--bar"] []))
    = some ((true, true), [none, some 0, some 0, some 2, some 2], .ok [.set 2 1 3 (b "bar"), .parameter 3 none] 3) := by
  decide +kernel

-- Renaming them may also leave it out of order: then at least one is not found. Here `run fast`, which was not
-- changed, is lost as well.
example : (edits (compile insertSorter foundExample) [.command 2 ⟨[b "walk"], [], none⟩]).map
      (fun sc => ((decide (sc.cmds.map (·.path)).Nodup, decide (sc.cmds.Pairwise fun a b => cmpPath a.path b.path ≠ .gt)),
        enterAll stdSearcher sc (Cursor_with sc) [b "walk"], enterAll stdSearcher sc (Cursor_with sc) [b "run", b "fast"]))
    = some ((true, false), some none, some none) := by
  decide +kernel

end Verif.Args
