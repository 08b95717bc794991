import Verif.Args.LemmasOrder
/-! # Lemmas: the parser refines the specification -/
namespace Verif.Args

/-- The cursor after the given command words. -/
def cursorOf (S : List Command) (words : Path) : Cursor := (anchor S words).map (⟨·, words.length⟩)

theorem anchor_nil (S : List Command) : anchor S [] = if S.isEmpty then none else some 0 := by
  cases S with
  | nil => rfl
  | cons c S => simp [anchor, List.findIdx?_cons]

theorem cursor_with_eq (sc : Schema) : Cursor_with sc = cursorOf sc.cmds [] := by
  rw [cursorOf, anchor_nil, Cursor_with]
  split <;> rfl

/-- Words the parser can have seen: the beginning of a registered path, or nothing. -/
def Reach (S : List Command) (words : Path) : Prop := words = [] ∨ Extends S words = true

theorem key_eq {sc : Schema} {words : Path} (hr : Reach sc.cmds words) :
    key sc (cursorOf sc.cmds words) = some words := by
  rw [cursorOf]
  cases ha : anchor sc.cmds words with
  | none =>
    rw [anchor_none] at ha
    rcases hr with rfl | hr
    · rfl
    · rw [hr] at ha; cases ha
  | some i =>
    obtain ⟨⟨c, hc, hp⟩, _⟩ := anchor_some.mp ha
    simp only [Option.map_some, key, hc, Option.bind_eq_bind, Option.bind_some]
    rw [if_pos hp.length_le]
    rw [← List.prefix_iff_eq_take.mp hp]

theorem selected_none_of_anchor {S : List Command} {words : Path} (h : anchor S words = none) :
    selected S words = none := by
  rw [anchor_none, Extends, List.any_eq_false] at h
  rw [selected, List.findIdx?_eq_none_iff]
  intro c hc
  rw [Bool.eq_false_iff]
  intro he
  rw [beq_iff_eq] at he
  exact h c hc (by rw [he, List.isPrefixOf_iff_prefix]; exact List.prefix_refl _)

theorem command_eq {sc : Schema} (hs : Sorted sc.cmds) (words : Path) :
    command sc (cursorOf sc.cmds words) = some (selected sc.cmds words) := by
  rw [cursorOf]
  cases ha : anchor sc.cmds words with
  | none => simp [command, selected_none_of_anchor ha]
  | some i =>
    obtain ⟨⟨c, hci, hp⟩, _⟩ := anchor_some.mp ha
    simp only [Option.map_some, command, hci, Option.bind_eq_bind, Option.bind_some]
    rw [selected_anchor hs ha hci]

theorem nearest_none_of_empty {words : Path} : nearest [] words = none := by
  simp [nearest, selected, lastBelow]

theorem command_or_up_eq {sc : Schema} (hc : Compiled sc) {words : Path} (hr : Reach sc.cmds words) :
    command_or_up sc (cursorOf sc.cmds words) = some (nearest sc.cmds words) := by
  rw [cursorOf]
  cases ha : anchor sc.cmds words with
  | none =>
    have : sc.cmds = [] := by
      rcases hr with rfl | hr
      · rw [anchor_nil] at ha
        cases hS : sc.cmds with
        | nil => rfl
        | cons c S => rw [hS] at ha; simp at ha
      · rw [anchor_none, hr] at ha; cases ha
    rw [this, nearest_none_of_empty]; rfl
  | some i =>
    obtain ⟨⟨c, hci, hp⟩, _⟩ := anchor_some.mp ha
    have hi : i < sc.cmds.length := (List.getElem?_eq_some_iff.mp hci).1
    simp only [Option.map_some, command_or_up, hci, Option.bind_eq_bind, Option.bind_some, up_from]
    rw [nearest_anchor hc.sorted ha hci, hc.ups i hi]
    split <;> rfl

theorem contextAt_eq {sc : Schema} (hc : Compiled sc) {words : Path} (hr : Reach sc.cmds words) (c : Nat) :
    contextAt sc (cursorOf sc.cmds words) c = some ((nearest sc.cmds words).getD c) := by
  rw [contextAt, command_or_up_eq hc hr]; rfl

theorem backUp_eq {sc : Schema} (hs : Sorted sc.cmds) (k : Path) (name : Bytes) (i : Nat) (c : Command)
    (hi : sc.cmds[i]? = some c) (hp : k ++ [name] <+: c.path) :
    backUp sc k name i = anchor sc.cmds (k ++ [name]) := by
  induction i generalizing c with
  | zero =>
    rw [backUp]; symm
    rw [anchor_some]
    exact ⟨⟨c, hi, hp⟩, fun j _ hj => by omega⟩
  | succ i ih =>
    have hlt : i + 1 < sc.cmds.length := (List.getElem?_eq_some_iff.mp hi).1
    obtain ⟨d, hd⟩ : ∃ d, sc.cmds[i]? = some d := ⟨sc.cmds[i]'(by omega), List.getElem?_eq_getElem _⟩
    rw [backUp, hd]
    simp only [Option.bind_eq_bind, Option.bind_some]
    by_cases he : compare_prefix d.path k name = .eq
    · rw [if_pos he]
      rw [compare_prefix_eq, prefixCmp_eq_iff] at he
      exact ih d hd he
    · rw [if_neg he]
      rw [compare_prefix_eq, prefixCmp_eq_iff] at he
      symm; rw [anchor_some]
      refine ⟨⟨c, hi, hp⟩, fun j e hj hje hpe => he ?_⟩
      exact hs.contiguous hje hd hi (by omega) (by omega) hpe hp

/-- `enter` succeeds exactly if some registered path continues with the word, and moves to the first such. -/
theorem enter_eq (se : Searcher) {sc : Schema} (hs : Sorted sc.cmds) {words : Path} (hr : Reach sc.cmds words)
    (name : Bytes) :
    enter se sc (cursorOf sc.cmds words) name =
      some (if Extends sc.cmds (words ++ [name]) then some (cursorOf sc.cmds (words ++ [name])) else none) := by
  rw [enter, key_eq hr]
  simp only [Option.bind_eq_bind, Option.bind_some]
  have hpart := hs.partitioned (words ++ [name])
  have hf : (fun c : Command => compare_prefix c.path words name) = fun c => prefixCmp (words ++ [name]) c.path := by
    funext c; rw [compare_prefix_eq]
  rw [hf]
  cases hrun : se.run (fun c : Command => prefixCmp (words ++ [name]) c.path) sc.cmds with
  | none =>
    have hm := se.missing _ _ hpart hrun
    have : Extends sc.cmds (words ++ [name]) = false := by
      rw [Extends, List.any_eq_false]
      intro c hcm hp
      rw [List.isPrefixOf_iff_prefix] at hp
      exact hm c hcm ((prefixCmp_eq_iff _ _).mpr hp)
    rw [this]; rfl
  | some i =>
    obtain ⟨c, hi, he⟩ := se.found _ _ _ hpart hrun
    rw [prefixCmp_eq_iff] at he
    have hx : Extends sc.cmds (words ++ [name]) = true := by
      rw [Extends, List.any_eq_true]
      exact ⟨c, List.mem_of_getElem? hi, List.isPrefixOf_iff_prefix.mpr he⟩
    simp only [hx, if_true]
    rw [backUp_eq hs words name i c hi he]
    cases ha : anchor sc.cmds (words ++ [name]) with
    | none => rw [anchor_none, hx] at ha; cases ha
    | some j =>
      simp [cursorOf, ha]

/-! ## Flag lookup -/

theorem flag_partitioned (name : Bytes) (fs : List Flag)
    (h : fs.Pairwise fun a b => cmpStr a.name b.name ≠ .gt) :
    Partitioned (fun fl : Flag => cmpStr fl.name name) fs := by
  refine List.Pairwise.imp ?_ h
  intro a b hab
  have hle : (cmpStr a.name b.name).isLE := by
    revert hab; cases cmpStr a.name b.name <;> simp
  constructor
  · intro hb; exact Std.TransCmp.lt_of_isLE_of_lt (cmp := cmpStr) hle hb
  · intro ha
    have : cmpStr name a.name = .lt := Std.OrientedCmp.lt_of_gt (cmp := cmpStr) ha
    exact Std.OrientedCmp.gt_of_lt (cmp := cmpStr) (Std.TransCmp.lt_of_lt_of_isLE (cmp := cmpStr) this hle)

/-- What the loop of `find_flag` returns. -/
theorem findLoop_spec (se : Searcher) {sc : Schema} (hc : Compiled sc) (name : Bytes) (i fuel : Nat)
    (hf : i < fuel) (a : Command) (hi : sc.cmds[i]? = some a) :
    ∃ r, findLoop se sc name fuel (some i) = some r ∧
      match r with
      | none => ∀ j c, j ≤ i → sc.cmds[j]? = some c → c.path <+: a.path → hasFlag name c = false
      | some (j, f) => ∃ c fl, sc.cmds[j]? = some c ∧ j ≤ i ∧ c.path <+: a.path ∧ c.flags[f]? = some fl ∧
          fl.name = name ∧
          ∀ k d, j < k → k ≤ i → sc.cmds[k]? = some d → d.path <+: a.path → hasFlag name d = false := by
  induction i using Nat.strongRecOn generalizing fuel a with
  | ind i ih =>
    obtain ⟨f, rfl⟩ : ∃ f, fuel = f + 1 := ⟨fuel - 1, by omega⟩
    have hilt : i < sc.cmds.length := (List.getElem?_eq_some_iff.mp hi).1
    have hpart := flag_partitioned name a.flags (hc.flags a (List.mem_of_getElem? hi))
    rw [findLoop, hi]
    simp only [Option.bind_eq_bind, Option.bind_some]
    cases hrun : se.run (fun fl : Flag => cmpStr fl.name name) a.flags with
    | some v =>
      obtain ⟨fl, hfl, he⟩ := se.found _ _ _ hpart hrun
      refine ⟨some (i, v), rfl, a, fl, hi, Nat.le_refl _, List.prefix_refl _, hfl,
        Std.LawfulEqCmp.eq_of_compare he, ?_⟩
      intro k d h1 h2; omega
    | none =>
      have hm := se.missing _ _ hpart hrun
      have hno : hasFlag name a = false := by
        rw [hasFlag, List.any_eq_false]
        intro fl hfl he
        rw [beq_iff_eq] at he
        exact hm fl hfl (by rw [he]; exact Std.ReflCmp.compare_self (cmp := cmpStr))
      simp only
      rw [up_from, hc.ups i hilt]
      simp only [Option.bind_some]
      have hup : upSpec sc.cmds i = lastBelow sc.cmds (fun d => d.path.isPrefixOf a.path) i := by
        rw [upSpec, hi]
      cases hu : upSpec sc.cmds i with
      | none =>
        refine ⟨none, by cases f <;> rfl, ?_⟩
        intro j c hj hcj hp
        rw [hup, lastBelow_none] at hu
        rcases Nat.lt_or_eq_of_le hj with hj | hj
        · have := hu j c hj hcj
          rw [Bool.eq_false_iff] at this
          exact absurd (List.isPrefixOf_iff_prefix.mpr hp) this
        · subst hj; cases hcj.symm.trans hi; exact hno
      | some v =>
        rw [hup, lastBelow_some] at hu
        obtain ⟨hvi, ⟨cv, hcv, hpv⟩, hmax⟩ := hu
        rw [List.isPrefixOf_iff_prefix] at hpv
        obtain ⟨r, hr, hspec⟩ := ih v hvi f (by omega) cv hcv
        refine ⟨r, hr, ?_⟩
        have hskip : ∀ k d, v < k → k ≤ i → sc.cmds[k]? = some d → d.path <+: a.path → hasFlag name d = false := by
          intro k d h1 h2 hd hp
          rcases Nat.lt_or_eq_of_le h2 with h2 | h2
          · have := hmax k d h1 h2 hd
            rw [Bool.eq_false_iff] at this
            exact absurd (List.isPrefixOf_iff_prefix.mpr hp) this
          · subst h2; cases hd.symm.trans hi; exact hno
        have hdown : ∀ k d, k ≤ v → sc.cmds[k]? = some d → d.path <+: a.path → d.path <+: cv.path := by
          intro k d hk hd hp
          exact hc.sorted.contiguous hd hcv hi hk (by omega) (List.prefix_refl _) hp
        match r, hspec with
        | none, hspec =>
          intro j c hj hcj hp
          by_cases hjv : j ≤ v
          · exact hspec j c hjv hcj (hdown j c hjv hcj hp)
          · exact hskip j c (by omega) hj hcj hp
        | some (j, g), hspec =>
          obtain ⟨c, fl, h1, h2, h3, h4, h5, h6⟩ := hspec
          refine ⟨c, fl, h1, by omega, h3.trans hpv, h4, h5, ?_⟩
          intro k d hk1 hk2 hd hp
          by_cases hkv : k ≤ v
          · exact h6 k d hk1 hkv hd (hdown k d hkv hd hp)
          · exact hskip k d (by omega) hk2 hd hp

/-- The flag that a name means after the given words. -/
def codeFind (se : Searcher) (sc : Schema) (words : Path) (name : Bytes) : Option (Nat × Nat) :=
  (find_flag se sc (cursorOf sc.cmds words) name).getD none

theorem find_flag_eq (se : Searcher) {sc : Schema} (hc : Compiled sc) (words : Path) (name : Bytes) :
    find_flag se sc (cursorOf sc.cmds words) name = some (codeFind se sc words name) := by
  have : ∃ r, find_flag se sc (cursorOf sc.cmds words) name = some r := by
    rw [find_flag, cursorOf]
    cases ha : anchor sc.cmds words with
    | none => exact ⟨none, rfl⟩
    | some i =>
      obtain ⟨⟨c, hci, _⟩, _⟩ := anchor_some.mp ha
      have hi : i < sc.cmds.length := (List.getElem?_eq_some_iff.mp hci).1
      obtain ⟨r, hr, _⟩ := findLoop_spec se hc name i (sc.cmds.length + 1) (by omega) c hci
      exact ⟨r, hr⟩
  obtain ⟨r, hr⟩ := this
  rw [codeFind, hr]; rfl

theorem codeFind_lookup (se : Searcher) {sc : Schema} (hc : Compiled sc) :
    FlagLookup sc.cmds (codeFind se sc) := by
  refine ⟨?_, fun words name h => by rw [codeFind, find_flag, cursorOf, h]; rfl⟩
  intro words name i a hi ha
  have hlt : i < sc.cmds.length := (List.getElem?_eq_some_iff.mp ha).1
  obtain ⟨r, hr, hs⟩ := findLoop_spec se hc name i (sc.cmds.length + 1) (by omega) a ha
  have : codeFind se sc words name = r := by
    rw [codeFind, find_flag, cursorOf, hi]
    simp only [Option.map_some]
    rw [hr]; rfl
  rw [this]
  exact hs

/-- A flag that was found exists. -/
theorem codeFind_exists (se : Searcher) {sc : Schema} (hc : Compiled sc) {words : Path} {name : Bytes}
    {c f : Nat} (h : codeFind se sc words name = some (c, f)) :
    ∃ fl, (sc.cmds[c]?.bind fun cm => cm.flags[f]?) = some fl ∧ modeOf sc.cmds (c, f) = fl.mode := by
  cases ha : anchor sc.cmds words with
  | none =>
    rw [codeFind, cursorOf, ha] at h
    cases h
  | some i =>
    obtain ⟨⟨a, hai, _⟩, _⟩ := anchor_some.mp ha
    have := (codeFind_lookup se hc).1 words name i a ha hai
    rw [h] at this
    obtain ⟨cm, fl, h1, _, _, h4, _⟩ := this
    refine ⟨fl, by rw [h1]; exact h4, ?_⟩
    rw [modeOf]
    simp only [h1, Option.bind_some, h4]
    rfl

/-! ## Shape of an argument -/

theorem splitEq_none (l : Bytes) (h : (0x3d : UInt8) ∉ l) : splitEq l = none := by
  induction l with
  | nil => rfl
  | cons b l ih =>
    rw [List.mem_cons, not_or] at h
    rw [splitEq, if_neg (fun e => h.1 e.symm), ih h.2]; rfl

theorem splitEq_some (a b : Bytes) (h : (0x3d : UInt8) ∉ a) : splitEq (a ++ 0x3d :: b) = some (a, b) := by
  induction a with
  | nil => rfl
  | cons c a ih =>
    rw [List.mem_cons, not_or] at h
    rw [List.cons_append, splitEq, if_neg (fun e => h.1 e.symm), ih h.2]; rfl

theorem split_at_eq (l : Bytes) (h : (0x3d : UInt8) ∈ l) :
    ∃ b, l = l.takeWhile (· ≠ 0x3d) ++ 0x3d :: b ∧ (0x3d : UInt8) ∉ l.takeWhile (· ≠ 0x3d) := by
  induction l with
  | nil => cases h
  | cons c l ih =>
    by_cases hc : c = 0x3d
    · subst hc; exact ⟨l, by simp, by simp⟩
    · have : (0x3d : UInt8) ∈ l := by
        rcases List.mem_cons.mp h with h | h
        · exact absurd h.symm hc
        · exact h
      obtain ⟨b, hb, hn⟩ := ih this
      rw [List.takeWhile_cons_of_pos (by simpa using hc)]
      refine ⟨b, ?_, ?_⟩
      · rw [List.cons_append, ← hb]
      · rw [List.mem_cons, not_or]; exact ⟨fun e => hc e.symm, hn⟩

/-- What the parser's decoding yields for an argument of the given shape. -/
def ShapeOk (arg : Bytes) (sh : Shape) : Prop :=
    match sh with
    | .terminator => split_flag arg = some ([], false, none)
    | .long n v => split_flag arg = some (n, false, v) ∧ ¬ (n = [] ∧ v = none)
    | .badName => ∃ x, split_flag arg = some (x, true, none)
    | .shorts => split_flag arg = none ∧ (decide (2 ≤ arg.length) && arg.head? == some 0x2d) = true
    | .word => split_flag arg = none ∧ (decide (2 ≤ arg.length) && arg.head? == some 0x2d) = false

/-- The parser's decoding of an argument is the specification's. -/
theorem split_flag_eq (arg : Bytes) : ShapeOk arg (shape arg) := by
  unfold shape
  split
  · rename_i rest
    have hv : validUpTo (0x2d :: 0x2d :: rest) = validUpTo rest + 2 := by
      rw [validUpTo_ascii_cons _ (by decide), validUpTo_ascii_cons _ (by decide)]; omega
    have hsp : split_flag (0x2d :: 0x2d :: rest) =
        some (match splitEq (rest.take (validUpTo rest)) with
        | none => (rest.take (validUpTo rest), !isUtf8 rest, none)
        | some (before, _) => (before, false, some (rest.drop (before.length + 1)))) := by
      have hu : isUtf8 (0x2d :: 0x2d :: rest) = isUtf8 rest := by
        rw [isUtf8, isUtf8, hv, Bool.eq_iff_iff]; simp
      rw [split_flag, hv, hu]
      simp only [List.take_succ_cons, sDD, stripPrefix, if_true, Option.map_some]
      cases splitEq (List.take (validUpTo rest) rest) with
      | none => rfl
      | some x =>
        obtain ⟨x, y⟩ := x
        simp only
        rw [show 2 + x.length + 1 = (x.length + 1) + 1 + 1 by omega, List.drop_succ_cons, List.drop_succ_cons]
    simp only []
    by_cases hm : (0x3d : UInt8) ∈ rest
    · obtain ⟨b, hb, hn⟩ := split_at_eq rest hm
      have hva := validUpTo_append_ascii 0x3d (by decide) (rest.takeWhile (· ≠ 0x3d)) b
      rw [← hb] at hva
      rw [if_pos hm]
      generalize rest.takeWhile (· ≠ 0x3d) = a at *
      have hdrop : rest.drop (a.length + 1) = b := by
        rw [hb, show a ++ 0x3d :: b = (a ++ [0x3d]) ++ b by simp]
        rw [List.drop_left' (by simp)]
      cases hu : isUtf8 a with
      | true =>
        have hu' : validUpTo a = a.length := by simpa [isUtf8] using hu
        rw [if_pos hu'] at hva
        have htake : rest.take (validUpTo rest) = a ++ 0x3d :: b.take (validUpTo b) := by
          rw [hva, hb, List.take_append]
          rw [List.take_of_length_le (by omega), show a.length + 1 + validUpTo b - a.length = validUpTo b + 1 by omega,
            List.take_succ_cons]
        rw [htake, splitEq_some _ _ hn] at hsp
        simp [ShapeOk, hsp]
      | false =>
        have hu' : validUpTo a ≠ a.length := by simpa [isUtf8] using hu
        rw [if_neg hu'] at hva
        have hle := validUpTo_le a
        have htake : rest.take (validUpTo rest) = a.take (validUpTo a) := by
          rw [hva, hb, List.take_append_of_le_length hle]
        have hnu : isUtf8 rest = false := by
          rw [isUtf8, beq_eq_false_iff_ne, hva]
          rw [hb, List.length_append]
          omega
        rw [htake, splitEq_none _ (fun hh => hn (List.mem_of_mem_take hh)), hnu] at hsp
        simp [ShapeOk, hsp]
    · have ha : rest.takeWhile (· ≠ 0x3d) = rest := by
        have := List.takeWhile_append_of_pos (p := fun x : UInt8 => decide (x ≠ 0x3d)) (l₁ := rest) (l₂ := []) (by
          intro x hx
          simp only [decide_eq_true_eq]
          intro e; subst e; exact hm hx)
        simpa using this
      rw [splitEq_none _ (fun hh => hm (List.mem_of_mem_take hh))] at hsp
      rw [if_neg hm, ha]
      cases hu : isUtf8 rest with
      | true =>
        have hu' : validUpTo rest = rest.length := by simpa [isUtf8] using hu
        rw [hu', List.take_length, hu] at hsp
        cases rest <;> simp [ShapeOk, hsp]
      | false => rw [hu] at hsp; simp [ShapeOk, hsp]
  · rename_i x l hx
    refine ⟨?_, by simp⟩
    rw [split_flag]
    have : stripPrefix sDD (List.take (validUpTo (0x2d :: x :: l)) (0x2d :: x :: l)) = none := by
      rw [validUpTo_ascii_cons _ (by decide), Nat.add_comm 1, List.take_succ_cons]
      cases hv : validUpTo (x :: l) with
      | zero => rfl
      | succ n =>
        rw [List.take_succ_cons, sDD, stripPrefix, if_pos rfl, stripPrefix, if_neg]
        intro e
        exact hx e.symm
    rw [this]; rfl
  · rename_i h1 h2
    match arg with
    | [] => exact ⟨rfl, rfl⟩
    | [x] =>
      refine ⟨?_, by simp⟩
      rw [split_flag]
      have : stripPrefix sDD (List.take (validUpTo [x]) [x]) = none := by
        cases validUpTo [x] with
        | zero => rfl
        | succ n =>
          rw [List.take_succ_cons, sDD, stripPrefix]
          split <;> simp [stripPrefix]
      rw [this]; rfl
    | x :: y :: l =>
      have hx : x ≠ 0x2d := by
        intro e; subst e
        exact h2 y l rfl
      refine ⟨?_, by simp [hx]⟩
      rw [split_flag]
      have : stripPrefix sDD (List.take (validUpTo (x :: y :: l)) (x :: y :: l)) = none := by
        cases validUpTo (x :: y :: l) with
        | zero => rfl
        | succ n => rw [List.take_succ_cons, sDD, stripPrefix, if_neg (fun e => hx e.symm)]
      rw [this]; rfl

end Verif.Args
