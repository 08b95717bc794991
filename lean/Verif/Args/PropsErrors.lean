import Verif.Args.LemmasErrors
import Verif.Args.Props
/-! # Property theorems: what errors say (C116) -/
namespace Verif.Args

variable {σ R : Type}

/-- C116. Whatever is given: an error says what was given, unless it is about short flags, or about a flag with a name that is not
UTF-8. These two keep the whole argument. -/
theorem errors_name_iff (S : List Command) (find : Path → Bytes → Option (Nat × Nat)) (words : Path) (cmds flags : Bool)
    (args used : List Bytes) (e : Error) (h : .report used (.error e) ∈ items S find words cmds flags args) :
    (Names used e ↔ (∀ shorts, e ≠ .shortsUnknown shorts) ∧ ∀ a, used = [a] → e ≠ .flagUnknown a)
    ∧ (∀ shorts, e = .shortsUnknown shorts → used = [shorts] ∧ shape shorts = .shorts)
    ∧ (∀ a, used = [a] → e = .flagUnknown a → shape a = .badName) := by
  have ha := reports_are_faithful S find words cmds flags args used (.error e) h
  cases e with
  | shortsUnknown s =>
    obtain ⟨rfl, hs⟩ : used = [s] ∧ shape s = .shorts := ha
    refine ⟨⟨fun hn => ?_, fun hn => absurd rfl (hn.1 s)⟩, fun x hx => by cases hx; exact ⟨rfl, hs⟩, fun a _ hx => by cases hx⟩
    have : s = 0x2d :: s := (List.cons.inj (show [s] = [0x2d :: s] from hn)).1
    have := congrArg List.length this
    simp at this
  | flagUnknown x =>
    obtain ⟨a, rfl, hx⟩ := ha
    refine ⟨⟨fun hn => ⟨fun s hs => (by cases hs), fun a' ha' he => ?_⟩, fun hn => ?_⟩, fun s hs => (by cases hs), fun a' ha' he => ?_⟩
    · cases ha'; cases he
      obtain ⟨_, v, hv⟩ := hn
      exact not_spelled _ v (List.cons.inj hv).1
    · rcases hx with ⟨_, rfl⟩ | ⟨v, hv⟩
      · exact absurd rfl (hn.2 _ rfl)
      · obtain ⟨h1, h2⟩ := shape_long hv
        exact ⟨h1, v, by rw [h2]⟩
    · cases ha'; cases he
      rcases hx with ⟨hb, _⟩ | ⟨v, hv⟩
      · exact hb
      · exact absurd (shape_long hv).2 (not_spelled _ v)
  | flagUnexpectedToggle n =>
    obtain ⟨a, v, rfl, hv⟩ := ha
    refine ⟨⟨fun _ => ⟨fun s hs => (by cases hs), fun a' _ he => (by cases he)⟩, fun _ => ?_⟩, fun s hs => (by cases hs),
      fun a' _ he => (by cases he)⟩
    obtain ⟨h1, h2⟩ := shape_long hv
    exact ⟨h1, v, by rw [h2]⟩
  | flagUnexpectedValue n v =>
    obtain ⟨a, rfl, hv⟩ := ha
    refine ⟨⟨fun _ => ⟨fun s hs => (by cases hs), fun a' _ he => (by cases he)⟩, fun _ => ?_⟩, fun s hs => (by cases hs),
      fun a' _ he => (by cases he)⟩
    obtain ⟨h1, h2⟩ := shape_long hv
    exact ⟨h1, by rw [h2]⟩
  | flagNoValue n =>
    obtain ⟨a, rfl, hv⟩ := ha
    refine ⟨⟨fun _ => ⟨fun s hs => (by cases hs), fun a' _ he => (by cases he)⟩, fun _ => ?_⟩, fun s hs => (by cases hs),
      fun a' _ he => (by cases he)⟩
    obtain ⟨h1, h2⟩ := shape_long hv
    exact ⟨h1, by rw [h2]⟩
  | parameterUnexpected p =>
    have ha' : used = [p] := ha
    exact ⟨⟨fun _ => ⟨fun s hs => (by cases hs), fun a' _ he => (by cases he)⟩, fun _ => ha'⟩, fun s hs => (by cases hs),
      fun a' _ he => (by cases he)⟩
  | flagValueNotUtf8 _ _ => exact ha.elim
  | parameterNotUtf8 _ => exact ha.elim

/-- C116. In every run, every error that is reported is about some of the arguments that were given, in a row, and says what was
given there. Missing: short flags and flags with names that are not UTF-8, see the next theorems. -/
theorem errors_name_partial (so : Sorter) (se : Searcher) (cs : List Command) (h : σ → Event → σ × Option R) (args : List Bytes)
    (s : σ) :
    ∃ log stopped, (parse (logged h) se (compile so cs) args (s, [])).log = some (log, stopped)
      ∧ ∀ e, .error e ∈ log → ∃ before used after, args = before ++ used ++ after
        ∧ (Names used e ∨ (∃ a, used = [a] ∧ shape a = .shorts ∧ e = .shortsUnknown a)
          ∨ ∃ a, used = [a] ∧ shape a = .badName ∧ e = .flagUnknown a) := by
  obtain ⟨find, _, log, stopped, hl, rest, hr, _⟩ := reports_in_order so se cs σ R h args s
  refine ⟨log, stopped, hl, fun e he => ?_⟩
  have hm : .error e ∈ events (compile so cs).cmds (items (compile so cs).cmds find [] true true args) := by
    rw [hr]; exact List.mem_append_left _ he
  rw [events, List.mem_append] at hm
  rcases hm with hm | hm
  · obtain ⟨it, hit, hev⟩ := List.mem_filterMap.mp hm
    cases it with
    | report used e' =>
      cases hev
      obtain ⟨l1, l2, hl12⟩ := List.append_of_mem hit
      have hargs := every_argument_once (compile so cs).cmds find [] true true args
      rw [hl12, List.flatMap_append, List.flatMap_cons] at hargs
      refine ⟨l1.flatMap Item.args, used, l2.flatMap Item.args, by rw [← hargs, List.append_assoc]; rfl, ?_⟩
      obtain ⟨h1, h2, h3⟩ := errors_name_iff _ _ _ _ _ _ _ _ hit
      by_cases c1 : ∃ s, e = .shortsUnknown s
      · obtain ⟨x, hx⟩ := c1
        obtain ⟨h4, h5⟩ := h2 x hx
        exact .inr (.inl ⟨x, h4, h5, hx⟩)
      · by_cases c2 : ∃ a, used = [a] ∧ e = .flagUnknown a
        · obtain ⟨a, ha, hx⟩ := c2
          exact .inr (.inr ⟨a, ha, h3 a ha hx, hx⟩)
        · exact .inl (h1.mpr ⟨fun x hx => c1 ⟨x, hx⟩, fun a ha hx => c2 ⟨a, ha, hx⟩⟩)
    | command _ => cases hev
    | terminator => cases hev
  · unfold endEvents at hm
    split at hm
    · rw [List.mem_singleton] at hm; cases hm
    · cases hm

/-- C116, false as documented. Short flags are always reported with their leading dash: for every argument with such flags, wherever
it is given while flags are recognised, the error does not say what was given. -/
theorem shorts_with_dash (S : List Command) (find : Path → Bytes → Option (Nat × Nat)) (words : Path) (cmds : Bool) (c : UInt8)
    (letters : Bytes) (hc : c ≠ 0x2d) (rest : List Bytes) :
    (items S find words cmds true ((0x2d :: c :: letters) :: rest)).head?
        = some (.report [0x2d :: c :: letters] (.error (.shortsUnknown (0x2d :: c :: letters))))
    ∧ ¬ Names [0x2d :: c :: letters] (.shortsUnknown (0x2d :: c :: letters))
    ∧ Names [0x2d :: c :: letters] (.shortsUnknown (c :: letters)) := by
  have hs : shape (0x2d :: c :: letters) = .shorts := by
    unfold shape
    split
    · rename_i heq
      exact absurd (List.cons.inj (List.cons.inj heq).2).1 hc
    · rfl
    · rename_i h1 h2
      exact absurd rfl (h2 c letters)
  refine ⟨?_, fun h => ?_, rfl⟩
  · rw [items, if_pos rfl, hs]
    rfl
  · have := congrArg List.length (List.cons.inj (show [0x2d :: c :: letters] = [0x2d :: 0x2d :: c :: letters] from h)).1
    simp at this

/-- C116, false, though the documentation does not say otherwise. A flag with a name that is not UTF-8 is always reported with its dashes, and with its value if it has
one. -/
theorem bad_name_whole (S : List Command) (find : Path → Bytes → Option (Nat × Nat)) (words : Path) (cmds : Bool) (name : Bytes)
    (value : Option Bytes) (hn : isUtf8 name = false) (he : (0x3d : UInt8) ∉ name) (rest : List Bytes) :
    (items S find words cmds true (spelled name value :: rest)).head?
        = some (.report [spelled name value] (.error (.flagUnknown (spelled name value))))
    ∧ ¬ Names [spelled name value] (.flagUnknown (spelled name value))
    ∧ Names [spelled name value] (.flagUnknown name) := by
  have ht : ∀ v : Bytes, (name ++ 0x3d :: v).takeWhile (· ≠ 0x3d) = name := by
    intro v
    clear hn
    induction name with
    | nil => rfl
    | cons a l ih =>
      rw [List.mem_cons, not_or] at he
      rw [List.cons_append, List.takeWhile_cons, if_pos (by simpa using Ne.symm he.1), ih he.2]
  have hs : shape (spelled name value) = .badName := by
    cases value with
    | none =>
      show shape (0x2d :: 0x2d :: name) = _
      rw [shape]
      simp only [takeWhile_whole name he, hn]
      rfl
    | some v =>
      show shape (0x2d :: 0x2d :: (name ++ 0x3d :: v)) = _
      rw [shape]
      simp only [ht v, hn]
      rfl
  refine ⟨?_, fun h => ?_, he, value, rfl⟩
  · rw [items, if_pos rfl, hs]
    rfl
  · obtain ⟨_, v, hv⟩ := h
    exact not_spelled _ v (List.cons.inj hv).1

/-! ## Examples -/

/-- `errors_name_partial`: an unknown flag with a value, one that takes none, and a parameter. -/
example : (match parse record linearSearcher (compile insertSorter demo)
      [b "remote", b "--bad=x=y", b "--no-help", b "--verbose=1", b "-v", b "--url"] [] with
    | .ok l _ => some l
    | _ => none)
    = some [.error (.flagUnknown (b "bad")), .error (.flagUnexpectedToggle (b "no-help")), .error (.flagUnexpectedValue (b "verbose") (b "1")),
        .error (.shortsUnknown (b "-v")), .error (.flagUnknown (b "url")), .parameter 1 none]
    ∧ b "--bad=x=y" = spelled (b "bad") (some (b "x=y")) := by decide +kernel

/-- `bad_name_whole` on a run: the name is not UTF-8, the error has the dashes and the value. -/
example : (match parse record linearSearcher (compile insertSorter demo) [[0x2d, 0x2d, 0xff, 0x3d, 0x31]] [] with
    | .ok l _ => some l
    | _ => none) = some [.error (.flagUnknown [0x2d, 0x2d, 0xff, 0x3d, 0x31]), .parameter 0 none]
    ∧ isUtf8 [0xff] = false ∧ spelled [0xff] (some [0x31]) = [0x2d, 0x2d, 0xff, 0x3d, 0x31] := by decide +kernel

end Verif.Args
