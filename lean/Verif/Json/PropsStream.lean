import Verif.Json.LemmasStream
/-! # Properties of the JSON stream decoder -/
namespace Verif.Json.Stream

/-! ## What is accepted -/

/-- White space has no effect on what is accepted. -/
theorem space_ignored (toks : List Tok) : Accepts toks ↔ Accepts (strip toks) := by
  rw [accepts_ok, accepts_ok, ← ok_strip]

example : Accepts [.arrayOpen, .whitespace, .number, .arrayClose] := by unfold Accepts; decide

theorem strip_space (toks : List Tok) : Tok.whitespace ∉ strip toks := by simp [strip]

/-- Exactly this is accepted: any number of scalars, possibly followed by an array or object; those may have any number of scalars
where JSON has one array or object. (The property asks for exactly the JSON values.) -/
theorem accepts_partial (toks : List Tok) : Accepts toks ↔ ∃ ss v, strip toks = ss ++ v ∧ Scalars ss ∧ (v = [] ∨ Loose v) := by
  rw [space_ignored, accepts_ok, root_loose _ (strip_space toks)]

example : Accepts [.number, .number, .arrayOpen, .string, .objectOpen, .string, .colon, .arrayOpen, .arrayClose, .objectClose, .comma,
    .arrayOpen, .arrayClose, .arrayClose] := by unfold Accepts; decide

/-- Of the JSON values, exactly these are accepted: scalars, and those whose arrays have at most one scalar or only arrays and
objects, and whose objects are not empty and have only arrays and objects. (The property asks for all JSON values.) -/
theorem json_accepted_partial (toks : List Tok) (h : Json (strip toks)) :
    Accepts toks ↔ (∃ t, strip toks = [t] ∧ isScalar t = true) ∨ Sparse (strip toks) := by
  rw [space_ignored, accepts_ok]
  generalize strip toks = v at h
  constructor
  · intro hk
    have hk : OK ⟨.root, []⟩ v := hk
    cases h with
    | scalar t h => exact .inl ⟨t, rfl, h⟩
    | array => exact .inr .array
    | elements es he =>
      rcases elements_ok he (.inl rfl) [] [] (by rw [List.append_nil]; exact (root_open _).1.mp hk) with ⟨⟨t, rfl, ht⟩, _, _⟩ | ⟨h, _⟩
      · exact .inr (.scalar t ht)
      · exact .inr (.elements es h)
    | object => simp [OK, Dec.advance, Dec.unexpected, Dec.objectOpen] at hk
    | members ms hm =>
      exact .inr (.members ms (members_ok hm (.inl rfl) [] [] (by rw [List.append_nil]; exact (root_open _).2.mp hk)).1)
  · rintro (⟨t, rfl, ht⟩ | hs)
    · refine (scalar_step (k := none) (s' := .root) (.inr rfl) ht [] []).mpr (.inl rfl)
    · cases hs with
      | array => exact (root_open _).1.mpr ((arrayOpen_close _ _).mpr (.inr rfl))
      | scalar t ht => exact (root_open _).1.mpr ((scalar_step (.inl .open_) ht [] _).mpr ((arrayOpen_close _ _).mpr (.inr rfl)))
      | elements es he =>
        have := looseElements_ok (sparseElements_loose he) (.inl rfl) [] [] (.inr rfl)
        rw [List.append_nil] at this
        exact (root_open _).1.mpr this
      | members ms hm =>
        have := looseMembers_ok (sparseMembers_loose hm) (.inl rfl) [] [] (.inr rfl)
        rw [List.append_nil] at this
        exact (root_open _).2.mpr this

example : Json (strip [.arrayOpen, .arrayOpen, .null, .arrayClose, .whitespace, .comma, .arrayOpen, .arrayClose, .arrayClose]) :=
  .elements _ (.more [.arrayOpen, .null, .arrayClose] _ (.elements [.null] (.one _ (.scalar _ rfl))) (.one _ .array))

/-- All that is counted as sparse is JSON. -/
theorem sparse_is_json (v : List Tok) (h : Sparse v) : Json v := sparse_json h

example : Sparse [.objectOpen, .string, .colon, .arrayOpen, .arrayClose, .objectClose] := .members _ (.one [.arrayOpen, .arrayClose] .array)

/-- `[1, 2]`, `{}` and `{"a": 1}` are JSON, but are not accepted. -/
theorem json_rejected :
    ∀ v ∈ [[Tok.arrayOpen, .number, .comma, .number, .arrayClose], [.objectOpen, .objectClose], [.objectOpen, .string, .colon, .number, .objectClose]],
      Json v ∧ ¬ Accepts v := by
  intro v hv
  simp only [List.mem_cons, List.not_mem_nil, or_false] at hv
  rcases hv with rfl | rfl | rfl
  · refine ⟨.elements [.number, .comma, .number] (.more [.number] [.number] (.scalar _ rfl) (.one _ (.scalar _ rfl))), ?_⟩
    unfold Accepts; decide
  · refine ⟨.object, ?_⟩
    unfold Accepts; decide
  · refine ⟨.members [.string, .colon, .number] (.one [.number] (.scalar _ rfl)), ?_⟩
    unfold Accepts; decide

theorem json_head {v : List Tok} (h : Json v) : v.length = 1 ∨ v.head? = some .arrayOpen ∨ v.head? = some .objectOpen := by
  cases h <;> simp

theorem elements_scalar {t : Tok} {l : List Tok} (h : Elements (t :: l)) (ht : isScalar t = true) : l = [] ∨ l.head? = some .comma := by
  generalize hz : t :: l = es at h
  cases h with
  | one v hv =>
    subst hz
    rcases json_head hv with h | h | h
    · exact .inl (by simpa using h)
    · simp at h; rw [h] at ht; cases ht
    · simp at h; rw [h] at ht; cases ht
  | more v es hv he =>
    rcases json_head hv with h | h | h
    · match v, h with
      | [x], _ => rw [List.singleton_append, List.cons.injEq] at hz; rw [hz.2]; exact .inr rfl
    · match v, h with
      | x :: v, h => rw [List.cons_append, List.cons.injEq] at hz; simp at h; rw [← hz.1] at h; rw [h] at ht; cases ht
    · match v, h with
      | x :: v, h => rw [List.cons_append, List.cons.injEq] at hz; simp at h; rw [← hz.1] at h; rw [h] at ht; cases ht

/-- `1 2`, `[1 2]` and no tokens at all are not JSON, but are accepted. -/
theorem nonjson_accepted : ∀ v ∈ [[Tok.number, .number], [.arrayOpen, .number, .number, .arrayClose], []], ¬ Json v ∧ Accepts v := by
  intro v hv
  simp only [List.mem_cons, List.not_mem_nil, or_false] at hv
  rcases hv with rfl | rfl | rfl
  · refine ⟨fun h => ?_, by unfold Accepts; decide⟩
    simpa using json_head h
  · refine ⟨fun h => ?_, by unfold Accepts; decide⟩
    generalize hz : [Tok.arrayOpen, .number, .number, .arrayClose] = v at h
    cases h with
    | scalar t h => cases hz
    | array => cases hz
    | elements es h =>
      rw [List.cons.injEq] at hz
      have hz := hz.2
      have : es = [.number, .number] := by
        have := congrArg List.dropLast hz
        simpa using this.symm
      subst this
      have := elements_scalar h rfl
      simp at this
    | object => cases hz
    | members ms h => cases hz
  · refine ⟨fun h => ?_, by unfold Accepts; decide⟩
    simpa using json_head h

/-- The decoder does not accept exactly the JSON values. -/
theorem not_exact : ¬ ∀ toks, Accepts toks ↔ Json (strip toks) := fun h =>
  (json_rejected [.objectOpen, .objectClose] (by simp)).2 ((h _).mpr (json_rejected [.objectOpen, .objectClose] (by simp)).1)

/-! ## Nesting -/

/-- Whatever the tokens, a reported end of an array or object always is the end of what was reported as opened last and is not closed
yet. -/
theorem nested (toks : List Tok) : ∃ st, nest [] (Dec.new.run toks).2 = some st :=
  ⟨_, (run_nest toks .new (fun _ => rfl)).1⟩

example : (Dec.new.run [.arrayOpen, .objectClose, .objectOpen, .arrayClose, .string, .colon, .arrayOpen, .arrayClose, .objectClose]).2
    = [.arrayOpen, .error, .objectOpen, .error, .prim, .arrayOpen, .arrayClose, .objectClose] := by decide
example : nest [] [.arrayOpen, .objectOpen, .arrayClose] = none := rfl

/-- If tokens are accepted, all that was reported as opened was reported as closed. -/
theorem accepted_closed (toks : List Tok) (h : Accepts toks) : nest [] (Dec.new.run toks).2 = some [] := by
  have := (run_nest toks .new (fun _ => rfl)).1
  rw [show opened Dec.new = [] from rfl] at this
  rw [this]
  rcases h.2 with h | h <;> simp [opened, h]

example : Accepts [.objectOpen, .string, .colon, .arrayOpen, .number, .arrayClose, .objectClose] := by unfold Accepts; decide

/-- If tokens are not rejected, all that was opened was closed exactly if they are accepted. -/
theorem closed_accepted (toks : List Tok) (he : Item.error ∉ (Dec.new.run toks).2) : nest [] (Dec.new.run toks).2 = some [] ↔ Accepts toks := by
  refine ⟨fun h => ⟨he, ?_⟩, accepted_closed toks⟩
  have := (run_nest toks .new (fun _ => rfl)).1
  rw [show opened Dec.new = [] from rfl, h] at this
  cases hs : (Dec.new.run toks).1.state <;> simp [opened, hs] at this ⊢

example : Item.error ∉ (Dec.new.run [.arrayOpen, .arrayOpen, .arrayClose]).2 := by decide

/-- A rejected token leaves the decoder as it was. -/
theorem rejected_unchanged (d : Dec) (t : Tok) (h : (d.advance t).2 = some .error) : (d.advance t).1 = d := by
  obtain ⟨s, st⟩ := d
  cases s <;> cases t <;> first | rfl | simp [Dec.advance, Dec.value, Dec.goto, Dec.arrayOpen, Dec.objectOpen, Dec.arrayClose, Dec.objectClose] at h

example : ((⟨.objectColon, [.array]⟩ : Dec).advance .arrayClose).2 = some .error := rfl

/-- Hence a history with rejected tokens reports the same as one without them, apart from the errors. -/
theorem rejected_ignored (d : Dec) (t : Tok) (l : List Tok) (h : (d.advance t).2 = some .error) :
    d.run (t :: l) = ((d.run l).1, .error :: (d.run l).2) := by
  simp only [Dec.run, h, rejected_unchanged d t h]
  rfl

/-- Tokens that the tokenizer reports as errors are always rejected. -/
theorem error_rejected (d : Dec) : (d.advance .error).2 = some .error := by
  obtain ⟨s, st⟩ := d
  cases s <;> rfl

theorem run_append : ∀ (a b : List Tok) (d : Dec), d.run (a ++ b) = (((d.run a).1.run b).1, (d.run a).2 ++ ((d.run a).1.run b).2)
  | [], b, d => rfl
  | t :: a, b, d => by simp only [List.cons_append, Dec.run, run_append a b, List.append_assoc]

theorem done_stays : ∀ (toks : List Tok) (d : Dec), d.state = .rootDone → (d.run toks).1 = d ∧ ∀ i ∈ (d.run toks).2, i = .error
  | [], d, _ => ⟨rfl, fun _ h => by cases h⟩
  | t :: l, d, h => by
    obtain ⟨s, st⟩ := d
    cases h
    have h1 : ((⟨.rootDone, st⟩ : Dec).advance t).1 = ⟨.rootDone, st⟩ := by cases t <;> rfl
    have h2 : ∀ i ∈ ((⟨.rootDone, st⟩ : Dec).advance t).2, i = .error := by
      cases t <;> simp [Dec.advance, Dec.unexpected]
    obtain ⟨h3, h4⟩ := done_stays l ⟨.rootDone, st⟩ rfl
    simp only [Dec.run, h1, List.mem_append]
    refine ⟨h3, fun i hi => ?_⟩
    rcases hi with hi | hi
    · exact h2 i (by simpa using hi)
    · exact h4 i hi

/-- Once the array or object at the top was closed, nothing but errors is reported. -/
theorem after_close (a b : List Tok) (i : Item) (hi : i = .arrayClose ∨ i = .objectClose) (hl : (Dec.new.run a).2.getLast? = some i)
    (hc : nest [] (Dec.new.run a).2 = some []) : ∃ errs, (Dec.new.run (a ++ b)).2 = (Dec.new.run a).2 ++ errs ∧ ∀ e ∈ errs, e = .error := by
  rw [run_append]
  refine ⟨_, rfl, (done_stays b _ ?_).2⟩
  have hn := (run_nest a .new (fun _ => rfl)).1
  rw [show opened Dec.new = [] from rfl, hc] at hn
  have key : ∀ (a : List Tok) (d : Dec), d.state ≠ .root → (d.run a).1.state ≠ .root := by
    intro a
    induction a with
    | nil => intro d h; exact h
    | cons t a ih =>
      intro d h
      simp only [Dec.run]
      refine ih _ ?_
      obtain ⟨s, st⟩ := d
      cases s <;> cases t <;> simp_all [Dec.advance, Dec.value, Dec.unexpected, Dec.goto, Dec.arrayOpen, Dec.objectOpen, Dec.arrayClose, Dec.objectClose, leave_eq] <;>
        (match st with
        | [] => simp [back, Dec.leave]
        | .array :: st => simp [back, Dec.leave]
        | .object :: st => simp [back, Dec.leave])
  have root : ∀ (a : List Tok) (d : Dec), d.state = .root → (d.run a).1.state = .root → ∀ x ∈ (d.run a).2, x = .prim ∨ x = .error := by
    intro a
    induction a with
    | nil => intro d _ _ x hx; cases hx
    | cons t a ih =>
      intro d h h' x hx
      simp only [Dec.run, List.mem_append] at h' hx
      by_cases hs : (d.advance t).1.state = .root
      · rcases hx with hx | hx
        · obtain ⟨s, st⟩ := d
          cases h
          cases t <;> simp_all [Dec.advance, Dec.value, Dec.unexpected, Dec.arrayOpen, Dec.objectOpen]
        · exact ih _ hs h' x hx
      · exact absurd h' (key a _ hs)
  cases hs : (Dec.new.run a).1.state with
  | root =>
    exfalso
    have := root a .new rfl hs i (List.mem_of_getLast? hl)
    rcases hi with rfl | rfl <;> simp at this
  | rootDone => rfl
  | _ => simp [opened, hs] at hn

example : (Dec.new.run [.arrayOpen, .number, .arrayClose]).2.getLast? = some .arrayClose ∧ nest [] (Dec.new.run [.arrayOpen, .number, .arrayClose]).2 = some [] := by decide
example : (Dec.new.run [.arrayOpen, .number, .arrayClose, .number, .whitespace, .arrayOpen]).2 = [.arrayOpen, .prim, .arrayClose, .error, .error] := by decide

/-- Taking reports one by one gives the reports of all tokens, in order. -/
theorem pop_run : ∀ (toks : List Tok) (d : Dec),
    match (generalizing := false) d.pop toks with
    | (d', rest, some i) => d.run toks = ((d'.run rest).1, i :: (d'.run rest).2)
    | (d', rest, none) => rest = [] ∧ d.run toks = (d', [])
  | [], d => ⟨rfl, rfl⟩
  | t :: l, d => by
    have ih := pop_run l (d.advance t).1
    simp only [Dec.pop, Dec.run]
    cases h : d.advance t with
    | mk d' o =>
      rw [h] at ih
      cases o with
      | some i => rfl
      | none => exact ih

example : Dec.new.pop [.whitespace, .arrayOpen, .arrayClose] = (⟨.arrayOpen, []⟩, [.arrayClose], some .arrayOpen) := rfl

end Verif.Json.Stream
