import Verif.Json.SpecSalvage
import Verif.Json.PropsStream
import Verif.Json.LemmasDecode2
/-! # Helper lemmas: the JSON decoder has no dead ends -/
namespace Verif.Json.Salvage
open Verif.Json.Stream
open Verif.Json.Decode (report)

theorem ok_cons {d : Dec} {t : Tok} {l : List Tok} : OK d (t :: l) ↔ (d.advance t).2 ≠ some .error ∧ OK (d.advance t).1 l := Iff.rfl

theorem ok_nil {d : Dec} : OK d [] ↔ d.state = .root ∨ d.state = .rootDone := Iff.rfl

/-- From wherever something was closed, all can be closed. -/
theorem back_closes : ∀ st : List Kind, ∃ more, OK (back st) more
  | [] => ⟨[], .inr rfl⟩
  | .array :: st => by
    obtain ⟨m, h⟩ := back_closes st
    exact ⟨.arrayClose :: m, (arrayValue_close st m).mpr h⟩
  | .object :: st => by
    obtain ⟨m, h⟩ := back_closes st
    exact ⟨.objectClose :: m, (objectValue_close st m).mpr h⟩

/-- From everywhere all can be closed. -/
theorem closes (d : Dec) : ∃ more, OK d more := by
  obtain ⟨s, st⟩ := d
  obtain ⟨m, hm⟩ := back_closes st
  have hv : OK ⟨.objectValue, st⟩ (.objectClose :: m) := (objectValue_close st m).mpr hm
  have hc : OK ⟨.objectColon, st⟩ (.arrayOpen :: .arrayClose :: .objectClose :: m) := by
    rw [ok_cons]
    refine ⟨by simp [Dec.advance, Dec.arrayOpen], ?_⟩
    exact (arrayOpen_close _ _).mpr hv
  cases s with
  | root => exact ⟨[], .inl rfl⟩
  | rootDone => exact ⟨[], .inr rfl⟩
  | arrayOpen => exact ⟨_, (arrayOpen_close st m).mpr hm⟩
  | arrayValue => exact ⟨_, (arrayValue_close st m).mpr hm⟩
  | arrayComma =>
    refine ⟨.arrayOpen :: .arrayClose :: .arrayClose :: m, ?_⟩
    rw [ok_cons]
    refine ⟨by simp [Dec.advance, Dec.arrayOpen], ?_⟩
    exact (arrayOpen_close _ _).mpr ((arrayValue_close st m).mpr hm)
  | objectOpen => exact ⟨_, (objectOpen_key st _).mpr hc⟩
  | objectKey =>
    refine ⟨.colon :: .arrayOpen :: .arrayClose :: .objectClose :: m, ?_⟩
    rw [ok_cons]
    exact ⟨by simp [Dec.advance, Dec.goto], hc⟩
  | objectColon => exact ⟨_, hc⟩
  | objectValue => exact ⟨_, hv⟩
  | objectComma => exact ⟨_, (objectComma_key st _).mpr hc⟩

theorem whole_ok (toks : List Tok) : Whole toks ↔ OK .new toks := by
  rw [← accepts_ok]
  exact (accepts_partial toks).symm

theorem ok_append : ∀ (a b : List Tok) (d : Dec), OK d (a ++ b) ↔ Item.error ∉ (d.run a).2 ∧ OK (d.run a).1 b
  | [], b, d => by simp [Dec.run]
  | t :: a, b, d => by
    rw [List.cons_append, ok_cons, ok_append a b]
    simp only [Dec.run, List.mem_append, not_or, ← and_assoc]
    cases h : (d.advance t).2 with
    | none => simp
    | some i => simp only [ne_eq, Option.some.injEq, Option.toList_some, List.mem_singleton]; rw [eq_comm]

theorem viable_iff (toks : List Tok) : Viable toks ↔ Item.error ∉ (Dec.new.run toks).2 := by
  unfold Viable
  simp only [whole_ok, ok_append]
  constructor
  · rintro ⟨_, h, _⟩; exact h
  · intro h
    obtain ⟨m, hm⟩ := closes (Dec.new.run toks).1
    exact ⟨m, h, hm⟩

theorem run_snoc (a : List Tok) (t : Tok) (d : Dec) :
    d.run (a ++ [t]) = (((d.run a).1.advance t).1, (d.run a).2 ++ ((d.run a).1.advance t).2.toList) := by
  rw [run_append]
  simp [Dec.run]

theorem salvaged_run {toks kept : List Tok} (h : Salvaged toks kept) : (Dec.new.run toks).1 = (Dec.new.run kept).1
    ∧ Item.error ∉ (Dec.new.run kept).2 ∧ (Dec.new.run toks).2.filter (· ≠ .error) = (Dec.new.run kept).2
    ∧ kept.length + (Dec.new.run toks).2.count .error = toks.length ∧ kept.Sublist toks := by
  induction h with
  | nil => exact ⟨rfl, by simp [Dec.run], rfl, rfl, List.Sublist.refl _⟩
  | keep t h hv ih =>
    obtain ⟨h1, h2, h3, h4, h5⟩ := ih
    rw [viable_iff] at hv
    rw [run_snoc] at hv
    rw [run_snoc, run_snoc, h1]
    rw [List.mem_append, not_or] at hv
    refine ⟨rfl, ?_, ?_, ?_, List.Sublist.append h5 (List.Sublist.refl _)⟩
    · rw [List.mem_append, not_or]; exact hv
    · rw [List.filter_append, h3]
      congr 1
      rw [List.filter_eq_self]
      intro x hx
      simp only [ne_eq, decide_eq_true_eq]
      rintro rfl
      exact hv.2 hx
    · rw [List.count_append, List.count_eq_zero.mpr hv.2, List.length_append, List.length_append]
      simp only [List.length_singleton]
      omega
  | @drop toks kept t h hv ih =>
    obtain ⟨h1, h2, h3, h4, h5⟩ := ih
    rw [viable_iff, run_snoc] at hv
    rw [run_snoc, h1]
    have he : ((Dec.new.run kept).1.advance t).2 = some .error := by
      rw [List.mem_append, not_or] at hv
      cases h : ((Dec.new.run kept).1.advance t).2 with
      | none => rw [h] at hv; exact (hv ⟨h2, by simp⟩).elim
      | some i =>
        rw [h] at hv
        by_cases hi : i = .error
        · rw [hi]
        · exact (hv ⟨h2, by simp [Ne.symm hi]⟩).elim
    refine ⟨rejected_unchanged _ _ he, h2, ?_, ?_, h5.trans (List.sublist_append_left _ _)⟩
    · rw [he, List.filter_append, h3]; simp
    · rw [he, List.count_append, List.length_append]
      simp only [Option.toList_some, List.count_singleton_self, List.length_singleton]
      omega

theorem salvaged_total : ∀ toks : List Tok, ∃ kept, Salvaged toks kept := by
  intro toks
  generalize hr : toks.reverse = r
  induction r generalizing toks with
  | nil => rw [List.reverse_eq_nil_iff] at hr; subst hr; exact ⟨_, .nil⟩
  | cons t r ih =>
    have e : toks = r.reverse ++ [t] := by rw [← List.reverse_cons, ← hr, List.reverse_reverse]
    subst e
    obtain ⟨kept, h⟩ := ih r.reverse (List.reverse_reverse _)
    by_cases hv : Viable (kept ++ [t])
    · exact ⟨_, .keep t h hv⟩
    · exact ⟨_, .drop t h hv⟩

theorem salvaged_unique {toks kept kept' : List Tok} (h : Salvaged toks kept) (h' : Salvaged toks kept') : kept = kept' := by
  induction h generalizing kept' with
  | nil =>
    generalize hz : ([] : List Tok) = z at h'
    cases h' with
    | nil => rfl
    | keep t h hv => simp at hz
    | drop t h hv => simp at hz
  | @keep toks kept t h hv ih =>
    generalize hz : toks ++ [t] = z at h'
    cases h' with
    | nil => simp at hz
    | keep t' h' hv' =>
      obtain ⟨rfl, e⟩ := List.append_inj' hz rfl
      cases e
      rw [ih h']
    | drop t' h' hv' =>
      obtain ⟨rfl, e⟩ := List.append_inj' hz rfl
      cases e
      rw [ih h'] at hv
      exact (hv' hv).elim
  | @drop toks kept t h hv ih =>
    generalize hz : toks ++ [t] = z at h'
    cases h' with
    | nil => simp at hz
    | keep t' h' hv' =>
      obtain ⟨rfl, e⟩ := List.append_inj' hz rfl
      cases e
      rw [ih h'] at hv
      exact (hv hv').elim
    | drop t' h' hv' =>
      obtain ⟨rfl, e⟩ := List.append_inj' hz rfl
      cases e
      exact ih h'

/-! ## What items tell -/

theorem step_same (d : Dec) (t t' : Tok) (h : (d.advance t).2 = (d.advance t').2) (he : (d.advance t).2 ≠ some .error) (ht : t ≠ .whitespace)
    (ht' : t' ≠ .whitespace) : shape t = shape t' ∧ (d.advance t).1 = (d.advance t').1 := by
  obtain ⟨s, st⟩ := d
  cases s <;> cases t <;> first | (exact (he rfl).elim) | (exact (ht rfl).elim) |
    (cases t' <;> first | (exact ⟨rfl, rfl⟩) | (exact (ht' rfl).elim) | (cases h; done))

/-- If one token is reported and another one is not, then this is a comma where arrays and objects may end. -/
theorem step_other (d : Dec) (t t' : Tok) (i : Item) (h : (d.advance t).2 = none) (h' : (d.advance t').2 = some i) (ht : t ≠ .whitespace)
    (he : i ≠ .error) : (i = .arrayClose ∨ i = .objectClose) ∧ ((d.advance t).1.state = .arrayComma ∨ (d.advance t).1.state = .objectComma) := by
  obtain ⟨s, st⟩ := d
  cases s <;> cases t <;> first | (cases h; done) | (exact (ht rfl).elim) |
    (cases t' <;> first | (cases h'; exact ⟨.inl rfl, .inl rfl⟩) | (cases h'; exact ⟨.inr rfl, .inr rfl⟩) | (cases h'; exact (he rfl).elim) | (cases h'; done))

theorem after_comma (d : Dec) (l : List Tok) (i : Item) (hs : d.state = .arrayComma ∨ d.state = .objectComma) (hl : OK d l) (hw : Tok.whitespace ∉ l)
    (hi : (d.run l).2.head? = some i) : i ≠ .arrayClose ∧ i ≠ .objectClose := by
  obtain ⟨s, st⟩ := d
  cases l with
  | nil => cases hi
  | cons t l =>
    have hl := (ok_cons.mp hl).1
    simp only [Dec.run] at hi
    rcases hs with hs | hs <;> (cases hs; cases t) <;> first | (exact (hl rfl).elim) | (exact (hw (List.mem_cons_self ..)).elim) |
      (cases hi; exact ⟨nofun, nofun⟩)

theorem ok_items_nil (d : Dec) (l : List Tok) (h : OK d l) (hw : Tok.whitespace ∉ l) (hs : d.state = .root ∨ d.state = .rootDone) (hi : (d.run l).2 = []) : l = [] := by
  obtain ⟨s, st⟩ := d
  cases l with
  | nil => rfl
  | cons t l =>
    have hl := (ok_cons.mp h).1
    simp only [Dec.run] at hi
    rcases hs with hs | hs <;> (cases hs; cases t) <;> first | (exact (hl rfl).elim) | (exact (hw (List.mem_cons_self ..)).elim) | (cases hi; done)

theorem comma_clash {d : Dec} {t t' : Tok} {a b : List Tok} (h1 : (d.advance t).2 = none) {i : Item} (h2 : (d.advance t').2 = some i)
    (ha : OK d (t :: a)) (hb : OK d (t' :: b)) (hwa : Tok.whitespace ∉ t :: a) (he : (d.run (t :: a)).2 = (d.run (t' :: b)).2) : False := by
  rw [List.mem_cons, not_or] at hwa
  have hne : i ≠ .error := by
    rintro rfl
    exact (ok_cons.mp hb).1 h2
  obtain ⟨hi, hs⟩ := step_other d t t' i h1 h2 (Ne.symm hwa.1) hne
  simp only [Dec.run, h1, h2, Option.toList_none, Option.toList_some, List.nil_append] at he
  have := after_comma _ a i hs (ok_cons.mp ha).2 hwa.2 (by rw [he]; rfl)
  rcases hi with hi | hi
  · exact this.1 hi
  · exact this.2 hi

theorem items_tell_from : ∀ (a b : List Tok) (d : Dec), OK d a → OK d b → Tok.whitespace ∉ a → Tok.whitespace ∉ b → (d.run a).2 = (d.run b).2 →
    a.map shape = b.map shape
  | [], b, d, ha, hb, _, hwb, he => by
    rw [ok_items_nil d b hb hwb (ok_nil.mp ha) he.symm]
  | a, [], d, ha, hb, hwa, _, he => by
    rw [ok_items_nil d a ha hwa (ok_nil.mp hb) he]
  | t :: a, t' :: b, d, ha, hb, hwa, hwb, he => by
    by_cases h : (d.advance t).2 = (d.advance t').2
    · obtain ⟨h1, h2⟩ := step_same d t t' h (ok_cons.mp ha).1 (fun e => hwa (e ▸ List.mem_cons_self ..)) (fun e => hwb (e ▸ List.mem_cons_self ..))
      rw [List.map_cons, List.map_cons, h1]
      congr 1
      refine items_tell_from a b (d.advance t).1 (ok_cons.mp ha).2 (h2 ▸ (ok_cons.mp hb).2) (fun h => hwa (List.mem_cons_of_mem _ h))
        (fun h => hwb (List.mem_cons_of_mem _ h)) ?_
      simp only [Dec.run] at he
      rw [h, ← h2] at he
      exact List.append_cancel_left he
    · exfalso
      cases h1 : (d.advance t).2 with
      | none =>
        cases h2 : (d.advance t').2 with
        | none => exact h (h1.trans h2.symm)
        | some j => exact comma_clash h1 h2 ha hb hwa he
      | some i =>
        cases h2 : (d.advance t').2 with
        | none => exact comma_clash h2 h1 hb ha hwb he.symm
        | some j =>
          simp only [Dec.run, h1, h2, Option.toList_some, List.singleton_append, List.cons.injEq] at he
          exact h (by rw [h1, h2, he.1])

end Verif.Json.Salvage
