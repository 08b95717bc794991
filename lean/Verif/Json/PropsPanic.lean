import Verif.Json.SpecPanic
import Verif.Json.LemmasPanic
import Verif.Json.PropsToken
import Verif.Text.ModelUncaught
/-! # Property theorems: report handlers that panic (C110) -/
namespace Verif.Json

variable {ρ R : Type} {fl : BitVec 32} {t : Tokenizer}

theorem all_point {H : ReportU ρ R} {u : Tokenizer} : ∀ {l : List (Ev × Tokenizer)} {s s' : ρ}, H.all s l = (s', .panic u) → ∃ e, (e, u) ∈ l
  | [], s, s', h => by cases h
  | (e, t) :: l, s, s', h => by
    unfold ReportU.all at h
    split at h
    · obtain ⟨e', he⟩ := all_point h
      exact ⟨e', List.mem_cons_of_mem _ he⟩
    · cases h
    · cases h
      exact ⟨e, List.mem_cons_self⟩

/-- What a push comes to. -/
theorem pushU_cases (hi : Inv t) (H : ReportU ρ R) (s : ρ) (ch : Option Char) :
    (∃ s' r, t.pushU H s ch = (.withFlags t.flags, s', .brk r))
    ∨ (∃ s' e u, t.pushU H s ch = (u, s', .handler) ∧ (e, u) ∈ (t.advanceU ch).pts ∧ Inv u ∧ u.flags = t.flags)
    ∨ (∃ s' t', t.pushU H s ch = (t', s', .cont t'.status) ∧ (t.advanceU ch).res = some t' ∧ Inv t' ∧ t'.flags = t.flags
        ∧ (ch = none → t' = .withFlags t.flags)) := by
  obtain ⟨⟨t', h1, h2, h3, h4⟩, h5⟩ := sound_advance hi ch
  unfold Tokenizer.pushU
  simp only []
  rcases hH : H.all s (t.advanceU ch).pts with ⟨s', x⟩
  cases x with
  | all => rw [h1]; exact .inr (.inr ⟨s', t', rfl, rfl, h2, h3, h4⟩)
  | brk r => exact .inl ⟨s', r, rfl⟩
  | panic u =>
    obtain ⟨e, he⟩ := all_point hH
    exact .inr (.inl ⟨s', e, u, rfl, he, h5 _ he⟩)

theorem reachableU_inv (h : ReachableU fl t) : Inv t ∧ t.flags = fl := by
  induction h with
  | new => exact ⟨⟨rfl, rfl, rfl⟩, rfl⟩
  | push H t s ch _ ih =>
    rcases pushU_cases ih.1 H s ch with ⟨s', r, hp⟩ | ⟨s', e, u, hp, _, hu, hf⟩ | ⟨s', t', hp, _, hu, hf, _⟩
    · rw [hp]; exact ⟨⟨rfl, rfl, rfl⟩, ih.2⟩
    · rw [hp]; exact ⟨hu, hf.trans ih.2⟩
    · rw [hp]; exact ⟨hu, hf.trans ih.2⟩
  | reset t _ ih => exact ⟨⟨rfl, rfl, rfl⟩, ih.2⟩

/-- C110. However often handlers panicked before: the tokenizer itself does not panic. Each push goes on in some state, or the handler asked to stop and the
tokenizer is as new, or the handler panicked. -/
theorem never_panics (h : ReachableU fl t) (H : ReportU ρ R) (s : ρ) (ch : Option Char) :
    (∃ t' s', t.pushU H s ch = (t', s', .cont t'.status)) ∨ (∃ s' r, t.pushU H s ch = (.withFlags fl, s', .brk r))
    ∨ ∃ u s', t.pushU H s ch = (u, s', .handler) := by
  obtain ⟨hi, hf⟩ := reachableU_inv h
  rcases pushU_cases hi H s ch with ⟨s', r, hp⟩ | ⟨s', e, u, hp, _⟩ | ⟨s', t', hp, _⟩
  · exact .inr (.inl ⟨s', r, by rw [hp, hf]⟩)
  · exact .inr (.inr ⟨u, s', hp⟩)
  · exact .inl ⟨t', s', hp⟩

/-- C110. A reset makes it as new, and so does the end of a text, unless the handler panics about that. -/
theorem as_new (h : ReachableU fl t) : t.prepare = .withFlags fl
    ∧ ∀ (H : ReportU ρ R) (s : ρ), (t.pushU H s none).2.2 ≠ .handler → (t.pushU H s none).1 = .withFlags fl := by
  obtain ⟨hi, hf⟩ := reachableU_inv h
  refine ⟨by rw [← hf]; rfl, fun H s hh => ?_⟩
  rcases pushU_cases hi H s none with ⟨s', r, hp⟩ | ⟨s', e, u, hp, _⟩ | ⟨s', t', hp, _, _, _, hn⟩
  · rw [hp, hf]
  · rw [hp] at hh; exact absurd rfl hh
  · rw [hp, hn rfl, hf]

/-- C110. Its status still tells whether it is as new. -/
theorem status_told (h : ReachableU fl t) : t.status = .done ↔ t = .withFlags fl := by
  obtain ⟨hi, hf⟩ := reachableU_inv h
  constructor
  · intro hs
    rw [← hf]
    refine new_of_none hi ?_
    unfold Tokenizer.status at hs
    split at hs
    · assumption
    · cases hs
  · rintro rfl; rfl

theorem all_calm (H : Report ρ R) : ∀ (l : List (Ev × Tokenizer)) (s : ρ), H.calm.all s l
    = match H.all s (l.map (·.1)) with | (s, some r) => (s, .brk r) | (s, none) => (s, .all)
  | [], s => rfl
  | (e, t) :: l, s => by
    unfold ReportU.all
    simp only [Report.calm, List.map_cons, Report.all]
    rcases H.report s e with ⟨s', _ | r⟩
    · exact all_calm H l s'
    · rfl

/-- C110. With handlers that do not panic all is as in the model of the other properties. -/
theorem calm_same (H : Report ρ R) (t : Tokenizer) (s : ρ) (ch : Option Char) :
    t.pushU H.calm s ch = match t.push H s ch with
      | (t', s', .brk r) => (t', s', .brk r)
      | (t', s', .cont a) => (t', s', .cont a)
      | (t', s', .panic) => (t', s', .panic) := by
  unfold Tokenizer.pushU Tokenizer.push
  rw [← run_advance]
  simp only [RunU.run]
  rw [all_calm]
  generalize H.all s (List.map (fun x => x.1) (t.advanceU ch).pts) = x
  rcases x with ⟨s', _ | r⟩
  · cases (t.advanceU ch).res <;> rfl
  · rfl

/-! ## Pushing again -/

theorem failing_none : ∀ (l : List (Ev × Tokenizer)) (s : List Ev), failing.all (s, none) l = ((s ++ l.map (·.1), none), .all)
  | [], s => by rw [List.map_nil, List.append_nil]; rfl
  | (e, t) :: l, s => by
    show failing.all (s ++ [e], none) l = _
    rw [failing_none l, List.append_assoc]
    rfl

theorem failing_some : ∀ (l : List (Ev × Tokenizer)) (s : List Ev) (k : Nat), failing.all (s, some k) l
    = match l[k]? with
      | some p => ((s ++ (l.map (·.1)).take (k + 1), none), .panic p.2)
      | none => ((s ++ l.map (·.1), some (k - l.length)), .all)
  | [], s, k => by rw [List.map_nil, List.append_nil]; rfl
  | (e, t) :: l, s, 0 => rfl
  | (e, t) :: l, s, k + 1 => by
    show failing.all (s ++ [e], some k) l = _
    rw [failing_some l, List.getElem?_cons_succ]
    cases l[k]? with
    | none => simp
    | some p => simp

/-- The reports of one character. -/
def said (t : Tokenizer) (ch : Option Char) : List Ev := (t.advance ch).evs

theorem said_pts (t : Tokenizer) (ch : Option Char) : (t.advanceU ch).pts.map (·.1) = said t ch := by
  unfold said
  rw [← run_advance]
  rfl

theorem attempts_spec (ch : Option Char) : ∀ (ks : List Nat) (t : Tokenizer) (l : List Ev), Inv t → .err .stringSurrogateUnpaired ∉ said t ch →
    ∃ t' seen, attempts t l ch ks = (t', l ++ seen) ∧ (t.advance ch).res = some t' ∧ (said t ch).Sublist seen ∧ ∀ e ∈ seen, e ∈ said t ch := by
  intro ks
  induction ks with
  | nil =>
    intro t l hi _
    obtain ⟨⟨t', h1, h2, h3, h4⟩, h5⟩ := sound_advance hi ch
    have hr : (t.advance ch).res = some t' := by rw [← run_advance]; exact h1
    refine ⟨t', said t ch, ?_, hr, List.Sublist.refl _, fun _ h => h⟩
    unfold attempts Tokenizer.pushU
    simp only [failing_none, said_pts, h1]
  | cons k ks ih =>
    intro t l hi ho
    obtain ⟨⟨t', h1, h2, h3, h4⟩, h5⟩ := sound_advance hi ch
    have hr : (t.advance ch).res = some t' := by rw [← run_advance]; exact h1
    unfold attempts Tokenizer.pushU
    simp only [failing_some, said_pts]
    cases hk : (t.advanceU ch).pts[k]? with
    | none =>
      refine ⟨t', said t ch, ?_, hr, List.Sublist.refl _, fun _ h => h⟩
      simp only [h1]
    | some p =>
      simp only []
      have hm := List.mem_of_getElem? hk
      have hsaid : ∀ e ∈ (said t ch).take (k + 1), e ∈ said t ch := fun e he => List.mem_of_mem_take he
      rcases again_advance hi ch k p hk with ⟨j, hj, ha⟩ | ⟨v, _, _, hp, _⟩
      · have hs' : said p.2 ch = (said t ch).drop j := by unfold said; rw [ha]
        obtain ⟨t2, seen, e1, e2, e3, e4⟩ := ih p.2 (l ++ (said t ch).take (k + 1)) (h5 p hm).1
          (by rw [hs']; exact fun h => ho (List.mem_of_mem_drop h))
        refine ⟨t2, (said t ch).take (k + 1) ++ seen, by rw [e1, List.append_assoc], by rw [← e2, ha], ?_, ?_⟩
        · have : said t ch = (said t ch).take j ++ (said t ch).drop j := (List.take_append_drop j _).symm
          rw [hs'] at e3
          have hsub := List.Sublist.append (List.take_sublist_take_left (l := said t ch) (show j ≤ k + 1 by omega)) e3
          rw [List.take_append_drop] at hsub
          exact hsub
        · intro e he
          rcases List.mem_append.mp he with he | he
          · exact hsaid e he
          · have := e4 e he
            rw [hs'] at this
            exact List.mem_of_mem_drop this
      · refine absurd ?_ ho
        rw [← said_pts]
        exact List.mem_map.mpr ⟨p, hm, by rw [hp]⟩

theorem attemptsAll_spec : ∀ (cs : List (Char × List Nat)) (last : List Nat) (t : Tokenizer) (l evs : List Ev), Inv t → Ran t (cs.map (·.1)) evs →
    .err .stringSurrogateUnpaired ∉ evs →
    ∃ seen, attemptsAll t l (cs.map (fun c => (some c.1, c.2)) ++ [(none, last)]) = (.withFlags t.flags, l ++ seen) ∧ evs.Sublist seen ∧ ∀ e ∈ seen, e ∈ evs
  | [], last, t, l, evs, hi, hr, ho => by
    cases hr with
    | done _ _ h =>
      have hs : said t none = evs := by unfold said; rw [h]
      obtain ⟨t', seen, e1, e2, e3, e4⟩ := attempts_spec none last t l hi (by rw [hs]; exact ho)
      rw [h] at e2
      cases e2
      rw [hs] at e3 e4
      refine ⟨seen, ?_, e3, e4⟩
      show attemptsAll (attempts t l none last).1 (attempts t l none last).2 [] = _
      rw [e1]
      rfl
  | (c, ks) :: cs, last, t, l, evs, hi, hr, ho => by
    cases hr with
    | more _ _ e t1 _ es h hf hr =>
      have hs : said t (some c) = e := by unfold said; rw [h]
      obtain ⟨t', seen, e1, e2, e3, e4⟩ := attempts_spec (some c) ks t l hi (by rw [hs]; exact fun h => ho (List.mem_append_left _ h))
      rw [h] at e2
      cases e2
      have hi' : Inv t1 := by
        obtain ⟨⟨t'', h1, h2, _⟩, _⟩ := sound_advance hi (some c)
        have : (t.advance (some c)).res = some t'' := by rw [← run_advance]; exact h1
        rw [h] at this
        cases this
        exact h2
      obtain ⟨seen2, f1, f2, f3⟩ := attemptsAll_spec cs last t1 (l ++ seen) es hi' hr (fun h => ho (List.mem_append_right _ h))
      rw [hs] at e3 e4
      refine ⟨seen ++ seen2, ?_, List.Sublist.append e3 f2, fun x hx => ?_⟩
      · show attemptsAll (attempts t l (some c) ks).1 (attempts t l (some c) ks).2 _ = _
        rw [e1]
        refine f1.trans ?_
        rw [hf, List.append_assoc]
      · rcases List.mem_append.mp hx with hx | hx
        · exact List.mem_append_left _ (e4 x hx)
        · exact List.mem_append_right _ (f3 x hx)

/-- C110. Whoever pushes a character again after a panic of the handler, as often as needed, loses nothing: all reports of the text are made, in order, and no
others, but some more than once; and the tokenizer is as new in the end. That is for every text in which no half of a surrogate pair is reported. Missing: the
others (`digit_twice`). -/
theorem nothing_lost_partial (fl : BitVec 32) (text : List (Char × List Nat)) (last : List Nat)
    (ho : .err .stringSurrogateUnpaired ∉ tokens fl (text.map (·.1))) :
    ∃ seen, attemptsAll (.withFlags fl) [] (text.map (fun c => (some c.1, c.2)) ++ [(none, last)]) = (.withFlags fl, seen)
      ∧ (tokens fl (text.map (·.1))).Sublist seen ∧ ∀ e ∈ seen, e ∈ tokens fl (text.map (·.1)) := by
  have hl := tokens_lex fl (text.map (·.1))
  rw [← has_plus, ← has_zero] at hl
  obtain ⟨seen, h1, h2, h3⟩ := attemptsAll_spec text last (.withFlags fl) [] _ ⟨rfl, rfl, rfl⟩ (lex_ran hl) ho
  exact ⟨seen, h1, h2, h3⟩

example : .err .stringSurrogateUnpaired ∉ tokens 0 (([('1', []), ('.', [0]), (',', [0, 1, 0, 2])] : List (Char × List Nat)).map (·.1)) := by decide +kernel

example : attemptsAll (.withFlags 0) [] [(some '1', []), (some '.', [0]), (some ',', [0, 1, 0, 2])]
    = (.withFlags 0, [.err .numberIncomplete, .err .numberIncomplete, .tok (.number "1.".toList [1] [] [] .plus .plus),
      .err .numberIncomplete, .err .numberIncomplete, .tok (.number "1.".toList [1] [] [] .plus .plus), .tok .comma, .tok .comma]) := by decide +kernel

/-- C110, disagreement. The fourth digit of an escape sequence for half a surrogate pair is in the text of the string before that is reported, and
once more if it is pushed again after a panic: for every tokenizer in such an escape sequence, and every such digit. -/
theorem digit_twice {acc as : List Char} {x : BitVec 32} {v : Char} (hv : isHex v = true) (hx : x.toNat < 16 ^ 3)
    (ht : isTrail (16 * x.toNat + hexDigit v)) (l : List Ev) :
    attempts ⟨fl, .stringUnicode 3 x, acc, as, []⟩ l (some v) [] = (⟨fl, .string, acc ++ [v], as, []⟩, l ++ [.err .stringSurrogateUnpaired])
    ∧ attempts ⟨fl, .stringUnicode 3 x, acc, as, []⟩ l (some v) [0]
      = (⟨fl, .string, acc ++ [v] ++ [v], as, []⟩, l ++ [.err .stringSurrogateUnpaired, .err .stringSurrogateUnpaired]) := by
  obtain ⟨h1, h2⟩ := shift_lt (Nat.le_refl 3) hx (hexDigit_lt hv)
  have key : ∀ acc, Tokenizer.advanceU ⟨fl, .stringUnicode 3 x, acc, as, []⟩ (some v)
      = ⟨[(.err .stringSurrogateUnpaired, ⟨fl, .stringUnicode 3 x, acc ++ [v], as, []⟩)], some ⟨fl, .string, acc ++ [v], as, []⟩⟩ := by
    intro acc
    have hh : Tokenizer.handleU ⟨fl, .stringUnicode 3 x, acc, as, []⟩ (some v)
        = ⟨[(.err .stringSurrogateUnpaired, ⟨fl, .stringUnicode 3 x, acc ++ [v], as, []⟩)], some (⟨fl, .string, acc ++ [v], as, []⟩, none)⟩ := by
      show (if isHex v = true then Tokenizer.advanceUnicodeU ⟨fl, .stringUnicode 3 x, acc, as, []⟩ 3 x v else _) = _
      rw [if_pos hv]
      unfold Tokenizer.advanceUnicodeU
      rw [toDigit_hex hv]
      simp only []
      unfold isTrail at ht
      rw [if_neg (by omega), if_neg (by rw [h1]; omega), if_pos (by rw [h1]; omega)]
      rfl
    unfold Tokenizer.advanceU
    rw [hh]
  constructor
  · unfold attempts Tokenizer.pushU
    rw [key]
    rfl
  · unfold attempts Tokenizer.pushU
    rw [key]
    show attempts ⟨fl, .stringUnicode 3 x, acc ++ [v], as, []⟩ (l ++ [.err .stringSurrogateUnpaired]) (some v) [] = _
    unfold attempts Tokenizer.pushU
    rw [key]
    show (_, (l ++ [_]) ++ [_]) = _
    rw [List.append_assoc l]
    rfl

example : isHex '1' = true ∧ (0xdc0 : BitVec 32).toNat < 16 ^ 3 ∧ isTrail (16 * (0xdc0 : BitVec 32).toNat + hexDigit '1') := by
  refine ⟨by decide, by decide, ?_⟩; unfold isTrail; decide

/-- C110, disagreement. The text of a string is reported wrongly then. -/
theorem wrong_text : (attemptsAll (.withFlags 0) [] ((chars! "\"\\udc0").map (fun c => (some c, [])) ++ [(some '1', [0]), (some '"', [])])).2
    = [.err .stringSurrogateUnpaired, .err .stringSurrogateUnpaired, .tok (.string (chars! "\\udc011") [])]
    ∧ tokens 0 (chars! "\"\\udc01\"") = [.err .stringSurrogateUnpaired, .tok (.string (chars! "\\udc01") [])] := by
  constructor <;> decide +kernel

/-- A tokenizer after a panic that is not as new: within a number, when it was reported. It meets the hypotheses of `never_panics`, `as_new` and
`status_told`. -/
example : ∃ t, ReachableU 0 t ∧ t.state = .integerSome .plus 1 ∧ t.status = .busy :=
  ⟨_, .push failing _ ([], some 0) (some ',') (.push failing _ ([], none) (some '7') .new), by decide +kernel⟩

end Verif.Json
