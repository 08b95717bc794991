import Verif.Json.LemmasBuf
/-! # The memory of a JSON tokenizer, C93 -/
namespace Verif.Json

variable {fl : BitVec 32} {w : List Char} {t : Buffered}

/-- C93. The tokenizer with capacities reports and does what the tokenizer of C37 to C41 does. -/
theorem buffered_same (t : Buffered) (ch : Option Char) :
    t.tok.advance ch = ⟨(t.advance ch).evs, (t.advance ch).res.map (·.tok)⟩ := Buffered.advance_tok t ch

/-- C93. Lives go on: whatever comes next is handled, and no buffer is written beyond its capacity. -/
theorem life_goes_on (h : Life fl w t) (ch : Option Char) : ∃ evs t', t.advance ch = ⟨evs, some t'⟩ := by
  obtain ⟨e, t', ha, _⟩ := live_advance (reachable_live (life_reachable h)) ch
  rw [buffered_same] at ha
  simp only [Run.mk.injEq, Option.map_eq_some_iff] at ha
  obtain ⟨he, x, hx, _⟩ := ha
  exact ⟨e, x, by rw [← he, ← hx]⟩

/-- C93. The buffers hold nothing but the current token: no more of its text, of the string it stands for, and of its digits than has been read,
and all of that fits the capacities. -/
theorem memory_held (h : Life fl w t) :
    (bytes t.tok.acc ≤ bytes w ∧ bytes t.tok.accStr ≤ bytes w ∧ t.tok.accNum.length ≤ bytes w) ∧
      bytes t.tok.acc ≤ t.capRaw ∧ bytes t.tok.accStr ≤ t.capStr ∧ t.tok.accNum.length ≤ t.capNum := by
  obtain ⟨⟨h1, h2, h3⟩, _⟩ := life_fits h
  obtain ⟨g1, g2, g3⟩ := life_good h
  exact ⟨⟨h1, by omega, by omega⟩, g1.1, g2.1, g3.1⟩

/-- C93. The memory is bounded by the current token alone, however much has been read before: each buffer has at most twice the size of the token, or
4096 bytes if that is more. -/
theorem memory_busy (h : Life fl w t) :
    t.capRaw ≤ max 4096 (2 * bytes w) ∧ t.capStr ≤ max 4096 (2 * bytes w) ∧ t.capNum ≤ max 4096 (2 * bytes w) := by
  obtain ⟨⟨h1, h2, h3⟩, _⟩ := memory_held h
  obtain ⟨g1, g2, g3⟩ := life_good h
  have := g1.2
  have := g2.2
  have := g3.2
  omega

/-- C93. Between tokens nothing is retained: the tokenizer is as new, except for buffers of at most 4096 bytes each. -/
theorem memory_idle (h : Life fl w t) (hs : t.tok.status = .done) :
    t.tok = .withFlags fl ∧ w = [] ∧ t.capRaw ≤ 4096 ∧ t.capStr ≤ 4096 ∧ t.capNum ≤ 4096 := by
  have e := (status_done (life_reachable h)).mp hs
  have hw := (life_fits h).2 (by rw [e]; rfl)
  subst hw
  refine ⟨e, rfl, ?_⟩
  simpa [bytes] using memory_busy h

/-- C93. What counts as the current token is the end of what has been read of it and the new character, and nothing after a token. -/
theorem current_suffix (w : List Char) (c : Char) (evs : List Ev) (st : Status) :
    current w c evs st <:+ w ++ [c] ∧ (evs.any Ev.ends → (current w c evs st).length ≤ 1) := by
  unfold current
  split
  · exact ⟨⟨w ++ [c], by simp⟩, fun _ => by simp⟩
  · split
    · exact ⟨⟨w, rfl⟩, fun _ => by simp⟩
    · exact ⟨List.suffix_refl _, fun h => absurd h (by assumption)⟩

/-- C93. The buffers do grow to hold a given token in its entirety: there is no bound for all tokens. -/
theorem memory_grows (fl : BitVec 32) (n : Nat) : ∃ t, Life fl (List.replicate (n + 1) 'a') t ∧ n + 1 ≤ t.capRaw ∧ t.tok.status = .busy := by
  have key : ∀ n, ∃ t, Life fl (List.replicate (n + 1) 'a') t ∧ t.tok = ⟨fl, .keyword, List.replicate (n + 1) 'a', [], []⟩ := by
    intro n
    induction n with
    | zero =>
      exact ⟨_, .push 'a' .new (by rfl), rfl⟩
    | succ n ih =>
      obtain ⟨t, hl, ht⟩ := ih
      have ha : t.advance (some 'a') = ⟨[], some (t.raw 'a')⟩ := by
        rcases t with ⟨tok, a, b, c, m⟩
        simp only at ht
        subst ht
        rfl
      have := Life.push 'a' hl ha
      refine ⟨t.raw 'a', ?_, ?_⟩
      · have e : current (List.replicate (n + 1) 'a') 'a' [] (t.raw 'a').tok.status = List.replicate (n + 2) 'a' := by
          rw [Buffered.tok_raw, ht]
          show List.replicate (n + 1) 'a' ++ [_] = _
          rw [List.replicate_succ' (n := n + 1)]
        exact e ▸ this
      · rw [Buffered.tok_raw, ht]
        show Tokenizer.mk _ _ (List.replicate (n + 1) 'a' ++ ['a']) _ _ = _
        rw [← List.replicate_succ']
  obtain ⟨t, hl, ht⟩ := key n
  refine ⟨t, hl, ?_, by rw [ht]; rfl⟩
  have h := (memory_held hl).2.1
  rw [ht] at h
  have e : ∀ n, bytes (List.replicate n 'a') = n := by
    intro n
    induction n with
    | zero => rfl
    | succ n ih => rw [List.replicate_succ, bytes, ih]; exact Nat.add_comm 1 n
  rw [e] at h
  exact h

/-- Pushing a character, with the text computed. -/
theorem Life.pushed {t t' : Buffered} {w' : List Char} (c : Char) (evs : List Ev) (h : Life fl w t) (ha : t.advance (some c) = ⟨evs, some t'⟩)
    (hw : current w c evs t'.tok.status = w') : Life fl w' t' := hw ▸ .push c h ha

/-- A life: after a space, a string with an escape sequence has begun, and is the current token. It meets the hypotheses of `life_goes_on`, `memory_held` and
`memory_busy`. -/
example : ∃ t, Life 0 ['"', 'x', '\\', 'u'] t ∧ t.tok.state = .stringUnicode 0 0 ∧ (t.capRaw, t.capStr, t.capNum) = (8, 8, 0) := by
  have h1 : Life 0 [' '] ⟨⟨0, .whitespace, [' '], [], []⟩, 8, 0, 0, 0⟩ := .pushed (fl := 0) (t := .withFlags 0) ' ' [] .new (by rfl) rfl
  have h2 : Life 0 ['"'] ⟨⟨0, .string, [], [], []⟩, 8, 0, 0, 0⟩ := .pushed (fl := 0) '"' [.tok (.whitespace [' '])] h1 (by rfl) rfl
  have h3 : Life 0 ['"', 'x'] ⟨⟨0, .string, ['x'], ['x'], []⟩, 8, 8, 0, 0⟩ := .pushed (fl := 0) 'x' [] h2 (by rfl) rfl
  have h4 : Life 0 ['"', 'x', '\\'] ⟨⟨0, .stringEscape, ['x', '\\'], ['x'], []⟩, 8, 8, 0, 0⟩ := .pushed (fl := 0) '\\' [] h3 (by rfl) rfl
  have h5 : Life 0 ['"', 'x', '\\', 'u'] ⟨⟨0, .stringUnicode 0 0, ['x', '\\', 'u'], ['x'], []⟩, 8, 8, 0, 0⟩ :=
    .pushed (fl := 0) 'u' [] h4 (by rfl) rfl
  exact ⟨_, h5, rfl, rfl⟩

/-- A buffer of 10000 bytes is shrunk once the token is done. -/
example : (Buffered.prepare ⟨⟨0, .string, ['a'], ['a'], []⟩, 10000, 100, 0, 0⟩).capRaw = 4096 := rfl

end Verif.Json
