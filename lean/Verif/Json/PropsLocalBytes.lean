import Verif.Json.LemmasLocalBytes
/-! # Damage to a JSON text stays where it is, also in streams: properties

`Reads text toks left` says that some stream brings `text`, `pop` is called until it asks for more, `toks` are reported, and `left` is what the stream
still holds. By C45 what is reported and left is the same for all streams and all ways to call `pop`. -/
namespace Verif.Json.Bytes

/-- A text that is read until more is asked for, the tokens that are reported, and what is left in the stream. -/
def Reads (text : List UInt8) (toks : List Token) (left : List UInt8) : Prop :=
  ∃ (σ : Type) (R : Reader σ) (view : σ → List UInt8) (st : σ) (d : Dec), Faithful R view ∧ History R view text toks true st d ∧ view st = left

/-- A text that does not end within a string: what is left of it does not begin with a quotation mark. -/
def Outside (text : List UInt8) : Prop := ∃ toks left, Reads text toks left ∧ left.head? ≠ some 0x22

theorem reads_cut {text : List UInt8} {toks : List Token} {left : List UInt8} (h : Reads text toks left) {ls : List Lexeme} {t : Tail}
    (hc : Cut text ls t) : toks = tokens ls t ∧ left = t.bytes := by
  obtain ⟨σ, R, view, st, d, hR, hh, rfl⟩ := h
  exact pop_reports_all hR hh hc

/-- Texts that fit a slice can be read. -/
theorem reads_any {text : List UInt8} (hl : text.length ≤ isizeMax) {ls : List Lexeme} {t : Tail} (hc : Cut text ls t) :
    Reads text (tokens ls t) t.bytes := by
  have main : ∀ n w st d toks, History slices (·.1) text toks w st d → (tokens ls t).length - toks.length = n →
      ∃ toks st d, History slices (·.1) text toks true st d := by
    intro n
    induction n with
    | zero =>
      intro w st d toks hh hn
      have hp := pop_next slices_faithful hh hc
      rcases hf : pop slices st d with ⟨st', d', fl⟩
      rw [hf] at hp
      cases fl with
      | cont tok =>
        have := hp.length_le
        simp only [List.length_append, List.length_singleton] at this
        omega
      | brk e => exact ⟨_, _, _, .more hh hf⟩
      | fault => exact hp.elim
    | succ n ih =>
      intro w st d toks hh hn
      have hp := pop_next slices_faithful hh hc
      rcases hf : pop slices st d with ⟨st', d', fl⟩
      rw [hf] at hp
      cases fl with
      | cont tok => exact ih _ _ _ _ (.token hh hf) (by simp only [List.length_append, List.length_singleton]; omega)
      | brk e => exact ⟨_, _, _, .more hh hf⟩
      | fault => exact hp.elim
  obtain ⟨toks, st, d, hh⟩ := main _ false ⟨text, hl⟩ .new [] (.start (R := slices) (view := (·.1)) ⟨text, hl⟩) rfl
  have := pop_reports_all slices_faithful hh hc
  exact ⟨_, slices, (·.1), st, d, slices_faithful, this.1 ▸ hh, this.2⟩

theorem tokens_append (ls ls' : List Lexeme) (t : Tail) : tokens (ls ++ ls') t = ls.flatMap Lexeme.tokens ++ tokens ls' t := by
  simp [tokens]

theorem lexemes_tokens {t : Tail} (h : ∀ ps p, t ≠ .string ps p) : t.lexemes.flatMap Lexeme.tokens = t.tokens ++ t.rest := by
  cases t with
  | none => rfl
  | space => rfl
  | word => rfl
  | number n => simp [Tail.lexemes, Lexeme.tokens, Tail.tokens, Tail.rest]
  | string ps p => exact absurd rfl (h ps p)

/-- C127. Whatever has been read, and whatever was wrong with it: once the stream is empty when more is asked for, all that follows is reported
as if it was alone. -/
theorem local_empty {a z : List UInt8} {toks tz toks' : List Token} {lz left' : List UInt8} (ha : Reads a toks []) (hz : Reads z tz lz)
    (h : Reads (a ++ z) toks' left') : toks' = toks ++ tz ∧ left' = lz := by
  obtain ⟨ls, t, hc⟩ := cut_total a
  obtain ⟨lz, uz, hcz⟩ := cut_total z
  obtain ⟨rfl, e⟩ := reads_cut ha hc
  obtain ⟨rfl, rfl⟩ := reads_cut hz hcz
  have ht := bytes_nil (cut_fits hc) e.symm
  obtain ⟨rfl, rfl⟩ := reads_cut h (cut_none hc ht hcz)
  subst ht
  exact ⟨by simp [tokens, Tail.tokens], rfl⟩

/-- C127. What follows a text that does not end within a string is reported as if it was alone, if it begins with punctuation or a quotation mark, or
with white space that does not continue some. The rest of the text before it is reported in one way, whatever it is that follows. -/
theorem local_streams {a : List UInt8} {toks : List Token} {left : List UInt8} (ha : Reads a toks left) (hq : left.head? ≠ some 0x22) :
    ∃ rest, (left = [] → rest = []) ∧ ∀ (b : UInt8) (z : List UInt8),
      mark b ≠ none ∨ b = 0x22 ∨ (Space b ∧ ∀ c ∈ left.head?, ¬ Space c) →
      ∀ tz lz toks' left', Reads (b :: z) tz lz → Reads (a ++ b :: z) toks' left' → toks' = toks ++ rest ++ tz ∧ left' = lz := by
  obtain ⟨ls, t, hc⟩ := cut_total a
  obtain ⟨rfl, rfl⟩ := reads_cut ha hc
  have hs := head_string (cut_fits hc) hq
  refine ⟨t.rest, ?_, ?_⟩
  · intro e; rw [bytes_nil (cut_fits hc) e]; rfl
  · intro b z hb tz lz toks' left' hz h
    obtain ⟨lz, uz, hcz⟩ := cut_total (b :: z)
    obtain ⟨rfl, rfl⟩ := reads_cut hz hcz
    obtain ⟨rfl, rfl⟩ := reads_cut h (cut_append hc hcz hs hb)
    refine ⟨?_, rfl⟩
    rw [tokens_append, List.flatMap_append, lexemes_tokens hs]
    simp [tokens]

/-! ## Lists -/

/-- The tokens of a text, and of what is left of it. -/
noncomputable def alone (e : List UInt8) : List Token :=
  tokens (Classical.choose (cut_total e)) (Classical.choose (Classical.choose_spec (cut_total e)))
    ++ (Classical.choose (Classical.choose_spec (cut_total e))).rest

/-- The cut of a text that is followed by punctuation. -/
theorem outside_cut {e : List UInt8} (h : Outside e) : ∃ le, le.flatMap Lexeme.tokens = alone e
    ∧ ∀ b z lz tz, mark b ≠ none → Cut (b :: z) lz tz → Cut (e ++ b :: z) (le ++ lz) tz := by
  obtain ⟨toks, left, hr, hq⟩ := h
  have hc := Classical.choose_spec (Classical.choose_spec (cut_total e))
  unfold alone
  revert hc
  generalize Classical.choose (Classical.choose_spec (cut_total e)) = t
  generalize Classical.choose (cut_total e) = ls
  intro hc
  obtain ⟨rfl, rfl⟩ := reads_cut hr hc
  have hs := head_string (cut_fits hc) hq
  refine ⟨ls ++ t.lexemes, ?_, fun b z lz tz hb hz => cut_append hc hz hs (.inl hb)⟩
  rw [List.flatMap_append, lexemes_tokens hs]
  simp [tokens]

/-- C127. Elements have their tokens, wherever they are: in a list of elements of which none ends within a string, each is reported as it is
before a comma without any others. -/
theorem local_list : ∃ f : List UInt8 → List Token,
    (∀ e, Outside e → ∀ toks left, Reads (e ++ [0x2c]) toks left → toks = f e ++ [.comma] ∧ left = []) ∧
    ∀ es : List (List UInt8), (∀ e ∈ es, Outside e) → ∀ toks left, Reads (0x5b :: [0x2c].intercalate es ++ [0x5d]) toks left →
      toks = .arrayOpen :: [Token.comma].intercalate (es.map f) ++ [.arrayClose] ∧ left = [] := by
  refine ⟨alone, ?_, ?_⟩
  · intro e he toks left h
    obtain ⟨le, h1, h2⟩ := outside_cut he
    obtain ⟨rfl, rfl⟩ := reads_cut h (h2 0x2c [] _ _ (by decide) (.lexeme (.mark 0x2c .comma) rfl (.tail .none trivial)))
    exact ⟨by rw [← h1]; simp [tokens, Lexeme.tokens, Tail.tokens], rfl⟩
  · intro es hes toks left h
    have key : ∀ es : List (List UInt8), (∀ e ∈ es, Outside e) → ∃ ls, Cut ([0x2c].intercalate es ++ [0x5d]) ls .none
        ∧ ls.flatMap Lexeme.tokens = [Token.comma].intercalate (es.map alone)
          ++ [.arrayClose] := by
      have last : Cut [0x5d] [.mark 0x5d .arrayClose] .none := .lexeme (.mark 0x5d .arrayClose) rfl (.tail .none trivial)
      intro es
      induction es with
      | nil => intro _; exact ⟨_, last, rfl⟩
      | cons e es ih =>
        intro hes
        obtain ⟨le, h1, h2⟩ := outside_cut (hes e (List.mem_cons_self ..))
        cases es with
        | nil =>
          refine ⟨_, by simpa [List.intercalate] using h2 0x5d [] _ _ (by decide) last, ?_⟩
          rw [List.flatMap_append, h1]
          simp [List.intercalate, Lexeme.tokens]
        | cons e' es =>
          obtain ⟨ls, c1, c2⟩ := ih (fun x hx => hes x (List.mem_cons_of_mem _ hx))
          have q := h2 0x2c _ _ _ (by decide) (.lexeme (.mark 0x2c .comma) (v := [0x2c].intercalate (e' :: es) ++ [0x5d]) rfl c1)
          refine ⟨le ++ .mark 0x2c .comma :: ls, by simpa [List.intercalate] using q, ?_⟩
          rw [List.flatMap_append, h1, List.flatMap_cons, c2]
          simp [List.intercalate, Lexeme.tokens]
    obtain ⟨ls, c1, c2⟩ := key es hes
    have c := Cut.lexeme (.mark 0x5b .arrayOpen) (v := [0x2c].intercalate es ++ [0x5d]) rfl c1
    obtain ⟨rfl, rfl⟩ := reads_cut h c
    exact ⟨by simp only [tokens, List.flatMap_cons, c2]; simp [Lexeme.tokens, Tail.tokens], rfl⟩

/-! ## The conditions are met -/

/-- Half a number, half a word, and a number. -/
theorem example_outside : Outside [0x31, 0x65] ∧ Outside [0x74, 0x72, 0x75] ∧ Outside [0x32] := by
  refine ⟨⟨_, _, reads_any (by decide) (.tail (.number ⟨[], [0x31], none, some (0x65, [], [])⟩) ?_), by decide⟩,
    ⟨_, _, reads_any (by decide) (.tail (.word [0x74, 0x72, 0x75]) ?_), by decide⟩,
    ⟨_, _, reads_any (by decide) (.tail (.number ⟨[], [0x32], none, none⟩) ?_), by decide⟩⟩
  · refine ⟨.inr (by simp), by simp, by simp; decide, by simp, ?_⟩
    intro c s e h
    cases h
    exact ⟨by decide, by simp, by simp⟩
  · exact ⟨_, _, rfl, by decide, by decide⟩
  · exact ⟨.inr (by simp), by simp, by simp; decide, by simp, by simp⟩

/-- They are reported as they are alone, in whatever list. -/
example : ∃ f : List UInt8 → List Token, ∃ toks left, Reads [0x5b, 0x31, 0x65, 0x2c, 0x74, 0x72, 0x75, 0x2c, 0x32, 0x5d] toks left
    ∧ toks = .arrayOpen :: f [0x31, 0x65] ++ .comma :: f [0x74, 0x72, 0x75] ++ .comma :: f [0x32] ++ [.arrayClose] := by
  obtain ⟨f, _, h⟩ := local_list
  obtain ⟨ls, t, hc⟩ := cut_total [0x5b, 0x31, 0x65, 0x2c, 0x74, 0x72, 0x75, 0x2c, 0x32, 0x5d]
  have hr := reads_any (by decide) hc
  refine ⟨f, _, _, hr, ?_⟩
  have q := h [[0x31, 0x65], [0x74, 0x72, 0x75], [0x32]] (by simp [example_outside]) _ _ hr
  simpa [List.intercalate] using q.1

/-- An open string keeps what follows it. -/
example : Reads [0x22, 0x61] [] [0x22, 0x61] ∧ Reads [0x22, 0x61, 0x2c] [] [0x22, 0x61, 0x2c] := by
  refine ⟨reads_any (by decide) (.tail (.string [.plain 0x61] []) ⟨⟨⟨by decide, by decide, by decide⟩, trivial⟩, ?_⟩),
    reads_any (by decide) (.tail (.string [.plain 0x61, .plain 0x2c] []) ⟨⟨⟨by decide, by decide, by decide⟩, ⟨by decide, by decide, by decide⟩, trivial⟩, ?_⟩)⟩ <;>
  exact .inl ⟨escaped [0x30, 0x30, 0x30, 0x30], _, by decide, ⟨rfl, by decide⟩, rfl⟩

end Verif.Json.Bytes
