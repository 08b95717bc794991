import Verif.Json.SpecDecode
import Verif.Json.PropsBytes
import Verif.Json.PropsStream
namespace Verif.Json.Decode
open Verif.Io (usizeMax SFlow)
open Verif.Json.Bytes (Reader Token Lexeme Tail Cut Faithful source tokens)
open Verif.Json.Stream (Tok Item)
variable {σ : Type}

/-- Only white space, colons and commas are not reported. -/
theorem silent (d : Stream.Dec) (t : Tok) (h : (d.advance t).2 = none) : t = .whitespace ∨ t = .colon ∨ t = .comma := by
  obtain ⟨s, st⟩ := d
  cases t <;> first
    | exact .inl rfl
    | exact .inr (.inl rfl)
    | exact .inr (.inr rfl)
    | (cases s <;> cases h)

theorem space_nonempty {text : List UInt8} {ls : List Lexeme} {t : Tail} (h : Cut text ls t) {raw : List UInt8} (hm : Token.whitespace raw ∈ tokens ls t) :
    raw ≠ [] := by
  induction h with
  | tail t ht =>
    cases t with
    | number n =>
      simp only [tokens, List.flatMap_nil, List.nil_append, Tail.tokens, Bytes.Numeral.signErrors, List.mem_append] at hm
      rcases hm with (hm | hm) | hm
      · split at hm <;> simp at hm
      · split at hm <;> simp at hm
      · split at hm <;> simp at hm
    | string ps part =>
      simp [tokens, Tail.tokens, Bytes.errors] at hm
    | _ => simp [tokens, Tail.tokens] at hm
  | @lexeme l v ls t hl hc ih =>
    simp only [tokens, List.flatMap_cons, List.append_assoc, List.mem_append] at hm
    rcases hm with hm | hm
    · cases l with
      | space bs =>
        simp only [Lexeme.tokens, List.mem_singleton, Token.whitespace.injEq] at hm
        rw [hm]; exact hl.1
      | mark b t' =>
        simp only [Lexeme.tokens, List.mem_singleton] at hm
        have hl : Bytes.mark b = some t' := hl
        unfold Bytes.mark at hl
        subst hm
        split at hl <;> cases hl
      | word bs =>
        simp only [Lexeme.tokens, List.mem_singleton, Bytes.wordToken] at hm
        repeat' split at hm
        all_goals cases hm
      | number n =>
        simp only [Lexeme.tokens, Bytes.Numeral.signErrors, List.mem_append, List.mem_singleton] at hm
        rcases hm with (((hm | hm) | hm) | hm) | hm
        · split at hm <;> simp at hm
        · split at hm <;> simp at hm
        · split at hm <;> simp at hm
        · split at hm <;> simp at hm
        · cases hm
      | string ps =>
        simp only [Lexeme.tokens, Bytes.errors, Bytes.stringToken, List.mem_append, List.mem_singleton] at hm
        rcases hm with hm | hm
        · simp at hm
        · split at hm <;> cases hm
    · exact ih (by simpa only [tokens, List.mem_append] using hm)

/-- What is read but not reported is within the stream. -/
theorem unread {R : Reader σ} {view : σ → List UInt8} (hR : Faithful R view) {fed : List UInt8} {toks : List Token} {w : Bool} {st : σ} {d : Bytes.Dec}
    (h : Bytes.History R view fed toks w st d) : fed.length ≤ (toks.flatMap source).length + (view st).length := by
  obtain ⟨ls, c, toks', i, h1, h2, h3, -⟩ := Bytes.history_known hR h
  obtain ⟨ls1, t1, hc1⟩ := Bytes.cut_total (view st)
  have hc2 := h3 [] ls1 t1 (by rwa [List.append_nil])
  rw [List.append_nil] at hc2
  have e1 := congrArg List.length (Bytes.cut_source hc1)
  have e2 := congrArg List.length (Bytes.cut_source hc2)
  have ht : tokens (ls ++ ls1) t1 = ls.flatMap Lexeme.tokens ++ tokens ls1 t1 := by simp [tokens]
  rw [ht, List.flatMap_append] at e2
  rw [h2, List.flatMap_append, h1]
  simp only [List.length_append] at e1 e2 ⊢
  omega

/-- The loop of `advance`. -/
theorem advance_tokens {R : Reader σ} {view : σ → List UInt8} (hR : Faithful R view) {fed : List UInt8} : ∀ (fuel : Nat) (toks : List Token) (w : Bool) (st : σ)
    (d : Dec), Bytes.History R view fed toks w st d.tokenizer → fed.length < (toks.flatMap source).length + fuel →
    ∃ st' d' fl more, advance R fuel st d = (st', d', fl) ∧
      match fl with
      | .fault => False
      | .brk _ => Bytes.History R view fed (toks ++ more) true st' d'.tokenizer ∧ d.inner.run (more.map kind) = (d'.inner, [])
      | .cont i => Bytes.History R view fed (toks ++ more) false st' d'.tokenizer ∧ d.inner.run (more.map kind) = (d'.inner, [i]) := by
  intro fuel
  induction fuel with
  | zero =>
    intro toks w st d h hf
    have := (Bytes.sources_prefix hR h).length_le
    omega
  | succ fuel ih =>
    intro toks w st d h hf
    match hp : Bytes.pop R st d.tokenizer with
    | (st1, t1, .fault) => exact (Bytes.pop_no_panic hR h (by rw [hp])).elim
    | (st1, t1, .brk e) =>
      refine ⟨st1, { d with tokenizer := t1 }, .brk e, [], by simp [advance, advanceInner, hp], ?_, rfl⟩
      rw [List.append_nil]
      exact .more h hp
    | (st1, t1, .cont token) =>
      have h1 := Bytes.History.token h hp
      match ha : d.inner.advance (kind token) with
      | (i1, some i) =>
        exact ⟨st1, ⟨i1, t1⟩, .cont i, [token], by simp [advance, advanceInner, hp, ha], h1, by simp [Stream.Dec.run, ha]⟩
      | (i1, none) =>
        have hs : 0 < (source token).length := by
          obtain ⟨ls, t, hc⟩ := Bytes.cut_total fed
          have hm : token ∈ tokens ls t := (Bytes.pop_reports hR h1 hc).subset (by simp)
          have := silent d.inner (kind token) (by rw [ha])
          cases token <;> simp [kind] at this
          · exact List.length_pos_iff.mpr (space_nonempty hc hm)
          · exact Nat.one_pos
          · exact Nat.one_pos
        obtain ⟨st', d', fl, more, e, hm⟩ := ih (toks ++ [token]) false st1 ⟨i1, t1⟩ h1 (by
          rw [List.flatMap_append, List.length_append, List.flatMap_cons, List.flatMap_nil, List.append_nil]; omega)
        refine ⟨st', d', fl, token :: more, by simpa [advance, advanceInner, hp, ha] using e, ?_⟩
        cases fl with
        | fault => exact hm
        | brk e => exact ⟨by simpa using hm.1, by simp [Stream.Dec.run, ha, hm.2]⟩
        | cont i => exact ⟨by simpa using hm.1, by simp [Stream.Dec.run, ha, hm.2]⟩

/-- What is known after a history. -/
def Known (R : Reader σ) (view : σ → List UInt8) (fed : List UInt8) (is : List Item) (w : Bool) (st : σ) (d : Dec) : Prop :=
  ∃ toks, Bytes.History R view fed toks w st d.tokenizer ∧ Stream.Dec.new.run (toks.map kind) = (d.inner, is)

theorem known_pop {R : Reader σ} {view : σ → List UInt8} (hR : Faithful R view) {fed : List UInt8} {is : List Item} {w : Bool} {st : σ} {d : Dec}
    (h : Known R view fed is w st d) : ∃ st' d' fl, pop R st d = (st', d', fl) ∧
      match fl with
      | .fault => False
      | .brk _ => Known R view fed is true st' d'
      | .cont i => Known R view fed (is ++ [i]) false st' d' := by
  obtain ⟨toks, h1, h2⟩ := h
  have hl := unread hR h1
  have hz := hR.size st
  obtain ⟨st', d', fl, more, e, hm⟩ := advance_tokens hR usizeMax toks w st d h1 (by
    have : Bytes.isizeMax < usizeMax := by decide
    omega)
  refine ⟨st', d', fl, e, ?_⟩
  have hr : Stream.Dec.new.run ((toks ++ more).map kind) = ((d.inner.run (more.map kind)).1, is ++ (d.inner.run (more.map kind)).2) := by
    rw [List.map_append, Stream.run_append, h2]
  cases fl with
  | fault => exact hm
  | brk e => exact ⟨_, hm.1, by rw [hr, hm.2, List.append_nil]⟩
  | cont i => exact ⟨_, hm.1, by rw [hr, hm.2]⟩

theorem history_known {R : Reader σ} {view : σ → List UInt8} (hR : Faithful R view) {fed : List UInt8} {is : List Item} {w : Bool} {st : σ} {d : Dec}
    (h : History R view fed is w st d) : Known R view fed is w st d := by
  induction h with
  | start st => exact ⟨[], .start st, rfl⟩
  | arrive b h hb ih =>
    obtain ⟨toks, h1, h2⟩ := ih
    exact ⟨toks, .arrive b h1 hb, h2⟩
  | item h hp ih =>
    obtain ⟨st', d', fl, e, hm⟩ := known_pop hR ih
    rw [hp] at e; cases e
    exact hm
  | more h hp ih =>
    obtain ⟨st', d', fl, e, hm⟩ := known_pop hR ih
    rw [hp] at e; cases e
    exact hm

theorem items_prefix {toks : List Token} {ls : List Lexeme} {t : Tail} (h : toks <+: tokens ls t) :
    (Stream.Dec.new.run (toks.map kind)).2 <+: items ls t := by
  obtain ⟨r, hr⟩ := h
  unfold items kinds
  rw [← hr, List.map_append, Stream.run_append]
  exact List.prefix_append _ _

end Verif.Json.Decode
