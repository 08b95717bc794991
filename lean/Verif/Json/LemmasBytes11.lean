import Verif.Json.LemmasBytes10
/-! # Histories of the streaming JSON tokenizer -/
namespace Verif.Json.Bytes
open Verif.Io (usizeMax More SFlow StreamImpl WhileOut scan whileLoop)
variable {σ : Type}

/-- The lexeme or tail at the beginning of a text is drained. -/
theorem first_drain (text : List UInt8) (hl : text.length ≤ isizeMax) (i : Nat) : ∃ all tf df, Drain (4 + 3 * text.length) text (start i) all tf df ∧
    ((∃ (x : Lexeme) (v : List UInt8), text = x.bytes ++ v ∧ x.fits v ∧ all = x.tokens ∧ tf = v ∧ df.done ≠ none)
      ∨ (∃ t : Tail, text = t.bytes ∧ t.fits ∧ all = t.tokens ∧ tf = t.bytes ∧ Rests t df)) := by
  obtain ⟨ls, t, hc⟩ := cut_exists text.length text (Nat.le_refl _)
  cases hc with
  | tail t h =>
    obtain ⟨df, h1, h2⟩ := run_tail t h hl i
    exact ⟨_, _, df, h1, .inr ⟨t, rfl, h, rfl, rfl, h2⟩⟩
  | @lexeme x v ls t h hc =>
    obtain ⟨df, h1, h2⟩ := run_lexeme x h hl i
    exact ⟨_, _, df, h1.mono (by rw [List.length_append]; omega), .inl ⟨x, v, rfl, h, rfl, rfl, h2⟩⟩

/-- What is known of the lexeme that is being read. -/
def Loc (text : List UInt8) (i : Nat) (toks : List Token) (d : Dec) : Prop :=
  ∀ b : List UInt8, (text ++ b).length ≤ isizeMax → ∀ k all tf df, Drain k (text ++ b) (start i) all tf df →
    ∃ rest, all = toks ++ rest ∧ Drain k (text ++ b) d rest tf df

/-- What is known after a history. -/
def Known (view : σ → List UInt8) (fed : List UInt8) (toks : List Token) (w : Bool) (st : σ) (d : Dec) : Prop :=
  ∃ (ls : List Lexeme) (c : List UInt8) (toks' : List Token) (i : Nat), fed = c ++ view st ∧ toks = ls.flatMap Lexeme.tokens ++ toks'
    ∧ (∀ b ls' t, Cut (view st ++ b) ls' t → Cut (c ++ (view st ++ b)) (ls ++ ls') t)
    ∧ Loc (view st) i toks' d
    ∧ (w = true → ∃ t, t.fits ∧ t.bytes = view st ∧ toks' = t.tokens ∧ Rests t d)

theorem drain_done {k n : Nat} {text tf : List UInt8} {d df : Dec} {toks : List Token} (hn : d.done = some n) (h : Drain k text d toks tf df) :
    toks = [] ∧ tf = text.drop n ∧ df = d ∧ Wfc text d := by
  cases h with
  | wait _ _ hx => rw [hn] at hx; cases hx
  | quiet _ _ _ hx => rw [hn] at hx; cases hx
  | tell _ _ _ hx => rw [hn] at hx; cases hx
  | stop hw hx => rw [hn] at hx; cases hx; exact ⟨rfl, rfl, rfl, hw⟩

/-- After a lexeme the next one starts. -/
theorem known_clear {R : Reader σ} {view : σ → List UInt8} (hR : Faithful R view) {fed : List UInt8} {toks : List Token} {w : Bool} {st : σ} {d : Dec}
    (h : Known view fed toks w st d) {n : Nat} (hn : d.done = some n) :
    ∃ st1, clearDone R st d = some (st1, start d.idx) ∧ Known view fed toks false st1 (start d.idx) := by
  obtain ⟨ls, c, toks', i, h1, h2, h3, h4, -⟩ := h
  obtain ⟨all, tf, df, hd, hcase⟩ := first_drain (view st) (hR.size st) i
  obtain ⟨r, e1, e2⟩ := h4 [] (by rw [List.append_nil]; exact hR.size st) _ all tf df (by rwa [List.append_nil])
  rw [List.append_nil] at e2
  obtain ⟨rfl, rfl, rfl, hw⟩ := drain_done hn e2
  · rcases hcase with ⟨x, v, g1, g2, g3, g4, -⟩ | ⟨t, -, -, -, -, g⟩
    · unfold Wfc at hw
      rw [hn] at hw
      have hw : n ≤ (view st).length ∧ (view st).length ≤ isizeMax := hw
      obtain ⟨st1, ha, hv⟩ := hR.advance st n hw.1
      rw [g4] at hv
      refine ⟨st1, ?_, ls ++ [x], c ++ x.bytes, [], df.idx, ?_, ?_, ?_, ?_, fun hc => Bool.noConfusion hc⟩
      · unfold clearDone
        rw [hn]
        simp only []
        rw [ha]; rfl
      · rw [h1, g1, hv, List.append_assoc]
      · rw [h2, List.flatMap_append, List.append_nil]
        rw [e1, List.append_nil] at g3
        rw [g3]; simp
      · intro b ls' t hc
        rw [hv] at hc ⊢
        have := h3 b (x :: ls') t (by rw [g1, List.append_assoc]; exact .lexeme x (lexeme_more b g2) hc)
        rw [g1] at this
        simp only [List.append_assoc, List.singleton_append] at this ⊢
        exact this
      · intro b hb k all tf df hd
        exact ⟨all, rfl, hd⟩
    · have := rests_done g
      rw [hn] at this; cases this

theorem pop_clear {R : Reader σ} {st st1 : σ} {d d1 : Dec} (h : clearDone R st d = some (st1, d1)) (h1 : d1.done = none) : pop R st d = pop R st1 d1 := by
  have hi : advanceInner R st d = advanceInner R st1 d1 := by
    have : clearDone R st1 d1 = some (st1, d1) := by unfold clearDone; rw [h1]
    unfold advanceInner
    rw [h, this]
  unfold pop
  obtain ⟨f, hf⟩ : ∃ f, 4 * usizeMax = f + 1 := ⟨4 * usizeMax - 1, by have := isizeMax_lt; omega⟩
  rw [hf]
  unfold advance
  rw [hi]

/-- `pop` after a history. -/
theorem known_pop {R : Reader σ} {view : σ → List UInt8} (hR : Faithful R view) {fed : List UInt8} {toks : List Token} {w : Bool} {st : σ} {d : Dec}
    (h : Known view fed toks w st d) : ∃ st' d' fl, pop R st d = (st', d', fl) ∧
      match fl with
      | .fault => False
      | .brk _ => Known view fed toks true st' d'
      | .cont t => Known view fed (toks ++ [t]) false st' d' := by
  have main : ∀ {w : Bool} {st : σ} {d : Dec}, Known view fed toks w st d → d.done = none → ∃ st' d' fl, pop R st d = (st', d', fl) ∧
      match fl with
      | .fault => False
      | .brk _ => Known view fed toks true st' d'
      | .cont t => Known view fed (toks ++ [t]) false st' d' := by
    intro w st d h hn
    obtain ⟨ls, c, toks', i, h1, h2, h3, h4, -⟩ := h
    obtain ⟨all, tf, df, hd, hcase⟩ := first_drain (view st) (hR.size st) i
    obtain ⟨r, e1, e2⟩ := h4 [] (by rw [List.append_nil]; exact hR.size st) _ all tf df (by rwa [List.append_nil])
    rw [List.append_nil] at e2
    have := isizeMax_lt
    have := hR.size st
    obtain ⟨st', d', fl, ha, hv, hm⟩ := advance_spec hR e2 hn (4 * usizeMax) st rfl (by omega)
    refine ⟨st', d', fl, ha, ?_⟩
    cases fl with
    | fault => exact hm
    | brk e =>
      obtain ⟨m1, m2, m3, m4, m5⟩ := hm
      refine ⟨ls, c, toks', i, by rw [h1, hv], h2, by rw [hv]; exact h3, ?_, ?_⟩
      · intro b hb k all tf df hd
        rw [hv] at hb hd ⊢
        obtain ⟨r, f1, f2⟩ := h4 b hb k all tf df hd
        exact ⟨r, f1, m5 b hb k r tf df f2⟩
      · intro _
        rcases hcase with ⟨x, v, -, -, -, -, g⟩ | ⟨t, g1, g2, g3, -, g5⟩
        · rw [m3] at m4; exact (g m4).elim
        · refine ⟨t, g2, by rw [hv, g1], ?_, by rw [m3]; exact g5⟩
          rw [← g3, e1, m1, List.append_nil]
    | cont t =>
      obtain ⟨r1, m1, m5⟩ := hm
      refine ⟨ls, c, toks' ++ [t], i, by rw [h1, hv], by rw [h2, List.append_assoc], by rw [hv]; exact h3, ?_, fun hc => Bool.noConfusion hc⟩
      intro b hb k all tf df hd
      rw [hv] at hb hd ⊢
      obtain ⟨r, f1, f2⟩ := h4 b hb k all tf df hd
      obtain ⟨r2, f3, f4⟩ := m5 b hb k r tf df f2
      exact ⟨r2, by rw [f1, f3, List.append_assoc]; rfl, f4⟩
  cases hn : d.done with
  | none => exact main h hn
  | some n =>
    obtain ⟨st1, hc, hk⟩ := known_clear hR h hn
    rw [pop_clear hc rfl]
    exact main hk rfl

theorem history_known {R : Reader σ} {view : σ → List UInt8} (hR : Faithful R view) {fed : List UInt8} {toks : List Token} {w : Bool} {st : σ} {d : Dec}
    (h : History R view fed toks w st d) : Known view fed toks w st d := by
  induction h with
  | start st =>
    exact ⟨[], [], [], 0, rfl, rfl, fun b ls' t h => h, fun b hb k all tf df hd => ⟨all, rfl, hd⟩, fun hc => Bool.noConfusion hc⟩
  | @arrive fed toks w st st' d b h hb ih =>
    obtain ⟨ls, c, toks', i, h1, h2, h3, h4, -⟩ := ih
    refine ⟨ls, c, toks', i, by rw [h1, hb, List.append_assoc], h2, ?_, ?_, fun hc => Bool.noConfusion hc⟩
    · intro b' ls' t hc
      rw [hb, List.append_assoc] at hc ⊢
      exact h3 (b ++ b') ls' t hc
    · intro b' hl k all tf df hd
      rw [hb, List.append_assoc] at hl hd ⊢
      exact h4 (b ++ b') hl k all tf df hd
  | @token fed toks w st st' d d' t h hp ih =>
    obtain ⟨st1, d1, fl, ha, hm⟩ := known_pop hR ih
    rw [hp] at ha
    cases ha
    exact hm
  | @more fed toks w st st' d d' e h hp ih =>
    obtain ⟨st1, d1, fl, ha, hm⟩ := known_pop hR ih
    rw [hp] at ha
    cases ha
    exact hm

theorem known_tokens {R : Reader σ} {view : σ → List UInt8} (hR : Faithful R view) {fed : List UInt8} {toks : List Token} {w : Bool} {st : σ} {d : Dec}
    (h : Known view fed toks w st d) {ls : List Lexeme} {t : Tail} (hc : Cut fed ls t) :
    toks <+: tokens ls t ∧ (w = true → toks = tokens ls t ∧ view st = t.bytes ∧ Rests t d) := by
  obtain ⟨ls0, c, toks', i, h1, h2, h3, h4, h5⟩ := h
  obtain ⟨ls1, t1, hc1⟩ := cut_exists (view st).length (view st) (Nat.le_refl _)
  have hc2 := h3 [] ls1 t1 (by rwa [List.append_nil])
  rw [List.append_nil, ← h1] at hc2
  obtain ⟨rfl, rfl⟩ := cut_unique hc hc2
  have htok : tokens (ls0 ++ ls1) t = ls0.flatMap Lexeme.tokens ++ tokens ls1 t := by simp [tokens]
  rw [htok, h2]
  constructor
  · rw [List.prefix_append_right_inj]
    obtain ⟨all, tf, df, hd, hcase⟩ := first_drain (view st) (hR.size st) i
    obtain ⟨r, e1, -⟩ := h4 [] (by rw [List.append_nil]; exact hR.size st) _ all tf df (by rwa [List.append_nil])
    rcases hcase with ⟨x, v, g1, g2, g3, -⟩ | ⟨t', g1, g2, g3, -⟩
    · obtain ⟨ls2, t2, hc3⟩ := cut_exists v.length v (Nat.le_refl _)
      rw [g1] at hc1
      obtain ⟨rfl, rfl⟩ := cut_unique hc1 (.lexeme x g2 hc3)
      refine ⟨r ++ tokens ls2 t, ?_⟩
      rw [← List.append_assoc, ← e1, g3]
      simp [tokens]
    · rw [g1] at hc1
      obtain ⟨rfl, rfl⟩ := cut_unique hc1 (.tail t' g2)
      exact ⟨r, by rw [← e1, g3]; simp [tokens]⟩
  · intro hw
    obtain ⟨t', k1, k2, k3, k4⟩ := h5 hw
    rw [← k2] at hc1
    obtain ⟨rfl, rfl⟩ := cut_unique hc1 (.tail t' k1)
    exact ⟨by rw [k3]; simp [tokens], k2.symm, k4⟩

end Verif.Json.Bytes
