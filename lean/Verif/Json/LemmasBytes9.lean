import Verif.Json.LemmasBytes8
/-! # The streaming JSON tokenizer on a text: all texts can be cut, and a lexeme is read -/
namespace Verif.Json.Bytes

/-! ## Cutting -/

theorem span_exists (p : UInt8 → Prop) [DecidablePred p] : ∀ l : List UInt8, ∃ a v, l = a ++ v ∧ (∀ x ∈ a, p x) ∧ (v = [] ∨ ∃ b v', v = b :: v' ∧ ¬ p b)
  | [] => ⟨[], [], rfl, by simp, .inl rfl⟩
  | b :: l => by
    by_cases hb : p b
    · obtain ⟨a, v, h1, h2, h3⟩ := span_exists p l
      refine ⟨b :: a, v, by rw [h1]; rfl, ?_, h3⟩
      intro x hx
      cases hx with
      | head => exact hb
      | tail _ hx => exact h2 x hx
    · exact ⟨[], b :: l, rfl, by simp, .inr ⟨b, l, rfl, hb⟩⟩

/-- Numbers that are as long as possible. -/
theorem number_exists (l : List UInt8) (h : ∃ b r, l = b :: r ∧ (SignByte b ∨ Digit b)) :
    ∃ n v, l = Numeral.bytes n ++ v ∧ n.Wf ∧ (v = [] ∨ ∃ b v', v = b :: v' ∧ ¬ n.Takes b) := by
  obtain ⟨s, v1, e1, p1, q1⟩ := span_exists SignByte l
  obtain ⟨d, v2, e2, p2, q2⟩ := span_exists Digit v1
  have hne : s ≠ [] ∨ d ≠ [] := by
    obtain ⟨b, r, hl, hb⟩ := h
    by_cases hs : s = []
    · right
      rintro rfl
      subst hs
      rw [List.nil_append] at e1 e2
      subst e1 e2
      rcases q1 with q1 | ⟨b', v', q1, q1'⟩
      · rw [q1] at hl; cases hl
      · rw [q1] at hl; cases hl
        rcases q2 with q2 | ⟨b', v', q2, q2'⟩
        · rw [q1] at q2; cases q2
        · rw [q1] at q2; cases q2
          rcases hb with hb | hb
          · exact q1' hb
          · exact q2' hb
    · exact .inl hs
  -- what comes after the integer and maybe a fraction
  have exp : ∀ (f : Option (List UInt8)) (v3 : List UInt8), (∀ x, f = some x → ∀ b ∈ x, Digit b) →
      (v3 = [] ∨ ∃ b v', v3 = b :: v' ∧ ¬ Digit b ∧ (f = none → ¬ Point b ∧ (d = [] → ¬ SignByte b))) →
      ∃ n v, (Numeral.mk s d f none).bytes ++ v3 = Numeral.bytes n ++ v ∧ n.Wf ∧ (v = [] ∨ ∃ b v', v = b :: v' ∧ ¬ n.Takes b) := by
    intro f v3 hf h3
    rcases h3 with rfl | ⟨b, v', rfl, g1, g2⟩
    · exact ⟨⟨s, d, f, none⟩, [], rfl, ⟨hne, p1, p2, hf, by intro c s e h; cases h⟩, .inl rfl⟩
    · by_cases hx : Exp b
      · obtain ⟨t, v4, e4, p4, q4⟩ := span_exists SignByte v'
        obtain ⟨e, v5, e5, p5, q5⟩ := span_exists Digit v4
        refine ⟨⟨s, d, f, some (b, t, e)⟩, v5, ?_, ⟨hne, p1, p2, hf, ?_⟩, ?_⟩
        · rw [e4, e5]; simp [Numeral.bytes]
        · intro c s' e' h
          cases h
          exact ⟨hx, p4, p5⟩
        · rcases q5 with rfl | ⟨b5, v5', rfl, q5⟩
          · exact .inl rfl
          · refine .inr ⟨b5, v5', rfl, ?_⟩
            rintro (hc | ⟨he, hc⟩)
            · exact q5 hc
            · have he : e = [] := he
              subst he
              rw [List.nil_append] at e5
              rcases q4 with q4 | ⟨b4, v4', q4, q4'⟩
              · rw [q4] at e5; cases e5
              · rw [q4] at e5; cases e5
                exact q4' hc
      · refine ⟨⟨s, d, f, none⟩, b :: v', rfl, ⟨hne, p1, p2, hf, by intro c s e h; cases h⟩, .inr ⟨b, v', rfl, ?_⟩⟩
        rintro (hc | hc | ⟨h1, hc | ⟨h2, hc⟩⟩)
        · exact g1 hc
        · exact hx hc
        · exact (g2 h1).1 hc
        · exact (g2 h1).2 h2 hc
  have hl : l = (Numeral.mk s d none none).bytes ++ v2 := by rw [e1, e2]; simp [Numeral.bytes]
  rcases q2 with hv2 | ⟨b, v', hv2, q2⟩
  · rw [hl]
    exact exp none v2 (by intro x h; cases h) (.inl hv2)
  · by_cases hp : Point b
    · obtain ⟨f, v3, e3, p3, q3⟩ := span_exists Digit v'
      have hl' : l = (Numeral.mk s d (some f) none).bytes ++ v3 := by
        have hp : b = 0x2e := hp
        rw [hl, hv2, e3, hp]; simp [Numeral.bytes]
      rw [hl']
      refine exp (some f) v3 (by intro x h; cases h; exact p3) ?_
      rcases q3 with q3 | ⟨b3, v3', q3, q3'⟩
      · exact .inl q3
      · exact .inr ⟨b3, v3', q3, q3', by intro h; cases h⟩
    · rw [hl]
      refine exp none v2 (by intro x h; cases h) (.inr ⟨b, v', hv2, q2, fun _ => ⟨hp, ?_⟩⟩)
      rintro rfl hs
      rw [List.nil_append] at e2
      rcases q1 with q1 | ⟨b1, v1', q1, q1'⟩
      · rw [← e2, q1] at hv2; cases hv2
      · rw [← e2, q1] at hv2; cases hv2
        exact q1' hs

/-- Strings, up to the end of the text or the closing quote. -/
theorem string_exists : ∀ (k : Nat) (l : List UInt8), l.length ≤ k →
    ∃ ps e, l = allBytes ps ++ e ∧ AllFit ps e ∧ (Part e ∨ ∃ v, e = 0x22 :: v) := by
  have zero : ∀ n : Nat, Hex4 [0x30, 0x30, 0x30, 0x30] := fun _ => ⟨rfl, by
    intro b hb
    simp only [List.mem_cons, List.not_mem_nil, or_false, or_self] at hb
    rw [hb]; decide⟩
  intro k
  induction k with
  | zero =>
    intro l hl
    have : l = [] := List.length_eq_zero_iff.mp (by omega)
    subst this
    exact ⟨[], [], rfl, trivial, .inl (.inl ⟨escaped [0x30, 0x30, 0x30, 0x30], [0x30, 0x30, 0x30, 0x30], by simp [escaped], zero 0, rfl⟩)⟩
  | succ k ih =>
    intro l hl
    -- one piece and the rest
    have piece : ∀ (p : Piece) (v : List UInt8), l = p.bytes ++ v → p.bytes ≠ [] → p.fits v →
        ∃ ps e, l = allBytes ps ++ e ∧ AllFit ps e ∧ (Part e ∨ ∃ v, e = 0x22 :: v) := by
      intro p v h1 h2 h3
      have := List.length_pos_iff.mpr h2
      obtain ⟨ps, e, g1, g2, g3⟩ := ih v (by rw [h1, List.length_append] at hl; omega)
      exact ⟨p :: ps, e, by rw [h1, g1]; simp [allBytes], ⟨by rw [← g1]; exact h3, g2⟩, g3⟩
    have part : Part l → ∃ ps e, l = allBytes ps ++ e ∧ AllFit ps e ∧ (Part e ∨ ∃ v, e = 0x22 :: v) :=
      fun h => ⟨[], l, rfl, trivial, .inl h⟩
    match l, piece, part with
    | [], _, part => exact part (.inl ⟨escaped [0x30, 0x30, 0x30, 0x30], [0x30, 0x30, 0x30, 0x30], by simp [escaped], zero 0, rfl⟩)
    | b :: r, piece, part =>
      by_cases h1 : b = 0x22
      · exact ⟨[], b :: r, rfl, trivial, .inr ⟨r, by rw [h1]⟩⟩
      by_cases h2 : b = 0x5c
      · subst h2
        match r, piece, part with
        | [], _, part => exact part (.inl ⟨0x75 :: [0x30, 0x30, 0x30, 0x30], [0x30, 0x30, 0x30, 0x30], by simp, zero 0, rfl⟩)
        | c :: r, piece, part =>
          cases hs : simple c with
          | some w => exact piece (.escape c w) r rfl (by simp [Piece.bytes]) hs
          | none =>
            by_cases hc : c = 0x75
            · subst hc
              obtain ⟨a, v, e1, p1, q1⟩ := span_exists Hex r
              by_cases ha : a.length < 4
              · rcases q1 with rfl | ⟨b', v', rfl, q1⟩
                · refine part (.inl ?_)
                  refine ⟨List.replicate (4 - a.length) 0x30, a ++ List.replicate (4 - a.length) 0x30, ?_, ⟨?_, ?_⟩, ?_⟩
                  · intro hc
                    have := congrArg List.length hc
                    simp at this; omega
                  · simp; omega
                  · intro x hx
                    rcases List.mem_append.mp hx with hx | hx
                    · exact p1 x hx
                    · rw [(List.mem_replicate.mp hx).2]; decide
                  · rw [e1]; simp [escaped]
                · exact piece (.short a) (b' :: v') (by rw [e1]; rfl) (by simp [Piece.bytes, escaped]) ⟨ha, p1, b', v', rfl, q1⟩
              · have hh : Hex4 (a.take 4) := ⟨by simp; omega, fun x hx => p1 x (List.mem_of_mem_take hx)⟩
                have hr : r = a.take 4 ++ (a.drop 4 ++ v) := by rw [e1, ← List.append_assoc, List.take_append_drop]
                generalize a.take 4 = h at *
                generalize a.drop 4 ++ v = v at *
                by_cases hlead : Lead h
                · by_cases ho : Opens v
                  · exact part (.inr ⟨h, v, hlead, ho, by rw [hr]; rfl⟩)
                  · by_cases ht : ∃ h2 v', v = escaped h2 ++ v' ∧ Trail h2
                    · obtain ⟨h2, v', g1, g2⟩ := ht
                      exact piece (.pair h h2) v' (by rw [hr, g1]; simp [Piece.bytes, escaped]) (by simp [Piece.bytes, escaped]) ⟨hlead, g2⟩
                    · exact piece (.lead h) v (by rw [hr]; rfl) (by simp [Piece.bytes, escaped])
                        ⟨hlead, ho, fun h2 v' g1 g2 => ht ⟨h2, v', g1, g2⟩⟩
                · by_cases ht : Trail h
                  · exact piece (.trail h) v (by rw [hr]; rfl) (by simp [Piece.bytes, escaped]) ht
                  · exact piece (.code h) v (by rw [hr]; rfl) (by simp [Piece.bytes, escaped]) ⟨hh, hlead, ht⟩
            · exact piece (.unknown c) r rfl (by simp [Piece.bytes]) ⟨hs, hc⟩
      by_cases h3 : b < 0x1f
      · exact piece (.control b) r rfl (by simp [Piece.bytes]) h3
      · exact piece (.plain b) r rfl (by simp [Piece.bytes]) ⟨h1, h2, by rwa [UInt8.not_lt] at h3⟩

theorem cut_exists : ∀ (k : Nat) (l : List UInt8), l.length ≤ k → ∃ ls t, Cut l ls t := by
  intro k
  induction k with
  | zero =>
    intro l hl
    have : l = [] := List.length_eq_zero_iff.mp (by omega)
    subst this
    exact ⟨[], .none, .tail .none trivial⟩
  | succ k ih =>
    intro l hl
    have lex : ∀ (x : Lexeme) (v : List UInt8), l = x.bytes ++ v → x.bytes ≠ [] → x.fits v → ∃ ls t, Cut l ls t := by
      intro x v h1 h2 h3
      have := List.length_pos_iff.mpr h2
      obtain ⟨ls, t, g⟩ := ih v (by rw [h1, List.length_append] at hl; omega)
      exact ⟨x :: ls, t, by rw [h1]; exact .lexeme x h3 g⟩
    match l, lex with
    | [], _ => exact ⟨[], .none, .tail .none trivial⟩
    | b :: r, lex =>
      by_cases h1 : Space b
      · obtain ⟨a, v, e1, p1, q1⟩ := span_exists Space r
        have hp : ∀ x ∈ b :: a, Space x := by
          intro x hx
          cases hx with
          | head => exact h1
          | tail _ hx => exact p1 x hx
        rcases q1 with rfl | q1
        · rw [e1, List.append_nil]
          exact ⟨[], .space (b :: a), .tail (.space (b :: a)) ⟨by simp, hp⟩⟩
        · exact lex (.space (b :: a)) v (by rw [e1]; rfl) (by simp [Lexeme.bytes]) ⟨by simp, hp, q1⟩
      cases h2 : mark b with
      | some t => exact lex (.mark b t) r rfl (by simp [Lexeme.bytes]) h2
      | none =>
        by_cases h3 : b = 0x22
        · subst h3
          obtain ⟨ps, e, e1, p1, q1⟩ := string_exists r.length r (Nat.le_refl _)
          rcases q1 with q1 | ⟨v, rfl⟩
          · rw [e1]
            exact ⟨[], .string ps e, .tail (.string ps e) ⟨p1, q1⟩⟩
          · exact lex (.string ps) v (by rw [e1]; simp [Lexeme.bytes]) (by simp [Lexeme.bytes]) p1
        by_cases h4 : SignByte b ∨ Digit b
        · obtain ⟨n, v, e1, p1, q1⟩ := number_exists (b :: r) ⟨b, r, rfl, h4⟩
          rcases q1 with rfl | q1
          · rw [e1, List.append_nil]
            exact ⟨[], .number n, .tail (.number n) p1⟩
          · refine lex (.number n) v e1 ?_ ⟨p1, q1⟩
            intro hc
            have hc : n.bytes = [] := hc
            have := bytes_length n
            rw [hc] at this
            rcases p1.1 with g | g
            · have := List.length_pos_iff.mpr g
              simp only [List.length_nil] at *
              omega
            · have := List.length_pos_iff.mpr g
              simp only [List.length_nil] at *
              omega
        · have hw : StartsWord b := ⟨h1, h2, h3, fun h => h4 (.inl h), fun h => h4 (.inr h)⟩
          obtain ⟨a, v, e1, p1, q1⟩ := span_exists InWord r
          rcases q1 with rfl | q1
          · rw [e1, List.append_nil]
            exact ⟨[], .word (b :: a), .tail (.word (b :: a)) ⟨b, a, rfl, hw, p1⟩⟩
          · exact lex (.word (b :: a)) v (by rw [e1]; rfl) (by simp [Lexeme.bytes]) ⟨⟨b, a, rfl, hw, p1⟩, q1⟩

/-! ## Reading -/

/-- The state of the tokenizer at the end of a text. -/
def Rests (t : Tail) (d : Dec) : Prop :=
  match t with
  | .none => d.state = .none ∧ d.done = none
  | .space bs => d = ⟨.whitespace, bs.length, none, []⟩
  | .word bs => d = ⟨.item, bs.length, none, []⟩
  | .number n => d = ⟨.number n.stale.num, n.bytes.length, none, []⟩
  | .string ps part => InString (Tail.string ps part).bytes.length d

theorem Run.mono {k k' : Nat} {text tf : List UInt8} {toks : List Token} {P : Dec → Prop} (h : Run k text toks tf P) (hk : k ≤ k') :
    Run k' text toks tf P := fun i => by
  obtain ⟨df, h1, h2⟩ := h i
  exact ⟨df, h1.mono hk, h2⟩

theorem run_lexeme {v : List UInt8} (x : Lexeme) (h : x.fits v) (hl : (x.bytes ++ v).length ≤ isizeMax) :
    Run (2 + 3 * x.bytes.length) (x.bytes ++ v) x.tokens v (fun d => d.done ≠ none) := by
  have hg := goes_stop v
  rw [← List.append_nil x.tokens]
  cases x with
  | space bs => exact (run_space bs h hg hl).mono (by omega)
  | mark b tok => exact (run_mark b tok h hg hl).mono (by omega)
  | word bs => exact (run_word bs h hg hl).mono (by omega)
  | number n => exact (run_number n h hg hl).mono (show _ ≤ 2 + 3 * n.bytes.length by omega)
  | string ps =>
    refine (run_string ps h hg hl).mono ?_
    have : (Lexeme.string ps).bytes.length = 2 + (allBytes ps).length := by simp [Lexeme.bytes]; omega
    omega

theorem run_tail (t : Tail) (h : t.fits) (hl : t.bytes.length ≤ isizeMax) :
    Run (4 + 3 * t.bytes.length) t.bytes t.tokens t.bytes (Rests t) := by
  cases t with
  | none => exact run_none
  | space bs => exact (rest_space (k := 0) bs h hl).mono (by omega)
  | word bs => exact (rest_word (k := 0) bs h hl).mono (by omega)
  | number n => exact (rest_number (k := 0) n h hl).mono (show _ ≤ 4 + 3 * n.bytes.length by omega)
  | string ps part =>
    refine (rest_string (k := 0) ps part h hl).mono ?_
    have : (Tail.string ps part).bytes.length = 1 + ((allBytes ps).length + part.length) := by simp [Tail.bytes]; omega
    omega

theorem rests_done {t : Tail} {d : Dec} (h : Rests t d) : d.done = none := by
  cases t with
  | none => exact h.2
  | space bs => rw [show d = _ from h]
  | word bs => rw [show d = _ from h]
  | number n => rw [show d = _ from h]
  | string ps part => exact h.1

end Verif.Json.Bytes
