import Verif.Json.PropsBytes
/-! # Lemmas: byte texts one after the other -/
namespace Verif.Json.Bytes

theorem piece_fits_append {p : Piece} {v : List UInt8} (h : p.fits v) (z : List UInt8) : p.fits (v ++ z) := by
  cases p with
  | lead x =>
    obtain ⟨h1, h2, h3⟩ := h
    refine ⟨h1, ?_, ?_⟩
    · rintro ⟨w, k, hw, hk, e⟩
      exact h2 ⟨z ++ w, k, by simp [hw], hk, by rw [← List.append_assoc, e]⟩
    · intro k v' e ht
      rcases List.append_eq_append_iff.mp e with ⟨a, ha, hz⟩ | ⟨a, ha, hz⟩
      · by_cases hn : a = []
        · subst hn
          exact h3 k [] (by rw [ha]; simp) ht
        · exact h2 ⟨a, k, hn, ht.1, ha.symm⟩
      · exact h3 k a ha ht
  | short x =>
    obtain ⟨h1, h2, b, v', rfl, h3⟩ := h
    exact ⟨h1, h2, b, v' ++ z, rfl, h3⟩
  | _ => exact h

theorem allFit_more : ∀ {ps : List Piece} {e : List UInt8}, AllFit ps e → ∀ z, AllFit ps (e ++ z)
  | [], _, _, _ => trivial
  | p :: ps, e, h, z => ⟨by
      have := piece_fits_append h.1 z
      rwa [List.append_assoc] at this, allFit_more h.2 z⟩

theorem lexeme_fits_append {l : Lexeme} {v : List UInt8} (h : l.fits v) (z : List UInt8) : l.fits (v ++ z) := by
  cases l with
  | space bs => obtain ⟨h1, h2, b, v', rfl, h3⟩ := h; exact ⟨h1, h2, b, v' ++ z, rfl, h3⟩
  | mark b t => exact h
  | word bs => obtain ⟨h1, b, v', rfl, h3⟩ := h; exact ⟨h1, b, v' ++ z, rfl, h3⟩
  | number n => obtain ⟨h1, b, v', rfl, h3⟩ := h; exact ⟨h1, b, v' ++ z, rfl, h3⟩
  | string ps => exact allFit_more h z

/-- The lexemes that a tail is, once it ends. -/
def Tail.lexemes : Tail → List Lexeme
  | .none => []
  | .space bs => [.space bs]
  | .word bs => [.word bs]
  | .number n => [.number n]
  | .string .. => []

/-- A byte that ends a tail. -/
def Ending (t : Tail) (b : UInt8) : Prop := mark b ≠ none ∨ b = 0x22 ∨ Space b ∧ ∀ c ∈ t.bytes.head?, ¬ Space c

theorem ending_facts : ∀ b : UInt8, (mark b ≠ none ∨ b = 0x22 ∨ Space b) →
    ¬ InWord b ∧ ¬ Digit b ∧ ¬ SignByte b ∧ ¬ Exp b ∧ ¬ Point b := byte_all (by decide +kernel)

theorem mark_solid : ∀ b : UInt8, (mark b ≠ none ∨ b = 0x22) → ¬ Space b := byte_all (by decide +kernel)

theorem takes_ending {n : Numeral} {b : UInt8} (h : ¬ Digit b ∧ ¬ SignByte b ∧ ¬ Exp b ∧ ¬ Point b) : ¬ n.Takes b := by
  unfold Numeral.Takes
  rintro (q | q)
  · exact h.1 q
  · split at q
    · exact h.2.1 q.2
    · rcases q with q | ⟨_, q | q⟩
      · exact h.2.2.1 q
      · exact h.2.2.2 q
      · exact h.2.1 q.2

theorem cut_append {a : List UInt8} {ls : List Lexeme} {t : Tail} (h : Cut a ls t) {b : UInt8} {z : List UInt8} {lz : List Lexeme} {tz : Tail}
    (hz : Cut (b :: z) lz tz) (hs : ∀ ps p, t ≠ .string ps p) (hb : Ending t b) : Cut (a ++ b :: z) (ls ++ t.lexemes ++ lz) tz := by
  induction h with
  | tail t h =>
    obtain ⟨f1, f2⟩ := ending_facts b (by
      rcases hb with h | h | h
      · exact .inl h
      · exact .inr (.inl h)
      · exact .inr (.inr h.1))
    cases t with
    | none => exact hz
    | space bs =>
      refine .lexeme (.space bs) ⟨h.1, h.2, b, z, rfl, ?_⟩ hz
      rcases hb with h' | h' | h'
      · exact mark_solid b (.inl h')
      · exact mark_solid b (.inr h')
      · obtain ⟨h1, h2⟩ := h
        cases bs with
        | nil => exact absurd rfl h1
        | cons c bs => exact absurd (h2 c (by simp)) (h'.2 c rfl)
    | word bs => exact .lexeme (.word bs) ⟨h, b, z, rfl, f1⟩ hz
    | number n => exact .lexeme (.number n) ⟨h, b, z, rfl, takes_ending f2⟩ hz
    | string ps p => exact absurd rfl (hs ps p)
  | lexeme l h _ ih =>
    rw [List.append_assoc]
    exact .lexeme l (lexeme_fits_append h _) (ih hs hb)

/-- Texts without a tail. -/
theorem cut_none {a : List UInt8} {ls : List Lexeme} {t : Tail} (h : Cut a ls t) (ht : t = .none) {z : List UInt8} {lz : List Lexeme} {tz : Tail}
    (hz : Cut z lz tz) : Cut (a ++ z) (ls ++ lz) tz := by
  induction h with
  | tail t h => subst ht; exact hz
  | lexeme l h _ ih =>
    rw [List.append_assoc]
    exact .lexeme l (lexeme_fits_append h _) (ih ht)

theorem head_string {t : Tail} (hf : t.fits) (h : t.bytes.head? ≠ some 0x22) (ps : List Piece) (p : List UInt8) : t ≠ .string ps p := by
  rintro rfl
  exact h rfl

theorem bytes_nil {t : Tail} (hf : t.fits) (h : t.bytes = []) : t = .none := by
  cases t with
  | none => rfl
  | space bs => exact absurd h hf.1
  | word bs => obtain ⟨b, l, rfl, _⟩ := hf; cases h
  | number n =>
    obtain ⟨h1, _⟩ := hf
    simp only [Tail.bytes, Numeral.bytes, List.append_eq_nil_iff] at h
    exact absurd h1 (by simp [h.1.1])
  | string ps p => cases h

end Verif.Json.Bytes
