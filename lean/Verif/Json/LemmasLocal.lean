import Verif.Json.PropsToken
import Verif.Json.SpecLocal
/-! # Lemmas: texts one after the other -/
namespace Verif.Json

theorem ends_append {p : Char → Bool} {l z : List Char} (h : Ends p l) (hz : l = [] → Ends p z) : Ends p (l ++ z) := by
  cases l with
  | nil => exact hz rfl
  | cons a l =>
    intro c l' e
    cases e
    exact h a l rfl

theorem item_append {raw next chars : List Char} {errs : List Err} (h : Item raw next chars errs) (z : List Char) :
    Item raw (next ++ z) chars errs := by
  cases h with
  | plain c _ a b d => exact .plain c _ a b d
  | control c _ a => exact .control c _ a
  | escape c d _ a => exact .escape c d _ a
  | badEscape c _ a b => exact .badEscape c _ a b
  | unicode h c _ a b => exact .unicode h c _ a b
  | pair h k c _ a b d e f => exact .pair h k c _ a b d e f
  | short n h _ a b d e => exact .short n h _ a b (by simp [d]) (ends_append e (fun q => absurd q d))
  | trail h _ a b => exact .trail h _ a b
  | lead h _ a b d e => exact .lead h _ a b (by simp [d]) (ends_append e (fun q => absurd q d))
  | leadEscape h c d _ a b e => exact .leadEscape h c d _ a b e
  | leadBadEscape h c _ a b d e => exact .leadBadEscape h c _ a b d e
  | leadShort n h k _ a b d e f g => exact .leadShort n h k _ a b d e (by simp [f]) (ends_append g (fun q => absurd q f))
  | leadOther h k _ a b d e => exact .leadOther h k _ a b d e

theorem body_append {text raw chars rest : List Char} {errs : List Err} (h : Body text raw chars errs rest) (z : List Char) :
    Body (text ++ z) raw chars errs (rest ++ z) := by
  induction h with
  | close rest => exact .close _
  | item raw text chars errs raws charss errss rest hi _ ih =>
    rw [List.append_assoc]
    exact .item raw (text ++ z) chars errs raws charss errss _ (item_append hi z) ih

variable {plus zero : Bool}

theorem lex_empty {l : List Char} {evs : List Ev} (h : Lex plus zero l evs) : l = [] ↔ evs = [] := by
  cases h with
  | space w l evs h => simp [h]
  | number raw t errs more l evs h =>
    constructor
    · intro e
      obtain ⟨e, _⟩ := List.append_eq_nil_iff.mp e
      subst e
      exfalso
      generalize hr : ([] : List Char) = raw at h
      cases h with
      | sign s sg _ h => exact h hr.symm
      | integer s sg ds _ _ h => simp at hr; exact h hr.2
      | point => simp at hr
      | fraction => simp at hr
      | exponent => simp at hr
      | exponentSign => simp at hr
      | full => simp at hr
    · intro e; simp at e
  | _ => simp

/-- What the first character of the text that follows must be like, for a text with the given reports. -/
structure Stop (c : Char) (evs : List Ev) : Prop where
  breaks : isBreak c = true
  slash : c ≠ '/'
  plus : c ≠ '+'
  minus : c ≠ '-'
  white : isWhitespace c = true → ∀ w, evs.getLast? ≠ some (.tok (.whitespace w))
  newline : c ≠ '\n' → ∀ w, evs.getLast? ≠ some (.err (.comment w))
  string : evs.getLast? ≠ some (.err .stringIncomplete)

theorem break_number {c : Char} (h : isBreak c = true) (hp : c ≠ '+') (hm : c ≠ '-') :
    isDigit c = false ∧ c ≠ '.' ∧ isE c = false := by
  refine ⟨?_, ?_, ?_⟩
  · cases hd : isDigit c
    · rfl
    · exfalso
      simp only [isDigit, decide_eq_true_eq] at hd
      have e : c = Char.ofNat c.toNat := (Char.ofNat_toNat c).symm
      have o : c.toNat = 48 ∨ c.toNat = 49 ∨ c.toNat = 50 ∨ c.toNat = 51 ∨ c.toNat = 52 ∨ c.toNat = 53 ∨ c.toNat = 54 ∨
        c.toNat = 55 ∨ c.toNat = 56 ∨ c.toNat = 57 := by omega
      rcases o with o | o | o | o | o | o | o | o | o | o <;> (rw [o] at e; subst e; exact absurd h (by decide))
  · rintro rfl; exact absurd h (by decide)
  · cases hd : isE c
    · rfl
    · simp only [isE, Bool.or_eq_true, decide_eq_true_eq] at hd
      rcases hd with rfl | rfl <;> exact absurd h (by decide)

theorem numeral_stop {raw : List Char} {t : Token} {errs : List Err} {more : Char → Bool} (h : Numeral plus zero raw t errs more)
    {c : Char} (hb : isBreak c = true) (hp : c ≠ '+') (hm : c ≠ '-') : more c = false := by
  obtain ⟨h1, h2, h3⟩ := break_number hb hp hm
  cases h <;> simp [h1, h2, h3, hp, hm]

theorem last_append (a b : List Ev) (h : b ≠ []) : (a ++ b).getLast? = b.getLast? := by
  rw [List.getLast?_append]
  cases hb : b.getLast? with
  | none => exact absurd (List.getLast?_eq_none_iff.mp hb) h
  | some => rfl

theorem Stop.tail {c : Char} {a b : List Ev} (h : Stop c (a ++ b)) : Stop c b := by
  by_cases hb : b = []
  · subst hb
    exact ⟨h.breaks, h.slash, h.plus, h.minus, by simp, by simp, by simp⟩
  · have e := last_append a b hb
    exact ⟨h.breaks, h.slash, h.plus, h.minus, e ▸ h.white, e ▸ h.newline, e ▸ h.string⟩

theorem lex_append {a : List Char} {evs : List Ev} (h : Lex plus zero a evs) {c : Char} {z : List Char} {ez : List Ev}
    (hz : Lex plus zero (c :: z) ez) (hs : Stop c evs) : Lex plus zero (a ++ c :: z) (evs ++ ez) := by
  have single : ∀ p : Char → Bool, p c = false → Ends p (c :: z) := by
    intro p hp d l e; cases e; exact hp
  induction h with
  | nil => exact hz
  | punct d t l evs h _ ih => exact .punct d t _ _ h (ih (hs.tail (a := [_])))
  | equals l evs _ ih => exact .equals _ _ (ih (hs.tail (a := [_, _])))
  | stray l evs h _ ih => exact .stray _ _ h (ih (hs.tail (a := [_])))
  | space w l evs h1 h2 h3 h4 ih =>
    have hs' : Stop c evs := Stop.tail (a := strays w ++ [.tok (.whitespace (w.filter isSpace))]) (by simpa using hs)
    rw [List.append_assoc, List.append_assoc, List.cons_append]
    refine .space w _ _ h1 h2 (ends_append h3 (fun e => single _ ?_)) (ih hs')
    have he := (lex_empty h4).mp e
    subst he
    cases hw : isWhitespace c
    · rfl
    · exact absurd (by simp) (hs.white hw (w.filter isSpace))
  | word d w l evs h1 h2 h3 h4 ih =>
    rw [List.append_assoc, List.cons_append]
    exact .word d w _ _ h1 h2 (ends_append h3 (fun _ => single _ (by simp [hs.breaks]))) (ih (hs.tail (a := [_])))
  | slash w l evs h1 h2 h3 h4 ih =>
    rw [List.append_assoc, List.cons_append]
    exact .slash w _ _ h1 (ends_append h2 (fun _ => single _ (by simp [hs.breaks])))
      (fun e => ends_append (h3 e) (fun _ => single _ (by simp [hs.slash]))) (ih (hs.tail (a := [_])))
  | hash w l evs h1 h2 h3 ih =>
    rw [List.append_assoc, List.cons_append]
    refine .hash w _ _ h1 (ends_append h2 (fun e => single _ ?_)) (ih (hs.tail (a := [_])))
    have he := (lex_empty h3).mp e
    subst he
    by_cases hc : c = '\n'
    · simp [hc]
    · exact absurd rfl (hs.newline hc w)
  | slashes w l evs h1 h2 h3 ih =>
    rw [List.append_assoc, List.cons_append]
    refine .slashes w _ _ h1 (ends_append h2 (fun e => single _ ?_)) (ih (hs.tail (a := [_])))
    have he := (lex_empty h3).mp e
    subst he
    by_cases hc : c = '\n'
    · simp [hc]
    · exact absurd rfl (hs.newline hc ('/' :: '/' :: w))
  | number raw t errs more l evs h1 h2 h3 ih =>
    rw [List.append_assoc, List.append_assoc, List.cons_append]
    have hs' : Stop c evs := Stop.tail (a := errs.map .err ++ [.tok t]) (by simpa using hs)
    exact .number raw t errs more _ _ h1 (ends_append h2 (fun _ => single _ (numeral_stop h1 hs.breaks hs.plus hs.minus))) (ih hs')
  | string text raw chars errs l evs h1 h2 ih =>
    rw [List.append_assoc, List.cons_append, List.cons_append]
    have hs' : Stop c evs := Stop.tail (a := errs.map .err ++ [.tok (.string raw chars)]) (by simpa using hs)
    exact .string _ raw chars errs _ _ (body_append h1 _) (ih hs')
  | cut text errs h => exact absurd (by simp) hs.string

theorem Closed.string {evs : List Ev} (h : Closed evs) : evs.getLast? ≠ some (.err .stringIncomplete) := by
  intro e; unfold Closed at h; rw [e] at h; exact h

theorem Closed.comment {evs : List Ev} (h : Closed evs) (w : List Char) : evs.getLast? ≠ some (.err (.comment w)) := by
  intro e; unfold Closed at h; rw [e] at h; exact h

theorem LineClosed.string {evs : List Ev} (h : LineClosed evs) : evs.getLast? ≠ some (.err .stringIncomplete) := by
  intro e; unfold LineClosed at h; rw [e] at h; exact h

theorem LineClosed.space {evs : List Ev} (h : LineClosed evs) (w : List Char) : evs.getLast? ≠ some (.tok (.whitespace w)) := by
  intro e; unfold LineClosed at h; rw [e] at h; exact h

end Verif.Json
