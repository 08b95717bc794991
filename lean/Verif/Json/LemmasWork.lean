import Verif.Json.SpecWork
import Verif.Json.LemmasBytes3
/-! # The work of the streaming JSON tokenizer: helper lemmas -/
namespace Verif.Json.Work
open Verif.Io (usizeMax More SFlow StreamImpl WhileOut scan whileLoop)
open Verif.Json.Bytes (Reader Dec State Wf Wfc Seen isizeMax Faithful)
variable {σ : Type}

/-! ## One step -/

/-- How far the tokenizer is for sure: it does not go back before this. -/
def front (d : Dec) : Nat :=
  match d.done with
  | some n => n
  | none => match d.state with
    | .none => 0
    | .stringEscapeUnicode s => s
    | .stringEscapeUnicodeTrail s _ => s
    | _ => d.idx

/-- `c` bytes belong to earlier tokens, there were `tests` tests, `e` bytes were appended to `acc_str` because of control characters. -/
def Tally (d : Dec) (c tests e : Nat) : Prop :=
  match d.done with
  | some n => 1 ≤ n ∧ tests + 1 ≤ 2 * (c + n) ∧ 2 * d.accStr.length ≤ 3 * n + 2 * e
  | none => match d.state with
    | .none => tests ≤ 2 * c ∧ d.accStr = []
    | .whitespace => 1 ≤ d.idx ∧ tests + 2 ≤ 2 * (c + d.idx) ∧ d.accStr = []
    | .item => 1 ≤ d.idx ∧ tests + 2 ≤ 2 * (c + d.idx) ∧ d.accStr = []
    | .number _ => 1 ≤ d.idx ∧ tests + 2 ≤ 2 * (c + d.idx) ∧ d.accStr = []
    | .numberDone _ => 1 ≤ d.idx ∧ tests + 1 ≤ 2 * (c + d.idx) ∧ d.accStr = []
    | .string s => 1 ≤ d.idx ∧ s ≤ d.idx ∧ tests + 2 ≤ 2 * (c + d.idx) ∧ 2 * d.accStr.length ≤ 3 * s + 2 * e
    | .stringEscape => 2 ≤ d.idx ∧ tests + 3 ≤ 2 * (c + d.idx) ∧ 2 * d.accStr.length ≤ 3 * (d.idx - 1) + 2 * e
    | .stringEscapeUnicode s => 3 ≤ s ∧ tests + 5 ≤ 2 * c + s + d.idx ∧ 2 * d.accStr.length ≤ 3 * (s - 2) + 2 * e
    | .stringEscapeUnicodeTrail s _ => 7 ≤ s ∧ tests + 9 ≤ 2 * c + s + d.idx ∧ 2 * d.accStr.length ≤ 3 * (s - 6) + 2 * e

/-- The same once the stream is mapped: one test may have failed. -/
def Pre (d : Dec) (c tests e : Nat) : Prop :=
  match d.state with
  | .none => tests ≤ 2 * c ∧ d.accStr = []
  | .whitespace => 1 ≤ d.idx ∧ tests + 1 ≤ 2 * (c + d.idx) ∧ d.accStr = []
  | .item => 1 ≤ d.idx ∧ tests + 1 ≤ 2 * (c + d.idx) ∧ d.accStr = []
  | .number _ => 1 ≤ d.idx ∧ tests + 1 ≤ 2 * (c + d.idx) ∧ d.accStr = []
  | .numberDone _ => 1 ≤ d.idx ∧ tests + 1 ≤ 2 * (c + d.idx) ∧ d.accStr = []
  | .string s => 1 ≤ d.idx ∧ s ≤ d.idx ∧ tests + 1 ≤ 2 * (c + d.idx) ∧ 2 * d.accStr.length ≤ 3 * s + 2 * e
  | .stringEscape => 2 ≤ d.idx ∧ tests + 3 ≤ 2 * (c + d.idx) ∧ 2 * d.accStr.length ≤ 3 * (d.idx - 1) + 2 * e
  | .stringEscapeUnicode s => 3 ≤ s ∧ d.idx ≤ s + 4 ∧ tests + 4 ≤ 2 * c + s + d.idx ∧ (d.idx = s + 4 → tests + 5 ≤ 2 * c + s + d.idx)
      ∧ 2 * d.accStr.length ≤ 3 * (s - 2) + 2 * e
  | .stringEscapeUnicodeTrail s _ => 7 ≤ s ∧ d.idx ≤ s + 6 ∧ tests + 8 ≤ 2 * c + s + d.idx ∧ (d.idx = s + 6 → tests + 9 ≤ 2 * c + s + d.idx)
      ∧ 2 * d.accStr.length ≤ 3 * (s - 6) + 2 * e

/-- What a step does to the tally. -/
structure Moved (text : List UInt8) (d d' : Dec) (t : Option Bytes.Token) (c tests e : Nat) : Prop where
  wf : Wfc text d'
  acc : d.accStr.length ≤ d'.accStr.length
  front : front d ≤ front d'
  quiet : t = none → Work.front d < Work.front d'
  tally : (t.any isUnescaped = false ∧ Tally d' c tests e)
    ∨ (t.any isUnescaped = true ∧ ∃ k, Tally d' c tests (e + k) ∧ k ≤ Work.front d'
        ∧ controls (text.take (Work.front d)) < controls (text.take (Work.front d')))

theorem upTo_some {m r : List UInt8} {n : Nat} (h : Bytes.upTo m n = some r) : n ≤ m.length ∧ r.length = n := by
  unfold Bytes.upTo at h
  split at h
  · cases h; exact ⟨by assumption, by rw [List.length_take]; omega⟩
  · cases h

theorem between_some {m r : List UInt8} {a b : Nat} (h : Bytes.between m a b = some r) : a ≤ b ∧ b ≤ m.length ∧ r.length = b - a := by
  unfold Bytes.between at h
  split at h
  · rename_i hc
    cases h; exact ⟨hc.1, hc.2, by rw [List.length_drop, List.length_take]; omega⟩
  · cases h

theorem char_bytes (c : Char) : (String.utf8EncodeChar c).length ≤ 4 := by
  rw [String.length_utf8EncodeChar]; exact Char.utf8Size_le_four c

theorem replacement_bytes : (String.utf8EncodeChar Bytes.replacement).length = 3 := by decide

theorem stringChar_some {d : Dec} {raw : List UInt8} {c : Char} :
    (Bytes.stringChar d raw c).accStr.length = (if d.accStr.length = 0 then raw.length else d.accStr.length) + (String.utf8EncodeChar c).length := by
  unfold Bytes.stringChar
  simp only [List.length_append]
  split <;> rfl

theorem pushChar_some {d d' : Dec} {m : List UInt8} {i b : Nat} {ch : Char} (h : Bytes.pushChar d m i b ch = some d') :
    b ≤ i ∧ d'.state = d.state ∧ d'.idx = d.idx ∧ d'.done = d.done ∧
    d'.accStr.length = (if d.accStr.length = 0 then i - b else d.accStr.length) + (String.utf8EncodeChar ch).length := by
  unfold Bytes.pushChar at h
  simp only [Option.bind_eq_bind, Option.bind_eq_some_iff, Option.some.injEq] at h
  obtain ⟨n, h1, raw, h2, rfl⟩ := h
  obtain ⟨h3, h4⟩ := upTo_some h2
  have h5 := Bytes.strictSub_some h1
  refine ⟨by omega, rfl, rfl, rfl, ?_⟩
  rw [stringChar_some]
  split <;> omega

theorem controls_succ {text : List UInt8} {n : Nat} {b : UInt8} (h : text[n]? = some b) (hb : b < 0x1f) :
    controls (text.take n) < controls (text.take (n + 1)) := by
  unfold controls
  rw [List.take_add_one, h, List.countP_append]
  simp [hb]

theorem ite_or {α : Type} {p : Prop} [Decidable p] {x y z : α} (h : (if p then x else y) = z) : x = z ∨ y = z := by
  by_cases hp : p
  · rw [if_pos hp] at h; exact .inl h
  · rw [if_neg hp] at h; exact .inr h

theorem moved_none {text m : List UInt8} {d d' : Dec} {t : Option Bytes.Token} {c tests e : Nat} (hl : text.length ≤ isizeMax)
    (hm : m.length ≤ text.length) (hs : d.state = .none) (hn : d.done = none) (hp : Pre d c tests e) (h : Bytes.advanceNone d m = some (d', t)) :
    Moved text d d' t c tests e := by
  obtain ⟨s, i, dn, acc⟩ := d
  cases hs; cases hn
  obtain ⟨p1, p2⟩ := hp
  simp only at p2
  subst p2
  unfold Bytes.advanceNone at h
  cases hb : m[0]? with
  | none => rw [hb] at h; cases h
  | some b =>
    have h0 := (List.getElem?_eq_some_iff.mp hb).1
    have one : 1 ≤ text.length := by omega
    have f1 : tests + 1 ≤ 2 * (c + 1) := by omega
    have f2 : tests + 2 ≤ 2 * (c + 1) := by omega
    have f3 : 2 * ([] : List UInt8).length ≤ 3 * 1 + 2 * e := by simp
    have f4 : 2 * ([] : List UInt8).length ≤ 3 * 0 + 2 * e := by simp
    simp only [hb] at h
    rcases ite_or h with h | h
    rotate_left 1
    rcases ite_or h with h | h
    rotate_left 1
    rcases ite_or h with h | h
    rotate_left 1
    rcases ite_or h with h | h
    rotate_left 1
    rcases ite_or h with h | h
    rotate_left 1
    rcases ite_or h with h | h
    rotate_left 1
    rcases ite_or h with h | h
    rotate_left 1
    rcases ite_or h with h | h
    rotate_left 1
    rcases ite_or h with h | h
    rotate_left 1
    rcases ite_or h with h | h
    rotate_left 1
    rcases ite_or h with h | h
    all_goals
      simp only [Option.some.injEq, Prod.mk.injEq] at h
      obtain ⟨rfl, rfl⟩ := h
      refine ⟨?_, Nat.le_refl _, Nat.zero_le _, fun h => ?_, .inl ⟨rfl, ?_⟩⟩
      · first
          | exact ⟨hl, one⟩
          | exact ⟨one, hl⟩
      · first
          | exact Nat.one_pos
          | cases h
      · first
          | exact ⟨Nat.le_refl _, f1, f3⟩
          | exact ⟨Nat.le_refl _, f2, rfl⟩
          | exact ⟨Nat.le_refl _, Nat.zero_le _, f2, f4⟩

theorem moved_done {text : List UInt8} {d : Dec} {t : Bytes.Token} {c tests e : Nat} (hl : text.length ≤ isizeMax)
    (hi : d.idx ≤ text.length) (h1 : 1 ≤ d.idx) (h2 : tests + 1 ≤ 2 * (c + d.idx)) (ha : d.accStr = []) (hf : front d ≤ d.idx)
    (ht : isUnescaped t = false) : Moved text d { d with done := some d.idx } (some t) c tests e := by
  refine ⟨⟨hi, hl⟩, Nat.le_refl _, hf, fun h => (by cases h), .inl ⟨ht, h1, h2, ?_⟩⟩
  show 2 * d.accStr.length ≤ _
  rw [ha]; simp

theorem raiseItem_plain (m : List UInt8) : isUnescaped (Bytes.raiseItem m) = false := by
  unfold Bytes.raiseItem
  repeat' split
  all_goals rfl

theorem raiseNumber_plain {m : List UInt8} {n : Bytes.Num} {t : Bytes.Token} (h : Bytes.raiseNumber m n = some t) : isUnescaped t = false := by
  unfold Bytes.raiseNumber at h
  simp only [Option.bind_eq_bind, Option.bind_eq_some_iff] at h
  obtain ⟨i, -, h⟩ := h
  split at h <;> simp only [Option.bind_eq_some_iff] at h <;> obtain ⟨f, -, h⟩ := h <;> split at h <;>
    simp only [Option.bind_eq_some_iff, Option.some.injEq] at h <;> obtain ⟨x, -, rfl⟩ := h <;> rfl

theorem moved_whitespace {text m : List UInt8} {d d' : Dec} {t : Option Bytes.Token} {c tests e : Nat} (hl : text.length ≤ isizeMax)
    (hm : m.length ≤ text.length) (hs : d.state = .whitespace) (hn : d.done = none) (hp : Pre d c tests e)
    (h : Bytes.advanceWhitespace d m = some (d', t)) : Moved text d d' t c tests e := by
  unfold Bytes.advanceWhitespace at h
  simp only [Option.bind_eq_bind, Option.bind_eq_some_iff, Option.some.injEq, Prod.mk.injEq] at h
  obtain ⟨raw, h1, tk, h2, rfl, rfl⟩ := h
  unfold Pre at hp
  rw [hs] at hp
  obtain ⟨p1, p2, p3⟩ := hp
  refine moved_done hl (by have := upTo_some h1; omega) p1 p2 p3 (by unfold front; rw [hn, hs]; exact Nat.le_refl _) ?_
  unfold Bytes.raiseWhitespace at h2
  split at h2 <;> cases h2
  rfl

theorem moved_item {text m : List UInt8} {d d' : Dec} {t : Option Bytes.Token} {c tests e : Nat} (hl : text.length ≤ isizeMax)
    (hm : m.length ≤ text.length) (hs : d.state = .item) (hn : d.done = none) (hp : Pre d c tests e)
    (h : Bytes.advanceItem d m = some (d', t)) : Moved text d d' t c tests e := by
  unfold Bytes.advanceItem at h
  simp only [Option.bind_eq_bind, Option.bind_eq_some_iff, Option.some.injEq, Prod.mk.injEq] at h
  obtain ⟨raw, h1, rfl, rfl⟩ := h
  unfold Pre at hp
  rw [hs] at hp
  obtain ⟨p1, p2, p3⟩ := hp
  exact moved_done hl (by have := upTo_some h1; omega) p1 p2 p3 (by unfold front; rw [hn, hs]; exact Nat.le_refl _) (raiseItem_plain _)

theorem moved_numberDone {text m : List UInt8} {d d' : Dec} {n : Bytes.Num} {t : Option Bytes.Token} {c tests e : Nat} (hl : text.length ≤ isizeMax)
    (hm : m.length ≤ text.length) (hs : d.state = .numberDone n) (hn : d.done = none) (hp : Pre d c tests e)
    (h : Bytes.advanceNumberDone d n m = some (d', t)) : Moved text d d' t c tests e := by
  unfold Bytes.advanceNumberDone at h
  simp only [Option.bind_eq_bind, Option.bind_eq_some_iff, Option.some.injEq, Prod.mk.injEq] at h
  obtain ⟨raw, h1, tk, h2, rfl, rfl⟩ := h
  unfold Pre at hp
  rw [hs] at hp
  obtain ⟨p1, p2, p3⟩ := hp
  exact moved_done hl (by have := upTo_some h1; omega) p1 p2 p3 (by unfold front; rw [hn, hs]; exact Nat.le_refl _) (raiseNumber_plain h2)

theorem moved_finish {text m : List UInt8} {d d' : Dec} {n : Bytes.Num} {t : Option Bytes.Token} {c tests e : Nat} (hl : text.length ≤ isizeMax)
    (hm : m.length ≤ text.length) (hs : d.state = .number n) (hn : d.done = none) (h1 : 1 ≤ d.idx) (h2 : tests + 1 ≤ 2 * (c + d.idx))
    (h3 : d.accStr = []) (h : Bytes.finishNumber d m = some (d', t)) : Moved text d d' t c tests e := by
  unfold Bytes.finishNumber at h
  rw [Option.bind_eq_some_iff] at h
  obtain ⟨raw, hr, h⟩ := h
  have hi := upTo_some hr
  unfold Bytes.numberDone at h
  rw [hs] at h
  simp only [] at h
  have hf : front d = d.idx := by unfold front; rw [hn, hs]
  split at h
  · simp only [Option.some.injEq, Prod.mk.injEq] at h
    obtain ⟨rfl, rfl⟩ := h
    have hw : Wfc text { d with state := .numberDone n } := by
      unfold Wfc; rw [show ({ d with state := .numberDone n } : Dec).done = none from hn]
      exact ⟨hl, by show d.idx ≤ _; omega⟩
    have hg : front { d with state := .numberDone n } = d.idx := by
      unfold front; rw [show ({ d with state := .numberDone n } : Dec).done = none from hn]
    refine ⟨hw, Nat.le_refl _, by rw [hf, hg]; exact Nat.le_refl _, fun h => (by cases h), .inl ⟨rfl, ?_⟩⟩
    unfold Tally
    rw [show ({ d with state := .numberDone n } : Dec).done = none from hn]
    exact ⟨h1, h2, h3⟩
  · rw [Option.map_eq_some_iff] at h
    obtain ⟨tk, h4, h5⟩ := h
    simp only [Prod.mk.injEq] at h5
    obtain ⟨rfl, rfl⟩ := h5
    rw [← hs]
    exact moved_done hl (by omega) h1 h2 h3 (by omega) (raiseNumber_plain h4)

theorem moved_grow {text : List UInt8} {d : Dec} {n n' : Bytes.Num} {t : Option Bytes.Token} {c tests e : Nat} (hl : text.length ≤ isizeMax)
    (hi : d.idx < text.length) (hs : d.state = .number n) (hn : d.done = none) (h2 : tests + 1 ≤ 2 * (c + d.idx))
    (h3 : d.accStr = []) (ht : t.any isUnescaped = false) : Moved text d { d with idx := d.idx + 1, state := .number n' } t c tests e := by
  have hf : front d = d.idx := by unfold front; rw [hn, hs]
  have hg : front { d with idx := d.idx + 1, state := .number n' } = d.idx + 1 := by
    unfold front; rw [show ({ d with idx := d.idx + 1, state := .number n' } : Dec).done = none from hn]
  refine ⟨?_, Nat.le_refl _, by omega, fun _ => by omega, .inl ⟨ht, ?_⟩⟩
  · unfold Wfc; rw [show ({ d with idx := d.idx + 1, state := .number n' } : Dec).done = none from hn]
    exact ⟨hl, by show d.idx + 1 ≤ _; omega⟩
  · unfold Tally
    rw [show ({ d with idx := d.idx + 1, state := .number n' } : Dec).done = none from hn]
    exact ⟨by show 1 ≤ d.idx + 1; omega, by show _ ≤ 2 * (c + (d.idx + 1)); omega, h3⟩

theorem moved_number {text m : List UInt8} {d d' : Dec} {n : Bytes.Num} {t : Option Bytes.Token} {c tests e : Nat} (hl : text.length ≤ isizeMax)
    (hm : m.length ≤ text.length) (hs : d.state = .number n) (hn : d.done = none) (hp : Pre d c tests e)
    (h : Bytes.advanceNumber d n m = some (d', t)) : Moved text d d' t c tests e := by
  unfold Pre at hp
  rw [hs] at hp
  obtain ⟨p1, p2, p3⟩ := hp
  unfold Bytes.advanceNumber at h
  generalize n.grow d.idx = g at h
  obtain ⟨n2, range⟩ := g
  simp only [] at h
  cases hb : m[d.idx]? with
  | none => rw [hb] at h; cases h
  | some b =>
    rw [hb] at h
    simp only [] at h
    have h0 := (List.getElem?_eq_some_iff.mp hb).1
    generalize hd : ({ d with state := .number n2 } : Dec) = d2 at h
    have e1 : d2.idx = d.idx := by rw [← hd]
    have e2 : d2.state = .number n2 := by rw [← hd]
    have e3 : d2.done = none := by rw [← hd]; exact hn
    have e4 : d2.accStr = d.accStr := by rw [← hd]
    have ef : front d = front d2 := by unfold front; rw [hn, hs, e3, e2]; exact e1.symm
    suffices hq : Moved text d2 d' t c tests e by
      obtain ⟨w, a, f, q, ta⟩ := hq
      rw [e4] at a
      rw [← ef] at f q ta
      exact ⟨w, a, f, q, ta⟩
    rw [← e1] at p1 p2 h0
    rw [← e4] at p3
    have fin : ∀ {d'}, Bytes.finishNumber d2 m = some (d', t) → Moved text d2 d' t c tests e := fun h => moved_finish hl hm e2 e3 p1 p2 p3 h
    split at h
    · unfold Bytes.numberSign at h
      simp only [] at h
      split at h
      · rw [Option.map_eq_some_iff] at h
        obtain ⟨i, hi, h⟩ := h
        have := Bytes.strictAdd_some hi
        subst this
        simp only [Prod.mk.injEq] at h
        obtain ⟨rfl, rfl⟩ := h
        exact moved_grow hl (by omega) e2 e3 p2 p3 (by split <;> rfl)
      · split at h
        · simp only [Option.bind_eq_bind, Option.bind_eq_some_iff, Option.some.injEq, Prod.mk.injEq] at h
          obtain ⟨i, hi, _, _, _, _, rfl, rfl⟩ := h
          have := Bytes.strictAdd_some hi
          subst this
          exact moved_grow hl (by omega) e2 e3 p2 p3 (by split <;> rfl)
        · exact fin h
    · split at h
      · unfold Bytes.numberPoint at h
        split at h
        · rw [Option.map_eq_some_iff] at h
          obtain ⟨i, hi, h⟩ := h
          have := Bytes.strictAdd_some hi
          subst this
          simp only [Prod.mk.injEq] at h
          obtain ⟨rfl, rfl⟩ := h
          exact moved_grow hl (by omega) e2 e3 p2 p3 rfl
        · exact fin h
      · split at h
        · unfold Bytes.numberExponent at h
          split at h
          · rw [Option.map_eq_some_iff] at h
            obtain ⟨i, hi, h⟩ := h
            have := Bytes.strictAdd_some hi
            subst this
            simp only [Prod.mk.injEq] at h
            obtain ⟨rfl, rfl⟩ := h
            exact moved_grow hl (by omega) e2 e3 p2 p3 rfl
          · exact fin h
        · exact fin h

theorem raw_length (d : Dec) (r : List UInt8) :
    (Bytes.stringRaw d r).accStr.length = if 0 < d.accStr.length then d.accStr.length + r.length else 0 := by
  unfold Bytes.stringRaw
  split
  · rw [List.length_append]
  · omega

theorem raw_state (d : Dec) (r : List UInt8) :
    (Bytes.stringRaw d r).state = d.state ∧ (Bytes.stringRaw d r).idx = d.idx ∧ (Bytes.stringRaw d r).done = d.done := by
  unfold Bytes.stringRaw
  split <;> exact ⟨rfl, rfl, rfl⟩

theorem raiseString_plain {d : Dec} {m : List UInt8} {t : Bytes.Token} (h : Bytes.raiseString d m = some t) : isUnescaped t = false := by
  unfold Bytes.raiseString at h
  simp only [Option.bind_eq_bind, Option.bind_eq_some_iff, Option.some.injEq] at h
  obtain ⟨_, _, _, _, rfl⟩ := h
  split <;> rfl

theorem front_string {d : Dec} {s : Nat} (hn : d.done = none) (hs : d.state = .string s) : front d = d.idx := by
  unfold front; rw [hn, hs]

theorem wfc_string {text : List UInt8} {d : Dec} {s : Nat} (hl : text.length ≤ isizeMax) (hn : d.done = none) (hs : d.state = .string s)
    (hi : d.idx ≤ text.length) : Wfc text d := by
  unfold Wfc; rw [hn]; unfold Wf; rw [hs]; exact ⟨hl, hi⟩

theorem tally_string {d : Dec} {s c tests e : Nat} (hn : d.done = none) (hs : d.state = .string s) (h1 : 1 ≤ d.idx) (h2 : s ≤ d.idx)
    (h3 : tests + 2 ≤ 2 * (c + d.idx)) (h4 : 2 * d.accStr.length ≤ 3 * s + 2 * e) : Tally d c tests e := by
  unfold Tally; rw [hn, hs]; exact ⟨h1, h2, h3, h4⟩

theorem moved_string {text m : List UInt8} {d d' : Dec} {s : Nat} {t : Option Bytes.Token} {c tests e : Nat} (hl : text.length ≤ isizeMax)
    (hm : m <+: text) (hs : d.state = .string s) (hn : d.done = none) (hp : Pre d c tests e)
    (h : Bytes.advanceString d s m = some (d', t)) : Moved text d d' t c tests e := by
  have hml := hm.length_le
  unfold Pre at hp
  rw [hs] at hp
  obtain ⟨p1, p2, p3, p4⟩ := hp
  have hf := front_string hn hs
  unfold Bytes.advanceString at h
  cases hb : m[d.idx]? with
  | none => rw [hb] at h; cases h
  | some b =>
    rw [hb] at h
    simp only [] at h
    have h0 := (List.getElem?_eq_some_iff.mp hb).1
    split at h
    · simp only [Option.bind_eq_bind, Option.bind_eq_some_iff, Option.some.injEq, Prod.mk.injEq] at h
      obtain ⟨i, hi, part, hpart, raw, -, tk, htk, rfl, rfl⟩ := h
      have := Bytes.strictAdd_some hi
      subst this
      obtain ⟨b1, b2, b3⟩ := between_some hpart
      have hacc := raw_length { d with idx := d.idx + 1 } part
      simp only [] at hacc
      refine ⟨⟨by show d.idx + 1 ≤ _; omega, hl⟩, ?_, by show front d ≤ d.idx + 1; omega, fun h => (by cases h),
        .inl ⟨raiseString_plain htk, by show 1 ≤ d.idx + 1; omega, by show _ ≤ 2 * (c + (d.idx + 1)); omega, ?_⟩⟩
      · show _ ≤ (Bytes.stringRaw { d with idx := d.idx + 1 } part).accStr.length
        rw [hacc]; split <;> omega
      · show 2 * (Bytes.stringRaw { d with idx := d.idx + 1 } part).accStr.length ≤ 3 * (d.idx + 1) + 2 * e
        rw [hacc]; split <;> omega
    · split at h
      · simp only [Option.bind_eq_bind, Option.bind_eq_some_iff, Option.some.injEq, Prod.mk.injEq] at h
        obtain ⟨part, hpart, i, hi, rfl, rfl⟩ := h
        have := Bytes.strictAdd_some hi
        obtain ⟨r1, r2, r3⟩ := raw_state d part
        rw [r2] at this
        subst this
        obtain ⟨b1, b2, b3⟩ := between_some hpart
        have hacc := raw_length d part
        generalize Bytes.stringRaw d part = d2 at *
        obtain ⟨s2, i2, dn2, acc2⟩ := d2
        simp only at r1 r2 r3 hacc
        rw [hn] at r3
        subst r3
        refine ⟨⟨hl, by show d.idx + 1 ≤ _; omega⟩, ?_, by show front d ≤ d.idx + 1; omega, fun _ => by show front d < d.idx + 1; omega,
          .inl ⟨rfl, by show 2 ≤ d.idx + 1; omega, by show _ ≤ 2 * (c + (d.idx + 1)); omega, ?_⟩⟩
        · show _ ≤ acc2.length
          rw [hacc]; split <;> omega
        · show 2 * acc2.length ≤ 3 * (d.idx + 1 - 1) + 2 * e
          rw [hacc]; split <;> omega
      · split at h
        · rename_i hc
          simp only [Option.bind_eq_bind, Option.bind_eq_some_iff, Option.some.injEq, Prod.mk.injEq] at h
          obtain ⟨i, hi, part, hpart, rfl, rfl⟩ := h
          have := Bytes.strictAdd_some hi
          subst this
          obtain ⟨b1, b2, b3⟩ := between_some hpart
          obtain ⟨r1, r2, r3⟩ := raw_state { d with idx := d.idx + 1 } part
          have hacc := raw_length { d with idx := d.idx + 1 } part
          generalize Bytes.stringRaw { d with idx := d.idx + 1 } part = d2 at *
          simp only at r1 r2 r3 hacc
          rw [hs] at r1
          rw [hn] at r3
          have hf2 := front_string r3 r1
          refine ⟨wfc_string hl r3 r1 (by omega), by rw [hacc]; split <;> omega, by omega, fun h => (by cases h), .inr ⟨rfl, d.idx + 1 - s, ?_, by omega, ?_⟩⟩
          · exact tally_string r3 r1 (by omega) (by omega) (by omega) (by rw [hacc]; split <;> omega)
          · rw [hf, hf2, r2]
            rw [Bytes.getElem_prefix hm h0] at hb
            refine controls_succ hb ?_
            unfold Bytes.isControl at hc
            exact of_decide_eq_true hc
        · cases h

theorem byte_length (d : Dec) (r : List UInt8) (v : UInt8) :
    (Bytes.stringByte d r v).accStr.length = (if d.accStr.length = 0 then r.length else d.accStr.length) + 1 := by
  unfold Bytes.stringByte
  simp only [List.length_append, List.length_cons, List.length_nil]
  split <;> rfl

theorem moved_escape {text m : List UInt8} {d d' : Dec} {t : Option Bytes.Token} {c tests e : Nat} (hl : text.length ≤ isizeMax)
    (hm : m.length ≤ text.length) (hs : d.state = .stringEscape) (hn : d.done = none) (hp : Pre d c tests e)
    (h : Bytes.advanceEscape d m = some (d', t)) : Moved text d d' t c tests e := by
  unfold Pre at hp
  rw [hs] at hp
  obtain ⟨p1, p2, p3⟩ := hp
  have hf : front d = d.idx := by unfold front; rw [hn, hs]
  unfold Bytes.advanceEscape at h
  simp only [Option.bind_eq_bind, Option.bind_eq_some_iff] at h
  obtain ⟨i, hi, esc, he, h⟩ := h
  have := Bytes.strictAdd_some hi
  subst this
  have h0 := (List.getElem?_eq_some_iff.mp he).1
  have push : ∀ (v : UInt8) (raw : List UInt8) (n : Nat), Bytes.strictSub (d.idx + 1) 2 = some n → Bytes.upTo m n = some raw → ∀ t : Option Bytes.Token,
      t.any isUnescaped = false →
      Moved text d { Bytes.stringByte { d with idx := d.idx + 1 } raw v with state := .string (d.idx + 1) } t c tests e := by
    intro v raw n h1 h2 t ht
    have h3 := Bytes.strictSub_some h1
    obtain ⟨h4, h5⟩ := upTo_some h2
    have hacc := byte_length { d with idx := d.idx + 1 } raw v
    simp only [] at hacc
    generalize hd : ({ Bytes.stringByte { d with idx := d.idx + 1 } raw v with state := .string (d.idx + 1) } : Dec) = d2
    have e1 : d2.state = .string (d.idx + 1) := by rw [← hd]
    have e2 : d2.idx = d.idx + 1 := by rw [← hd]; rfl
    have e3 : d2.done = none := by rw [← hd]; exact hn
    have e4 : d2.accStr.length = (if d.accStr.length = 0 then raw.length else d.accStr.length) + 1 := by rw [← hd]; exact hacc
    have hf2 := front_string e3 e1
    exact ⟨wfc_string hl e3 e1 (by omega), by rw [e4]; split <;> omega, by omega, fun _ => by omega,
      .inl ⟨ht, tally_string e3 e1 (by omega) (by omega) (by omega) (by rw [e4]; split <;> omega)⟩⟩
  split at h
  · simp only [Option.bind_eq_some_iff, Option.some.injEq, Prod.mk.injEq] at h
    obtain ⟨n, h1, raw, h2, rfl, rfl⟩ := h
    exact push _ _ _ h1 h2 _ rfl
  · split at h
    · simp only [Option.some.injEq, Prod.mk.injEq] at h
      obtain ⟨rfl, rfl⟩ := h
      obtain ⟨s, i, dn, acc⟩ := d
      cases hn
      simp only at *
      refine ⟨⟨hl, by show i + 1 ≤ _; omega, Nat.le_refl _, by show i + 1 < i + 1 + 4; omega⟩, Nat.le_refl _, by show _ ≤ i + 1; omega,
        fun _ => by show _ < i + 1; omega, .inl ⟨rfl, by show 3 ≤ i + 1; omega, by show _ ≤ 2 * c + (i + 1) + (i + 1); omega, ?_⟩⟩
      show 2 * acc.length ≤ 3 * (i + 1 - 2) + 2 * e
      omega
    · simp only [Option.bind_eq_some_iff, Option.some.injEq, Prod.mk.injEq] at h
      obtain ⟨n, h1, raw, h2, rfl, rfl⟩ := h
      exact push _ _ _ h1 h2 _ rfl

theorem moved_to_string {text : List UInt8} {d d2 : Dec} {s' : Nat} {t : Option Bytes.Token} {c tests e : Nat} (hl : text.length ≤ isizeMax)
    (hn : d2.done = none) (hs : d2.state = .string s') (hi : d2.idx ≤ text.length) (h1 : 1 ≤ d2.idx) (h2 : s' ≤ d2.idx)
    (h3 : tests + 2 ≤ 2 * (c + d2.idx)) (h4 : 2 * d2.accStr.length ≤ 3 * s' + 2 * e) (ha : d.accStr.length ≤ d2.accStr.length)
    (hf : front d ≤ d2.idx) (hq : t = none → front d < d2.idx) (ht : t.any isUnescaped = false) : Moved text d d2 t c tests e := by
  have hf2 := front_string hn hs
  exact ⟨wfc_string hl hn hs hi, ha, by omega, fun h => by have := hq h; omega, .inl ⟨ht, tally_string hn hs h1 h2 h3 h4⟩⟩

theorem moved_to_trail {text : List UInt8} {d d2 : Dec} {l : Nat} {t : Option Bytes.Token} {c tests e : Nat} (hl : text.length ≤ isizeMax)
    (hn : d2.done = none) (hs : d2.state = .stringEscapeUnicodeTrail d2.idx l) (hi : d2.idx ≤ text.length) (h1 : 7 ≤ d2.idx)
    (h3 : tests + 9 ≤ 2 * c + d2.idx + d2.idx) (h4 : 2 * d2.accStr.length ≤ 3 * (d2.idx - 6) + 2 * e) (ha : d.accStr.length ≤ d2.accStr.length)
    (hf : front d < d2.idx) (ht : t.any isUnescaped = false) : Moved text d d2 t c tests e := by
  have hf2 : front d2 = d2.idx := by unfold front; rw [hn, hs]
  refine ⟨?_, ha, by omega, fun _ => by omega, .inl ⟨ht, ?_⟩⟩
  · unfold Wfc; rw [hn]; unfold Wf; rw [hs]; exact ⟨hl, hi, Nat.le_refl _, by omega⟩
  · unfold Tally; rw [hn, hs]; exact ⟨h1, h3, h4⟩

theorem moved_unicode {text m : List UInt8} {d d' : Dec} {s : Nat} {t : Option Bytes.Token} {c tests e : Nat} (hl : text.length ≤ isizeMax)
    (hm : m.length ≤ text.length) (hs : d.state = .stringEscapeUnicode s) (hn : d.done = none) (hseen : Seen d m) (hp : Pre d c tests e)
    (h : Bytes.advanceUnicode d s m = some (d', t)) : Moved text d d' t c tests e := by
  unfold Pre at hp
  rw [hs] at hp
  obtain ⟨p1, p2, p3, p4, p5⟩ := hp
  unfold Seen at hseen
  rw [hs] at hseen
  obtain ⟨q1, q2⟩ := hseen
  have hf : front d = s := by unfold front; rw [hn, hs]
  have hr := replacement_bytes
  unfold Bytes.advanceUnicode at h
  simp only [Option.bind_eq_bind, Option.bind_eq_some_iff] at h
  obtain ⟨mx, hmx, h⟩ := h
  have := Bytes.strictAdd_some hmx
  subst this
  split at h
  · simp only [Option.bind_eq_some_iff, Option.some.injEq, Prod.mk.injEq] at h
    obtain ⟨d2, h1, rfl, rfl⟩ := h
    obtain ⟨b1, b2, b3, b4, b5⟩ := pushChar_some h1
    simp only at b2 b3 b4 b5
    rw [hn] at b4
    exact moved_to_string hl b4 b2 (by omega) (by omega) (by omega) (by omega) (by rw [b5, hr]; split <;> omega) (by rw [b5]; split <;> omega) (by omega)
      (fun h => (by cases h)) rfl
  · rename_i hne
    simp only [ne_eq, Decidable.not_not] at hne
    have p4 := p4 hne
    simp only [Option.bind_eq_some_iff] at h
    obtain ⟨code, -, h⟩ := h
    split at h
    · simp only [Option.some.injEq, Prod.mk.injEq] at h
      obtain ⟨rfl, rfl⟩ := h
      exact moved_to_trail hl hn rfl (by show d.idx ≤ _; omega) (by show _ ≤ d.idx; omega) (by show _ ≤ 2 * c + d.idx + d.idx; omega)
        (by show 2 * d.accStr.length ≤ 3 * (d.idx - 6) + 2 * e; omega) (Nat.le_refl _) (by show _ < d.idx; omega) rfl
    · split at h
      · simp only [Option.bind_eq_some_iff, Option.some.injEq, Prod.mk.injEq] at h
        obtain ⟨d2, h1, rfl, rfl⟩ := h
        obtain ⟨b1, b2, b3, b4, b5⟩ := pushChar_some h1
        rw [hn] at b4
        exact moved_to_string hl b4 rfl (by show d2.idx ≤ _; omega) (by show _ ≤ d2.idx; omega) (Nat.le_refl d2.idx) (by show _ ≤ 2 * (c + d2.idx); omega)
          (by show 2 * d2.accStr.length ≤ 3 * d2.idx + _; rw [b5, hr]; split <;> omega)
          (by show _ ≤ d2.accStr.length; rw [b5]; split <;> omega) (by show _ ≤ d2.idx; omega) (fun h => (by cases h)) rfl
      · simp only [Option.bind_eq_some_iff, Option.some.injEq, Prod.mk.injEq] at h
        obtain ⟨ch, -, d2, h1, rfl, rfl⟩ := h
        obtain ⟨b1, b2, b3, b4, b5⟩ := pushChar_some h1
        have hch := char_bytes ch
        rw [hn] at b4
        exact moved_to_string hl b4 rfl (by show d2.idx ≤ _; omega) (by show _ ≤ d2.idx; omega) (Nat.le_refl d2.idx) (by show _ ≤ 2 * (c + d2.idx); omega)
          (by show 2 * d2.accStr.length ≤ 3 * d2.idx + _; rw [b5]; split <;> omega)
          (by show _ ≤ d2.accStr.length; rw [b5]; split <;> omega) (by show _ ≤ d2.idx; omega) (fun h => by show _ < d2.idx; omega) rfl

theorem moved_trail {text m : List UInt8} {d d' : Dec} {s l : Nat} {t : Option Bytes.Token} {c tests e : Nat} (hl : text.length ≤ isizeMax)
    (hm : m.length ≤ text.length) (hs : d.state = .stringEscapeUnicodeTrail s l) (hn : d.done = none) (hseen : Seen d m) (hp : Pre d c tests e)
    (h : Bytes.advanceTrail d s l m = some (d', t)) : Moved text d d' t c tests e := by
  unfold Pre at hp
  rw [hs] at hp
  obtain ⟨p1, p2, p3, p4, p5⟩ := hp
  unfold Seen at hseen
  rw [hs] at hseen
  obtain ⟨q1, q2⟩ := hseen
  have hf : front d = s := by unfold front; rw [hn, hs]
  have hr := replacement_bytes
  unfold Bytes.advanceTrail at h
  simp only [Option.bind_eq_bind, Option.bind_eq_some_iff] at h
  obtain ⟨mx, hmx, h⟩ := h
  have := Bytes.strictAdd_some hmx
  subst this
  split at h
  · simp only [Option.bind_eq_some_iff, Option.some.injEq, Prod.mk.injEq] at h
    obtain ⟨d2, h1, rfl, rfl⟩ := h
    obtain ⟨b1, b2, b3, b4, b5⟩ := pushChar_some h1
    simp only at b2 b3 b4 b5
    rw [hn] at b4
    exact moved_to_string hl b4 b2 (by omega) (by omega) (by omega) (by omega) (by rw [b5, hr]; split <;> omega) (by rw [b5]; split <;> omega) (by omega)
      (fun h => (by cases h)) rfl
  · rename_i hne
    simp only [ne_eq, Decidable.not_not] at hne
    have p4 := p4 hne
    simp only [Option.bind_eq_some_iff] at h
    obtain ⟨code, -, h⟩ := h
    split at h
    · simp only [Option.bind_eq_some_iff, Option.some.injEq, Prod.mk.injEq] at h
      obtain ⟨d2, h1, rfl, rfl⟩ := h
      obtain ⟨b1, b2, b3, b4, b5⟩ := pushChar_some h1
      rw [hn] at b4
      exact moved_to_trail hl b4 rfl (by show d2.idx ≤ _; omega) (by show _ ≤ d2.idx; omega) (by show _ ≤ 2 * c + d2.idx + d2.idx; omega)
        (by show 2 * d2.accStr.length ≤ 3 * (d2.idx - 6) + 2 * e; rw [b5, hr]; split <;> omega)
        (by show _ ≤ d2.accStr.length; rw [b5]; split <;> omega) (by show _ < d2.idx; omega) rfl
    · split at h
      · simp only [Option.bind_eq_some_iff, Option.some.injEq, Prod.mk.injEq] at h
        obtain ⟨off, -, ch, -, d2, h1, rfl, rfl⟩ := h
        obtain ⟨b1, b2, b3, b4, b5⟩ := pushChar_some h1
        have hch := char_bytes ch
        rw [hn] at b4
        exact moved_to_string hl b4 rfl (by show d2.idx ≤ _; omega) (by show _ ≤ d2.idx; omega) (Nat.le_refl d2.idx) (by show _ ≤ 2 * (c + d2.idx); omega)
          (by show 2 * d2.accStr.length ≤ 3 * d2.idx + _; rw [b5]; split <;> omega)
          (by show _ ≤ d2.accStr.length; rw [b5]; split <;> omega) (by show _ ≤ d2.idx; omega) (fun h => by show _ < d2.idx; omega) rfl
      · simp only [Option.bind_eq_some_iff, Option.some.injEq, Prod.mk.injEq] at h
        obtain ⟨d1, h0, ch, -, d2, h1, rfl, rfl⟩ := h
        obtain ⟨b1, b2, b3, b4, b5⟩ := pushChar_some h1
        obtain ⟨a1, a2, a3, a4, a5⟩ := pushChar_some h0
        have hch := char_bytes ch
        rw [a4, hn] at b4
        rw [hr] at a5
        rw [if_neg (by split at a5 <;> omega)] at b5
        exact moved_to_string hl b4 rfl (by show d2.idx ≤ _; omega) (by show _ ≤ d2.idx; omega) (Nat.le_refl d2.idx) (by show _ ≤ 2 * (c + d2.idx); omega)
          (by show 2 * d2.accStr.length ≤ 3 * d2.idx + _; rw [b5, a5]; split <;> omega)
          (by show _ ≤ d2.accStr.length; rw [b5, a5]; split <;> omega) (by show _ ≤ d2.idx; omega) (fun h => (by cases h)) rfl

theorem moved_handle {text m : List UInt8} {d d' : Dec} {t : Option Bytes.Token} {c tests e : Nat} (hl : text.length ≤ isizeMax)
    (hm : m <+: text) (hn : d.done = none) (hseen : Seen d m) (hp : Pre d c tests e)
    (h : Bytes.handle d m = some (d', t)) : Moved text d d' t c tests e := by
  have hml := hm.length_le
  unfold Bytes.handle at h
  cases hs : d.state <;> rw [hs] at h <;> simp only [] at h
  · exact moved_none hl hml hs hn hp h
  · exact moved_whitespace hl hml hs hn hp h
  · exact moved_item hl hml hs hn hp h
  · exact moved_number hl hml hs hn hp h
  · exact moved_numberDone hl hml hs hn hp h
  · exact moved_string hl hm hs hn hp h
  · exact moved_escape hl hml hs hn hp h
  · exact moved_unicode hl hml hs hn hseen hp h
  · exact moved_trail hl hml hs hn hseen hp h

end Verif.Json.Work
