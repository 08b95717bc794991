import Verif.Json.LemmasBytes5
/-! # The streaming JSON tokenizer on a text: whole numbers -/
namespace Verif.Json.Bytes
open Verif.Io (usizeMax)

theorem more_ok (n : Numeral) (d : List UInt8) (h : n.signs ≠ [] ∨ n.digits ≠ []) : (n.more d).signs ≠ [] ∨ (n.more d).digits ≠ [] := by
  obtain ⟨s, i, f, e⟩ := n
  rcases e with - | ⟨c, t, e⟩ <;> rcases f with - | f <;> simp_all [Numeral.more]
  rcases h with h | h
  · exact .inl h
  · exact .inr fun g => (h g).elim

theorem handle_number (n : Numeral) (d text : List UInt8) :
    handle { n.at with idx := n.bytes.length + d.length } text =
    (match text[(n.more d).bytes.length]? with
    | none => none
    | some b =>
      if b = 0x2b ∨ b = 0x2d then numberSign (n.more d).at (n.more d).num (n.more d).range b text
      else if b = 0x2e then numberPoint (n.more d).at (n.more d).num (n.more d).range text
      else if b = 0x65 ∨ b = 0x45 then numberExponent (n.more d).at (n.more d).num (n.more d).range text
      else finishNumber (n.more d).at text) := by
  show advanceNumber _ _ _ = _
  unfold advanceNumber
  simp only []
  rw [grow_eq]
  have e : n.bytes.length + d.length = (n.more d).bytes.length := by rw [more_bytes, List.length_append]
  simp only [e]
  rfl

theorem number_pushes (n : Numeral) (d : List UInt8) (b : UInt8) (r : List UInt8) (hne : n.signs ≠ [] ∨ n.digits ≠ []) (hd : ∀ c ∈ d, Digit c)
    (hb : ¬ Digit b) (ht : (n.more d).Takes b) (hl : (n.bytes ++ (d ++ b :: r)).length ≤ isizeMax) :
    inner (n.bytes ++ (d ++ b :: r)) n.at = (n.bytes ++ (d ++ b :: r), ((n.more d).push b).at,
      outOf (.cont (if (n.more d).excess b then some (.error .numberMultipleSigns) else none))) := by
  have hu := isize_usize _ hl
  have hlen : (n.bytes ++ (d ++ b :: r)).length = n.bytes.length + (d.length + (r.length + 1)) := by simp
  rw [inner_none rfl, while_stop (d := n.at) (max := none) (p := fun _ b => isDigit b) rfl rfl (all_getElem fun c hc => (isDigit_iff c).mpr (hd c hc))
    ((not_true_iff (isDigit_iff b)).mpr hb) (by simp only [Option.getD_none]; omega),
    show handle { n.at with idx := n.bytes.length + d.length } _ = _ from (handle_number n d _).trans
      (push_step (n.more d) b r (more_ok n d hne) hb ht (by rw [more_bytes, List.length_append]; omega) _ (by rw [more_bytes, List.append_assoc]))]
  rfl

theorem number_stops (n : Numeral) (d : List UInt8) (b : UInt8) (r : List UInt8) (hne : n.signs ≠ [] ∨ n.digits ≠ []) (hd : ∀ c ∈ d, Digit c)
    (ht : ¬ (n.more d).Takes b) (hl : (n.bytes ++ (d ++ b :: r)).length ≤ isizeMax) :
    inner (n.bytes ++ (d ++ b :: r)) n.at = (n.bytes ++ (d ++ b :: r), fin { n.at with idx := n.bytes.length + d.length }
      (finishNumber (n.more d).at (n.bytes ++ (d ++ b :: r)))) := by
  have hu := isize_usize _ hl
  have hlen : (n.bytes ++ (d ++ b :: r)).length = n.bytes.length + (d.length + (r.length + 1)) := by simp
  have hb : ¬ Digit b := fun h => ht (.inl h)
  rw [inner_none rfl, while_stop (d := n.at) (max := none) (p := fun _ b => isDigit b) rfl rfl (all_getElem fun c hc => (isDigit_iff c).mpr (hd c hc))
    ((not_true_iff (isDigit_iff b)).mpr hb) (by simp only [Option.getD_none]; omega),
    show handle { n.at with idx := n.bytes.length + d.length } _ = _ from (handle_number n d _).trans
      (stop_step (n.more d) b r (more_ok n d hne) ht _ (by rw [more_bytes, List.append_assoc]))]

theorem number_waits (n : Numeral) (d : List UInt8) (hd : ∀ c ∈ d, Digit c) (hl : (n.bytes ++ d).length ≤ isizeMax) :
    inner (n.bytes ++ d) n.at = (n.bytes ++ d, ⟨.number n.num, n.bytes.length + d.length, none, []⟩, .wait) := by
  have hu := isize_usize _ hl
  have hlen : (n.bytes ++ d).length = n.bytes.length + d.length := by simp
  rw [inner_none rfl, while_end (d := n.at) (max := none) (p := fun _ b => isDigit b) rfl rfl (all_getElem fun c hc => (isDigit_iff c).mpr (hd c hc))
    (by simp only [Option.getD_none]; omega)]
  rfl

theorem wfc_at (n : Numeral) (v : List UInt8) (hl : (n.bytes ++ v).length ≤ isizeMax) : Wfc (n.bytes ++ v) n.at := ⟨hl, by simp [Numeral.at]⟩

/-! ## The end of a number -/

theorem hollow_iff (n : Numeral) : n.num.rangeEmpty = true ↔ n.Hollow := by
  obtain ⟨s, i, f, e⟩ := n
  unfold Numeral.Hollow
  rcases e with - | ⟨c, t, e⟩ <;> rcases f with - | f <;>
    simp [Num.rangeEmpty, Numeral.num, ← List.length_eq_zero_iff] <;> omega

theorem text_eq {raw : List UInt8} {u m v : List UInt8} {r : Range} (hm : ∀ b ∈ m, Digit b) (h : raw = u ++ (m ++ v)) (h1 : r.start = u.length)
    (h2 : r.stop = u.length + m.length) : text raw r = some m := by
  unfold text
  rw [h, between_mid h1 h2]
  show (if _ then _ else _) = _
  rw [if_pos (isUtf8_ascii fun b hb => digit_ascii b (hm b hb))]

theorem raiseNumber_eq (raw : List UInt8) (n : Num) : raiseNumber raw n =
    (text raw n.integer).bind fun integer =>
      (if n.fraction.start ≠ 0 then (text raw n.fraction).map some else some none).bind fun fraction =>
        (if n.exponent.start ≠ 0 then (text raw n.exponent).map fun x => some (n.exponentSign, x) else some none).map fun exponent =>
          .number ⟨raw, n.sign, integer, fraction, exponent⟩ := by
  unfold raiseNumber
  by_cases h1 : n.fraction.start = 0 <;> by_cases h2 : n.exponent.start = 0 <;> simp only [h1, h2, ne_eq, if_true, if_false, not_true, not_false_eq_true] <;>
    cases text raw n.integer <;> cases text raw n.fraction <;> cases text raw n.exponent <;> rfl

theorem raise_eq (n : Numeral) (h : n.Wf) : raiseNumber n.bytes n.num = some (.number n.number) := by
  obtain ⟨-, -, h1, h2, h3⟩ := h
  obtain ⟨s, i, f, e⟩ := n
  rw [raiseNumber_eq]
  have e1 : text (Numeral.bytes ⟨s, i, f, e⟩) (Numeral.num ⟨s, i, f, e⟩).integer = some i :=
    text_eq (u := s) (v := (match (generalizing := false) f with | none => [] | some f => 0x2e :: f) ++ (match (generalizing := false) e with | none => [] | some (c, s, e) => c :: (s ++ e)))
      h1 (by rcases f with - | f <;> rcases e with - | ⟨c, t, e⟩ <;> simp [Numeral.bytes]) rfl rfl
  have e2 : (if (Numeral.num ⟨s, i, f, e⟩).fraction.start ≠ 0 then (text (Numeral.bytes ⟨s, i, f, e⟩) (Numeral.num ⟨s, i, f, e⟩).fraction).map some
      else some none) = some f := by
    rcases f with - | f
    · rfl
    · rw [if_pos (by simp [Numeral.num])]
      rw [text_eq (u := s ++ i ++ [0x2e]) (m := f) (v := match (generalizing := false) e with | none => [] | some (c, s, e) => c :: (s ++ e)) (h2 f rfl)
        (by rcases e with - | ⟨c, t, e⟩ <;> simp [Numeral.bytes]) (by simp [Numeral.num]; omega) (by simp [Numeral.num]; omega)]
      rfl
  have e3 : (if (Numeral.num ⟨s, i, f, e⟩).exponent.start ≠ 0 then (text (Numeral.bytes ⟨s, i, f, e⟩) (Numeral.num ⟨s, i, f, e⟩).exponent).map
      fun x => some ((Numeral.num ⟨s, i, f, e⟩).exponentSign, x) else some none) = some (e.map fun (_, s, e) => (signOf s, e)) := by
    rcases e with - | ⟨c, t, e⟩
    · rfl
    · rw [if_pos (by simp [Numeral.num])]
      rw [text_eq (u := s ++ i ++ (match (generalizing := false) f with | none => [] | some f => 0x2e :: f) ++ (c :: t)) (m := e) (v := []) (h3 c t e rfl).2.2
        (by rcases f with - | f <;> simp [Numeral.bytes]) (by rcases f with - | f <;> simp [Numeral.num] <;> omega) (by rcases f with - | f <;> simp [Numeral.num] <;> omega)]
      rfl
  rw [e1, e2, e3]
  rfl

/-- The tokens at the end of a number. -/
def Numeral.endTokens (n : Numeral) : List Token := (if n.Hollow then [.error .numberRangeEmpty] else []) ++ [.number n.number]

theorem number_ends (n : Numeral) (d : List UInt8) (v : List UInt8) (hn : (n.more d).Wf) (hne : n.signs ≠ [] ∨ n.digits ≠ [])
    (hd : ∀ c ∈ d, Digit c) (hv : ∃ b v', v = b :: v' ∧ ¬ (n.more d).Takes b) {k : Nat} {toks : List Token} {tf : List UInt8} {P : Dec → Prop}
    (hr : Goes k v toks tf P) (hl : ((n.more d).bytes ++ v).length ≤ isizeMax) :
    ∃ df, Drain (k + 2) ((n.more d).bytes ++ v) n.at ((n.more d).endTokens ++ toks) tf df ∧ P df := by
  obtain ⟨b, r, rfl, ht⟩ := hv
  have hl' := hl
  have htx : (n.more d).bytes ++ b :: r = n.bytes ++ (d ++ b :: r) := by rw [more_bytes, List.append_assoc]
  have hs := number_stops n d b r hne hd ht (by rw [← htx]; exact hl)
  rw [← htx] at hs
  have hw : Wfc ((n.more d).bytes ++ b :: r) n.at := by rw [htx]; exact wfc_at n _ (by rw [← htx]; exact hl)
  generalize hm : n.more d = m at *
  have hraise := raise_eq m hn
  unfold Numeral.endTokens
  unfold finishNumber at hs
  rw [show m.at.idx = m.bytes.length from rfl, upTo_left] at hs
  simp only [Option.bind_some] at hs
  by_cases hh : m.Hollow
  · rw [if_pos hh]
    obtain ⟨df, h1, h2⟩ := hr m.bytes (.numberDone m.num) m.bytes.length [] hl
    refine ⟨df, ?_, h2⟩
    have e : numberDone m.at m.bytes = some (⟨.numberDone m.num, m.bytes.length, none, []⟩, some (.error .numberRangeEmpty)) := by
      show (if m.num.rangeEmpty = true then _ else _) = _
      rw [if_pos ((hollow_iff m).mpr hh)]; rfl
    rw [e] at hs
    refine .tell hw hs (.tell ⟨hl, by show m.bytes.length ≤ (m.bytes ++ b :: r).length; simp⟩ ?_ h1)
    rw [inner_none rfl]
    show (m.bytes ++ b :: r, if m.bytes.length ≤ (m.bytes ++ b :: r).length then
      fin ⟨.numberDone m.num, m.bytes.length, none, []⟩ (advanceNumberDone ⟨.numberDone m.num, m.bytes.length, none, []⟩ m.num (m.bytes ++ b :: r))
      else (⟨.numberDone m.num, m.bytes.length, none, []⟩, Out.wait)) = _
    rw [if_pos (by simp)]
    unfold advanceNumberDone
    simp only []
    rw [upTo_left]
    show (_, fin _ ((raiseNumber m.bytes m.num).bind _)) = _
    rw [hraise]; rfl
  · rw [if_neg hh]
    obtain ⟨df, h1, h2⟩ := hr m.bytes (.number m.num) m.bytes.length [] hl
    refine ⟨df, ?_, h2⟩
    have e : numberDone m.at m.bytes = some (⟨.number m.num, m.bytes.length, some m.bytes.length, []⟩, some (.number m.number)) := by
      show (if m.num.rangeEmpty = true then _ else _) = _
      rw [if_neg (fun h => hh ((hollow_iff m).mp h)), hraise]; rfl
    rw [e] at hs
    exact (Drain.tell hw hs h1).mono (by omega)

/-! ## The way to the last digits -/

/-- What the tokenizer remembers while it reads the last digits. -/
def Numeral.stale (n : Numeral) : Numeral :=
  match n.exponent with
  | some (c, s, _) => { n with exponent := some (c, s, []) }
  | none =>
    match n.fraction with
    | some _ => { n with fraction := some [] }
    | none => if n.signs = [] then { n with digits := n.digits.take 1 } else { n with digits := [] }

/-- The digits that are read then. -/
def Numeral.last (n : Numeral) : List UInt8 :=
  match n.exponent with
  | some (_, _, e) => e
  | none =>
    match n.fraction with
    | some f => f
    | none => if n.signs = [] then n.digits.drop 1 else n.digits

theorem stale_more (n : Numeral) : n.stale.more n.last = n := by
  obtain ⟨s, i, f, e⟩ := n
  rcases e with - | ⟨c, t, e⟩
  · rcases f with - | f
    · by_cases h : s = []
      · rw [h]
        show Numeral.mk [] (i.take 1 ++ i.drop 1) none none = _
        rw [List.take_append_drop]
      · simp [Numeral.stale, Numeral.last, Numeral.more, h]
    · simp [Numeral.stale, Numeral.last, Numeral.more]
  · simp [Numeral.stale, Numeral.last, Numeral.more]

theorem last_digits (n : Numeral) (h : n.Wf) : ∀ c ∈ n.last, Digit c := by
  obtain ⟨-, -, h1, h2, h3⟩ := h
  obtain ⟨s, i, f, e⟩ := n
  rcases e with - | ⟨c, t, e⟩
  · rcases f with - | f
    · by_cases h : s = []
      · simp only [Numeral.last, h, if_true]
        exact fun c hc => h1 c (List.mem_of_mem_drop hc)
      · simp only [Numeral.last, h, if_false]; exact h1
    · exact h2 f rfl
  · exact (h3 c t e rfl).2.2

theorem stale_ok (n : Numeral) (h : n.Wf) : n.stale.signs ≠ [] ∨ n.stale.digits ≠ [] := by
  obtain ⟨h0, -⟩ := h
  obtain ⟨s, i, f, e⟩ := n
  rcases e with - | ⟨c, t, e⟩
  · rcases f with - | f
    · by_cases h : s = []
      · right
        simp only [Numeral.stale, h, if_true]
        rcases h0 with h0 | h0
        · exact (h0 h).elim
        · intro hc
          rw [List.take_eq_nil_iff] at hc
          rcases hc with hc | hc
          · exact absurd hc (by decide)
          · exact h0 hc
      · left; simp only [Numeral.stale, h, if_false]; exact h
    · exact h0
  · exact h0

section
variable {k : Nat} {toks : List Token} {tf : List UInt8} {df : Dec}

/-- Signs of the exponent. -/
theorem exp_signs (s i : List UInt8) (f : Option (List UInt8)) (c : UInt8) (hne : s ≠ [] ∨ i ≠ []) : ∀ (t1 t0 r : List UInt8), (∀ b ∈ t1, SignByte b) →
    ((Numeral.mk s i f (some (c, t0 ++ t1, []))).bytes ++ r).length ≤ isizeMax →
    Drain k ((Numeral.mk s i f (some (c, t0 ++ t1, []))).bytes ++ r) (Numeral.mk s i f (some (c, t0 ++ t1, []))).at toks tf df →
    Drain (k + t1.length) ((Numeral.mk s i f (some (c, t0 ++ t1, []))).bytes ++ r) (Numeral.mk s i f (some (c, t0, []))).at
      (List.replicate (if t0 = [] then t1.length - 1 else t1.length) (.error .numberMultipleSigns) ++ toks) tf df
  | [], t0, r, _, hl, h => by
    rw [List.append_nil] at h ⊢
    have e : (if t0 = [] then ([] : List UInt8).length - 1 else ([] : List UInt8).length) = 0 := by split <;> rfl
    rw [e]; exact h
  | b :: t1, t0, r, ht, hl, h => by
    have e0 : t0 ++ b :: t1 = (t0 ++ [b]) ++ t1 := by simp
    have hb := ht b List.mem_cons_self
    rw [e0] at h hl ⊢
    have ih := exp_signs s i f c hne t1 (t0 ++ [b]) r (fun x hx => ht x (List.mem_cons_of_mem _ hx)) hl h
    rw [if_neg (by simp)] at ih
    have htx : (Numeral.mk s i f (some (c, t0 ++ [b] ++ t1, []))).bytes ++ r = (Numeral.mk s i f (some (c, t0, []))).bytes ++ ([] ++ b :: (t1 ++ r)) := by
      simp [Numeral.bytes]
    obtain ⟨g1, g2, g3, g4⟩ := byte_sign b hb
    have hnd : ¬ Digit b := by rcases g1 with rfl | rfl <;> decide
    have hp := number_pushes (Numeral.mk s i f (some (c, t0, []))) [] b (t1 ++ r) hne (by simp) hnd
      (.inr ⟨rfl, hb⟩) (by rw [← htx]; exact hl)
    rw [← htx] at hp
    have hw : Wfc ((Numeral.mk s i f (some (c, t0 ++ [b] ++ t1, []))).bytes ++ r) (Numeral.mk s i f (some (c, t0, []))).at := by
      rw [htx]; exact wfc_at _ _ (by rw [← htx]; exact hl)
    have e1 : (Numeral.more (Numeral.mk s i f (some (c, t0, []))) []).push b = Numeral.mk s i f (some (c, t0 ++ [b], [])) := by
      simp [Numeral.more, Numeral.push, g1]
    have e2 : (Numeral.more (Numeral.mk s i f (some (c, t0, []))) []).excess b = !t0.isEmpty := by
      simp [Numeral.more, Numeral.excess, g1]
    rw [e1, e2] at hp
    cases t0 with
    | nil =>
      rw [if_pos rfl]
      exact .quiet hw hp ih
    | cons x t0 =>
      rw [if_neg (by simp)]
      rw [List.length_cons, List.replicate_succ]
      exact .tell hw hp ih

/-- Signs before the number, after the first one. -/
theorem int_signs : ∀ (s1 s0 r : List UInt8), s0 ≠ [] → (∀ b ∈ s1, SignByte b) → (s0 ++ s1 ++ r).length ≤ isizeMax →
    Drain k (s0 ++ s1 ++ r) (Numeral.mk (s0 ++ s1) [] none none).at toks tf df →
    Drain (k + s1.length) (s0 ++ s1 ++ r) (Numeral.mk s0 [] none none).at
      ((if s0.length = 1 ∧ s1 ≠ [] then [.error .numberMultipleSigns] else []) ++ toks) tf df
  | [], s0, r, hs, _, hl, h => by
    rw [List.append_nil] at h ⊢
    rw [if_neg (by simp)]; exact h
  | b :: s1, s0, r, hs, ht, hl, h => by
    have e0 : s0 ++ b :: s1 = (s0 ++ [b]) ++ s1 := by simp
    have hb := ht b List.mem_cons_self
    rw [e0] at h hl ⊢
    have ih := int_signs s1 (s0 ++ [b]) r (by simp) (fun x hx => ht x (List.mem_cons_of_mem _ hx)) hl h
    have hpos := List.length_pos_iff.mpr hs
    rw [if_neg (by simp only [List.length_append, List.length_singleton]; omega)] at ih
    have htx : s0 ++ [b] ++ s1 ++ r = (Numeral.mk s0 [] none none).bytes ++ ([] ++ b :: (s1 ++ r)) := by
      simp [Numeral.bytes]
    obtain ⟨g1, g2, g3, g4⟩ := byte_sign b hb
    have hnd : ¬ Digit b := by rcases g1 with rfl | rfl <;> decide
    have hp := number_pushes (Numeral.mk s0 [] none none) [] b (s1 ++ r) (.inl hs) (by simp) hnd
      (.inr (.inr ⟨rfl, .inr ⟨rfl, hb⟩⟩)) (by rw [← htx]; exact hl)
    rw [← htx] at hp
    have hw : Wfc (s0 ++ [b] ++ s1 ++ r) (Numeral.mk s0 [] none none).at := by
      rw [htx]; exact wfc_at _ _ (by rw [← htx]; exact hl)
    have e1 : (Numeral.more (Numeral.mk s0 [] none none) []).push b = Numeral.mk (s0 ++ [b]) [] none none := by
      simp [Numeral.more, Numeral.push, g1]
    have e2 : (Numeral.more (Numeral.mk s0 [] none none) []).excess b = (s0.length == 1) := by
      simp [Numeral.more, Numeral.excess, g1]
    rw [e1, e2] at hp
    by_cases h1 : s0.length = 1
    · rw [if_pos ⟨h1, by simp⟩]
      rw [h1] at hp
      exact .tell hw hp ih
    · rw [if_neg (fun h => h1 h.1)]
      rw [show (s0.length == 1) = false by simp [h1]] at hp
      exact .quiet hw hp ih

/-- A letter or a point after digits. -/
theorem part_step (n : Numeral) (d : List UInt8) (b : UInt8) (r : List UInt8) (hne : n.signs ≠ [] ∨ n.digits ≠ []) (hd : ∀ c ∈ d, Digit c)
    (ht : (n.more d).Takes b) (hb : ¬ Digit b) (hs : ¬ SignByte b) (hl : ((n.more d).bytes ++ b :: r).length ≤ isizeMax)
    (h : Drain k ((n.more d).bytes ++ b :: r) ((n.more d).push b).at toks tf df) :
    Drain (k + 1) ((n.more d).bytes ++ b :: r) n.at toks tf df := by
  have htx : (n.more d).bytes ++ b :: r = n.bytes ++ (d ++ b :: r) := by rw [more_bytes, List.append_assoc]
  rw [htx] at h hl ⊢
  have hp := number_pushes n d b r hne hd hb ht hl
  have e : (n.more d).excess b = false := by
    unfold Numeral.excess
    rw [if_neg (show ¬ (b = 0x2b ∨ b = 0x2d) from hs)]
  rw [e] at hp
  exact .quiet (wfc_at _ _ hl) hp h

/-- From the integer on. -/
theorem from_int (n : Numeral) (v : List UInt8) (d0 d1 : List UInt8) (hn : n.Wf) (hd : n.digits = d0 ++ d1)
    (h0 : n.signs ≠ [] ∨ d0 ≠ []) (h1 : n.fraction = none → n.exponent = none → n.stale.digits = d0)
    (hl : (n.bytes ++ v).length ≤ isizeMax)
    (h : Drain k (n.bytes ++ v) n.stale.at toks tf df) :
    Drain (k + 2 + (match n.exponent with | none => 0 | some (_, s, _) => s.length)) (n.bytes ++ v) (Numeral.mk n.signs d0 none none).at
      ((match n.exponent with | none => [] | some (_, s, _) => List.replicate (s.length - 1) (.error .numberMultipleSigns)) ++ toks) tf df := by
  obtain ⟨w1, w2, w3, w4, w5⟩ := hn
  obtain ⟨s, i, f, e⟩ := n
  simp only [] at w1 w2 w3 w4 w5 h0 hd
  subst hd
  have hdd : ∀ c ∈ d1, Digit c := fun c hc => w3 c (List.mem_append_right _ hc)
  -- the exponent
  have key : ∀ (c : UInt8) (t e' : List UInt8), e = some (c, t, e') →
      Drain k ((Numeral.mk s (d0 ++ d1) f e).bytes ++ v) (Numeral.mk s (d0 ++ d1) f (some (c, t, []))).at toks tf df →
      Drain (k + t.length) ((Numeral.mk s (d0 ++ d1) f e).bytes ++ v) (Numeral.mk s (d0 ++ d1) f (some (c, [], []))).at
        (List.replicate (t.length - 1) (.error .numberMultipleSigns) ++ toks) tf df := by
    intro c t e' he h
    subst he
    have htx : (Numeral.mk s (d0 ++ d1) f (some (c, t, e'))).bytes ++ v = (Numeral.mk s (d0 ++ d1) f (some (c, [] ++ t, []))).bytes ++ (e' ++ v) := by
      simp [Numeral.bytes]
    rw [htx] at h hl ⊢
    have := exp_signs s (d0 ++ d1) f c w1 t [] (e' ++ v) (w5 c t e' rfl).2.1 hl h
    rw [if_pos rfl] at this
    exact this
  have ne1 : s ≠ [] ∨ d0 ++ d1 ≠ [] := w1
  rcases f with - | f
  · rcases e with - | ⟨c, t, e⟩
    · have : (Numeral.mk s (d0 ++ d1) none none).stale = Numeral.mk s d0 none none := by
        have hd := h1 rfl rfl
        have hx : ∀ n : Numeral, n.stale.signs = n.signs ∧ (n.exponent = none → n.stale.exponent = none) ∧
            (n.exponent = none → n.fraction = none → n.stale.fraction = none) := by
          intro n
          obtain ⟨s, i, f, e⟩ := n
          rcases e with - | ⟨c, t, e⟩
          · rcases f with - | f
            · by_cases h : s = [] <;> simp [Numeral.stale, h]
            · simp [Numeral.stale]
          · simp [Numeral.stale]
        obtain ⟨x1, x2, x3⟩ := hx (Numeral.mk s (d0 ++ d1) none none)
        have x2 := x2 rfl
        have x3 := x3 rfl rfl
        generalize (Numeral.mk s (d0 ++ d1) none none).stale = m at *
        obtain ⟨a, b, c, d⟩ := m
        simp_all
      rw [this] at h
      exact h.mono (by omega)
    · have hc := (w5 c t e rfl).1
      have h' := key c t e rfl h
      obtain ⟨g1, g2, g3⟩ := byte_exp c hc
      have htx : (Numeral.mk s (d0 ++ d1) none (some (c, t, e))).bytes ++ v
          = ((Numeral.mk s d0 none none).more d1).bytes ++ c :: (t ++ e ++ v) := by simp [Numeral.bytes, Numeral.more]
      rw [htx] at h' hl ⊢
      refine (part_step (Numeral.mk s d0 none none) d1 c _ h0 hdd (.inr (.inl hc)) (by rcases g3 with rfl | rfl <;> decide) g1 hl ?_).mono
        (k := k + t.length + 1) (by simp only []; omega)
      have e1 : ((Numeral.mk s d0 none none).more d1).push c = Numeral.mk s (d0 ++ d1) none (some (c, [], [])) := by
        simp only [Numeral.more, Numeral.push]
        rw [if_neg g1, if_neg g2]
      rw [e1]; exact h'
  · -- there is a fraction
    have hf := w4 f rfl
    have point : ∀ (e : Option (UInt8 × List UInt8 × List UInt8)) (k : Nat) (toks : List Token),
        ((Numeral.mk s (d0 ++ d1) (some f) e).bytes ++ v).length ≤ isizeMax →
        Drain k ((Numeral.mk s (d0 ++ d1) (some f) e).bytes ++ v) (Numeral.mk s (d0 ++ d1) (some []) none).at toks tf df →
        Drain (k + 1) ((Numeral.mk s (d0 ++ d1) (some f) e).bytes ++ v) (Numeral.mk s d0 none none).at toks tf df := by
      intro e k toks hl h
      have htx : (Numeral.mk s (d0 ++ d1) (some f) e).bytes ++ v = ((Numeral.mk s d0 none none).more d1).bytes ++ 0x2e :: (f ++
          (match (generalizing := false) e with | none => [] | some (c, s, e) => c :: (s ++ e)) ++ v) := by
        rcases e with - | ⟨c, t, e⟩ <;> simp [Numeral.bytes, Numeral.more]
      rw [htx] at h hl ⊢
      refine part_step (Numeral.mk s d0 none none) d1 0x2e _ h0 hdd (.inr (.inr ⟨rfl, .inl rfl⟩)) (by decide) (by decide) hl ?_
      have e1 : ((Numeral.mk s d0 none none).more d1).push 0x2e = Numeral.mk s (d0 ++ d1) (some []) none := by
        simp only [Numeral.more, Numeral.push]
        rw [if_neg (by decide), if_pos trivial]
      rw [e1]; exact h
    rcases e with - | ⟨c, t, e⟩
    · exact (point none k toks hl h).mono (by omega)
    · have hc := (w5 c t e rfl).1
      have h' := key c t e rfl h
      obtain ⟨g1, g2, g3⟩ := byte_exp c hc
      refine (point _ (k + t.length + 1) _ hl ?_).mono (by simp only []; omega)
      have htx : (Numeral.mk s (d0 ++ d1) (some f) (some (c, t, e))).bytes ++ v
          = ((Numeral.mk s (d0 ++ d1) (some []) none).more f).bytes ++ c :: (t ++ e ++ v) := by simp [Numeral.bytes, Numeral.more]
      rw [htx] at h' hl ⊢
      refine part_step (Numeral.mk s (d0 ++ d1) (some []) none) f c _ ne1 hf (.inr (.inl hc)) (by rcases g3 with rfl | rfl <;> decide) g1 hl ?_
      have e1 : ((Numeral.mk s (d0 ++ d1) (some []) none).more f).push c = Numeral.mk s (d0 ++ d1) (some f) (some (c, [], [])) := by
        simp only [Numeral.more, Numeral.push]
        rw [if_neg g1, if_neg g2]; rfl
      rw [e1]; exact h'

/-- From the first byte to the last digits. -/
theorem to_stale (n : Numeral) (v : List UInt8) (hn : n.Wf) (hl : (n.bytes ++ v).length ≤ isizeMax) (j : Nat)
    (h : Drain k (n.bytes ++ v) n.stale.at toks tf df) :
    Drain (k + 3 * n.bytes.length) (n.bytes ++ v) (start j) (n.signErrors ++ toks) tf df := by
  have hbl : n.signs.length + n.digits.length + (match n.exponent with | none => 0 | some (_, s, _) => s.length) ≤ n.bytes.length := by
    obtain ⟨s, i, f, e⟩ := n
    rcases e with - | ⟨c, t, e⟩ <;> simp only [Numeral.bytes, List.length_append, List.length_cons] <;> omega
  have hn' := hn
  obtain ⟨w1, w2, w3, w4, w5⟩ := hn'
  unfold Numeral.signErrors
  rw [List.append_assoc, List.append_assoc]
  by_cases hs : n.signs = []
  · rw [hs]
    rcases w1 with w1 | w1
    · exact (w1 hs).elim
    obtain ⟨b, l, hbl'⟩ := List.exists_cons_of_ne_nil w1
    have hfi := from_int n v [b] l hn hbl' (.inr (by simp)) (by
      intro h1 h2
      unfold Numeral.stale
      rw [h1, h2]
      simp only []
      rw [if_pos hs, hbl']
      rfl) hl h
    have e : ∃ r, n.bytes ++ v = b :: r := ⟨_, by rw [Numeral.bytes, hs, hbl']; rfl⟩
    obtain ⟨r, hr⟩ := e
    have hfd := first_digit j b r (w3 b (by rw [hbl']; exact List.mem_cons_self))
    have hfs := first_step hfd
    rw [← hr] at hfs
    have hst : (⟨.number ⟨.plus, ⟨0, 1⟩, ⟨0, 0⟩, .plus, ⟨0, 0⟩⟩, 1, none, []⟩ : Dec) = (Numeral.mk n.signs [b] none none).at := by
      rw [hs]; rfl
    rw [hst] at hfs
    refine (Drain.quiet (wfc_none j hl) hfs hfi).mono ?_
    rw [hbl'] at hbl
    simp only [List.length_cons] at hbl
    omega
  · obtain ⟨b, l, hsl⟩ := List.exists_cons_of_ne_nil hs
    have hb := w2 b (by rw [hsl]; exact List.mem_cons_self)
    have hfi := from_int n v [] n.digits hn rfl (.inl hs) (by
      intro h1 h2
      unfold Numeral.stale
      rw [h1, h2]
      simp only []
      rw [if_neg hs]) hl h
    have e : ∃ r, n.bytes ++ v = [b] ++ l ++ r := ⟨_, by rw [Numeral.bytes, hsl]; simp only [List.append_assoc, List.cons_append, List.nil_append]; rfl⟩
    obtain ⟨r, hr⟩ := e
    rw [hr] at hfi hl ⊢
    rw [hsl] at hfi
    have his := int_signs l [b] r (by simp) (fun c hc => w2 c (by rw [hsl]; exact List.mem_cons_of_mem _ hc)) hl hfi
    have hfs := first_step (first_sign j b (l ++ r) hb)
    have hst : (⟨.number ⟨signOf [b], ⟨1, 1⟩, ⟨0, 0⟩, .plus, ⟨0, 0⟩⟩, 1, none, []⟩ : Dec) = (Numeral.mk [b] [] none none).at := rfl
    rw [hst] at hfs
    have e2 : (if 2 ≤ n.signs.length then [Token.error .numberMultipleSigns] else []) =
        (if [b].length = 1 ∧ l ≠ [] then [Token.error .numberMultipleSigns] else []) := by
      rw [hsl]
      cases l with
      | nil => rfl
      | cons x l => rw [if_pos (by simp), if_pos (by simp)]
    rw [e2, hsl]
    rw [hsl] at hbl
    simp only [List.length_cons] at hbl
    simp only [List.head?_cons, Option.some.injEq]
    by_cases hp : b = 0x2b
    · rw [if_pos hp] at hfs ⊢
      exact (Drain.tell (wfc_none j hl) hfs his).mono (by omega)
    · rw [if_neg hp] at hfs ⊢
      exact (Drain.quiet (wfc_none j hl) hfs his).mono (by omega)

end

theorem run_number {k : Nat} {v tf : List UInt8} {toks : List Token} {P : Dec → Prop} (n : Numeral) (h : (Lexeme.number n).fits v)
    (hr : Goes k v toks tf P) (hl : (n.bytes ++ v).length ≤ isizeMax) :
    Run (k + 2 + 3 * n.bytes.length) (n.bytes ++ v) ((Lexeme.number n).tokens ++ toks) tf P := fun j => by
  obtain ⟨hn, b, v', hv, ht⟩ := h
  have hm := stale_more n
  obtain ⟨df, h1, h2⟩ := number_ends n.stale n.last v (by rw [hm]; exact hn) (stale_ok n hn) (last_digits n hn)
    ⟨b, v', hv, by rw [hm]; exact ht⟩ hr (by rw [hm]; exact hl)
  rw [hm] at h1
  refine ⟨df, ?_, h2⟩
  have := to_stale n v hn hl j h1
  simp only [Lexeme.tokens, List.append_assoc]
  unfold Numeral.endTokens at this
  rw [List.append_assoc] at this
  exact this

theorem rest_number {k : Nat} (n : Numeral) (hn : n.Wf) (hl : n.bytes.length ≤ isizeMax) :
    Run (k + 3 * n.bytes.length) n.bytes n.signErrors n.bytes (fun d => d = ⟨.number n.stale.num, n.bytes.length, none, []⟩) := fun j => by
  have hm : n.stale.bytes ++ n.last = n.bytes := by rw [← more_bytes, stale_more]
  have h1 := number_waits n.stale n.last (last_digits n hn) (by rw [hm]; exact hl)
  have hlen : n.stale.bytes.length + n.last.length = n.bytes.length := by rw [← hm, List.length_append]
  have hw := wfc_at n.stale n.last (by rw [hm]; exact hl)
  rw [hm] at h1 hw
  rw [hlen] at h1
  refine ⟨_, ?_, rfl⟩
  have h2 : Drain k (n.bytes ++ []) n.stale.at [] n.bytes ⟨.number n.stale.num, n.bytes.length, none, []⟩ := by
    rw [List.append_nil]; exact .wait hw h1
  have := to_stale n [] hn (by rw [List.append_nil]; exact hl) j h2
  rw [List.append_nil, List.append_nil] at this
  exact this

end Verif.Json.Bytes
