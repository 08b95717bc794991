import Verif.Json.LemmasBytes3
/-! # The streaming JSON tokenizer on a text: single steps, white space, words and numbers -/
namespace Verif.Json.Bytes
open Verif.Io (usizeMax)

/-! ## Bytes -/

instance : DecidablePred Space := fun _ => inferInstanceAs (Decidable (_ ∨ _))
instance : DecidablePred Digit := fun _ => inferInstanceAs (Decidable (_ ∧ _))
instance : DecidablePred Plus := fun _ => inferInstanceAs (Decidable (_ = _))
instance : DecidablePred Minus := fun _ => inferInstanceAs (Decidable (_ = _))
instance : DecidablePred SignByte := fun _ => inferInstanceAs (Decidable (_ ∨ _))
instance : DecidablePred Point := fun _ => inferInstanceAs (Decidable (_ = _))
instance : DecidablePred Exp := fun _ => inferInstanceAs (Decidable (_ ∨ _))
instance : DecidablePred Letter := fun _ => inferInstanceAs (Decidable (_ ∨ _))
instance : DecidablePred Hex := fun _ => inferInstanceAs (Decidable (_ ∨ _))
instance : DecidablePred InWord := fun _ => inferInstanceAs (Decidable (_ ∨ _))
instance : DecidablePred StartsWord := fun _ => inferInstanceAs (Decidable (_ ∧ _))

theorem byte_all {P : UInt8 → Prop} (h : ∀ n : Fin 256, P ⟨⟨n⟩⟩) (b : UInt8) : P b := h b.toBitVec.toFin

theorem isSpace_iff : ∀ b, isSpace b = true ↔ Space b := byte_all (by decide +kernel)
theorem isDigit_iff : ∀ b, isDigit b = true ↔ Digit b := byte_all (by decide +kernel)
theorem isHex_iff : ∀ b, isHex b = true ↔ Hex b := byte_all (by decide +kernel)
theorem isWordByte_iff : ∀ b, isWordByte b = true ↔ InWord b := byte_all (by decide +kernel)
theorem space_ascii : ∀ b, Space b → b < 0x80 := byte_all (by decide +kernel)
theorem digit_ascii : ∀ b, Digit b → b < 0x80 := byte_all (by decide +kernel)

theorem not_true_iff {b : Bool} {P : Prop} (h : b = true ↔ P) : b = false ↔ ¬ P := by
  cases b <;> simp_all

theorem isUtf8_ascii : ∀ {l : List UInt8}, (∀ b ∈ l, b < 0x80) → Args.isUtf8 l = true := by
  have key : ∀ l : List UInt8, (∀ b ∈ l, b < 0x80) → Args.validUpTo l = l.length := by
    intro l
    induction l with
    | nil => intro _; rfl
    | cons b l ih =>
      intro h
      rw [Args.validUpTo.eq_def]
      simp only []
      rw [if_pos (h b List.mem_cons_self), ih fun c hc => h c (List.mem_cons_of_mem _ hc), List.length_cons]
      omega
  intro l h
  rw [Args.isUtf8, key l h]; exact beq_self_eq_true _

/-! ## Single steps -/

theorem inner_none {text : List UInt8} {d : Dec} (h : d.done = none) : inner text d = (text, pureStep text d) := by
  unfold inner clear; rw [h]

theorem scanTo_stop {p : Nat → UInt8 → Bool} : ∀ {mid : List UInt8} {n : Nat} {b : UInt8} {rest : List UInt8},
    (∀ i (h : i < mid.length), p (n + i) mid[i] = true) → p (n + mid.length) b = false → scanTo p (mid ++ b :: rest) n = (n + mid.length, true)
  | [], n, b, rest, _, hb => by
    simp only [List.length_nil, Nat.add_zero] at hb ⊢
    simp [scanTo, hb]
  | c :: mid, n, b, rest, h, hb => by
    have h0 := h 0 (by simp)
    simp only [Nat.add_zero, List.getElem_cons_zero] at h0
    simp only [List.cons_append, scanTo, h0, if_true]
    rw [scanTo_stop (mid := mid)]
    · simp only [List.length_cons]; rw [show n + 1 + mid.length = n + (mid.length + 1) by omega]
    · intro i hi
      have := h (i + 1) (by simp only [List.length_cons]; omega)
      simp only [List.getElem_cons_succ] at this
      rw [show n + 1 + i = n + (i + 1) by omega]; exact this
    · simp only [List.length_cons] at hb
      rw [show n + 1 + mid.length = n + (mid.length + 1) by omega]; exact hb

theorem scanTo_all {p : Nat → UInt8 → Bool} : ∀ {mid : List UInt8} {n : Nat},
    (∀ i (h : i < mid.length), p (n + i) mid[i] = true) → scanTo p mid n = (n + mid.length, false)
  | [], n, _ => rfl
  | c :: mid, n, h => by
    have h0 := h 0 (by simp)
    simp only [Nat.add_zero, List.getElem_cons_zero] at h0
    simp only [scanTo, h0, if_true]
    rw [scanTo_all (mid := mid)]
    · simp only [List.length_cons]; rw [show n + 1 + mid.length = n + (mid.length + 1) by omega]
    · intro i hi
      have := h (i + 1) (by simp only [List.length_cons]; omega)
      simp only [List.getElem_cons_succ] at this
      rw [show n + 1 + i = n + (i + 1) by omega]; exact this

theorem while_stop {u mid rest : List UInt8} {b : UInt8} {d : Dec} {max : Option Nat} {p : Nat → UInt8 → Bool}
    (hq : request d = some (.mapWhile max p)) (hi : d.idx = u.length) (hp : ∀ i (h : i < mid.length), p (u.length + i) mid[i] = true)
    (hb : p (u.length + mid.length) b = false) (hm : u.length + mid.length < max.getD usizeMax) :
    pureStep (u ++ (mid ++ b :: rest)) d =
      fin { d with idx := u.length + mid.length } (handle { d with idx := u.length + mid.length } (u ++ (mid ++ b :: rest))) := by
  unfold pureStep
  rw [hq]
  simp only []
  rw [hi, List.drop_left]
  obtain ⟨k, hk⟩ : ∃ k, max.getD usizeMax - u.length = mid.length + (k + 1) := ⟨max.getD usizeMax - u.length - mid.length - 1, by omega⟩
  rw [hk, List.take_length_add_append, List.take_succ_cons, scanTo_stop hp hb]
  simp

theorem while_end {u mid : List UInt8} {d : Dec} {max : Option Nat} {p : Nat → UInt8 → Bool}
    (hq : request d = some (.mapWhile max p)) (hi : d.idx = u.length) (hp : ∀ i (h : i < mid.length), p (u.length + i) mid[i] = true)
    (hm : u.length + mid.length < max.getD usizeMax) :
    pureStep (u ++ mid) d = ({ d with idx := u.length + mid.length }, .wait) := by
  unfold pureStep
  rw [hq]
  simp only []
  rw [hi, List.drop_left, List.take_of_length_le (by omega), scanTo_all hp]
  simp only []
  rw [if_neg]
  rintro (h | h)
  · exact Bool.noConfusion h
  · rw [h, Option.getD_some] at hm; omega

theorem while_max {u mid rest : List UInt8} {d : Dec} {p : Nat → UInt8 → Bool}
    (hq : request d = some (.mapWhile (some (u.length + mid.length)) p)) (hi : d.idx = u.length)
    (hp : ∀ i (h : i < mid.length), p (u.length + i) mid[i] = true) :
    pureStep (u ++ (mid ++ rest)) d =
      fin { d with idx := u.length + mid.length } (handle { d with idx := u.length + mid.length } (u ++ (mid ++ rest))) := by
  unfold pureStep
  rw [hq]
  simp only [Option.getD_some]
  rw [hi, List.drop_left, Nat.add_sub_cancel_left, List.take_left, scanTo_all hp]
  simp

theorem all_getElem {q : UInt8 → Bool} {l : List UInt8} (h : ∀ b ∈ l, q b = true) : ∀ i (hi : i < l.length), q l[i] = true :=
  fun _ _ => h _ (List.getElem_mem _)

theorem strictAdd_ok {a b : Nat} (h : a + b ≤ usizeMax) : strictAdd a b = some (a + b) := if_pos h
theorem strictSub_ok {a b : Nat} (h : b ≤ a) : strictSub a b = some (a - b) := if_pos h
theorem upTo_left {u v : List UInt8} : upTo (u ++ v) u.length = some u := by
  unfold upTo
  rw [if_pos (by simp), List.take_left]
theorem upTo_len {u v : List UInt8} {n : Nat} (h : n = u.length) : upTo (u ++ v) n = some u := by rw [h]; exact upTo_left
theorem between_mid {u m v : List UInt8} {a b : Nat} (ha : a = u.length) (hb : b = u.length + m.length) : between (u ++ (m ++ v)) a b = some m := by
  unfold between
  rw [if_pos (by simp only [List.length_append]; omega), hb, ha, List.take_length_add_append, List.take_left, List.drop_left]

/-- A tokenizer before the first byte of a token. -/
def start (i : Nat) : Dec := ⟨.none, i, none, []⟩

/-- What is to be shown for the text from some lexeme on: it is drained from every index, which does not matter. -/
def Run (k : Nat) (text : List UInt8) (toks : List Token) (tf : List UInt8) (P : Dec → Prop) : Prop :=
  ∀ i, ∃ df, Drain k text (start i) toks tf df ∧ P df

/-- At the end of a lexeme. -/
def Goes (k : Nat) (v : List UInt8) (toks : List Token) (tf : List UInt8) (P : Dec → Prop) : Prop :=
  ∀ (l : List UInt8) (s : State) (i : Nat) (acc : List UInt8), (l ++ v).length ≤ isizeMax →
    ∃ df, Drain k (l ++ v) ⟨s, i, some l.length, acc⟩ toks tf df ∧ P df

theorem goes_stop (v : List UInt8) : Goes 0 v [] v (fun d => d.done ≠ none) := by
  intro l s i acc hl
  refine ⟨⟨s, i, some l.length, acc⟩, ?_, by simp⟩
  have := Drain.stop (k := 0) (n := l.length) (text := l ++ v) (d := ⟨s, i, some l.length, acc⟩) ⟨by simp, hl⟩ rfl
  rwa [List.drop_left] at this

theorem wfc_none {text : List UInt8} (i : Nat) (h : text.length ≤ isizeMax) : Wfc text (start i) := ⟨h, trivial⟩

theorem first_step {b : UInt8} {r : List UInt8} {i : Nat} {d1 : Dec} {o : Option Token} (h : advanceNone (start i) (b :: r) = some (d1, o)) :
    inner (b :: r) (start i) = (b :: r, d1, outOf (.cont o)) := by
  rw [inner_none rfl]
  show (b :: r, if 1 ≤ (b :: r).length then fin (start i) (advanceNone (start i) (b :: r)) else (start i, Out.wait)) = _
  rw [if_pos (by simp), h]; rfl

theorem run_none {k : Nat} : Run k [] [] [] (fun d => d.state = .none ∧ d.done = none) := fun i =>
  ⟨start i, .wait (wfc_none i (by simp)) rfl, rfl, rfl⟩

/-! ### First bytes -/

theorem first_space (i : Nat) (b : UInt8) (r : List UInt8) (h : Space b) :
    advanceNone (start i) (b :: r) = some (⟨.whitespace, 1, none, []⟩, none) := by
  show (if isSpace b = true then _ else _) = _
  rw [if_pos ((isSpace_iff b).mpr h)]; rfl

theorem first_mark (i : Nat) (b : UInt8) (r : List UInt8) (t : Token) (h : mark b = some t) :
    advanceNone (start i) (b :: r) = some (⟨.none, i, some 1, []⟩, some t) := by
  unfold mark at h
  split at h <;> cases h <;> rfl

theorem first_quote (i : Nat) (r : List UInt8) :
    advanceNone (start i) (0x22 :: r) = some (⟨.string 0, 1, none, []⟩, none) := rfl

theorem word_facts : ∀ b, StartsWord b → isSpace b = false ∧ b ≠ 0x3a ∧ b ≠ 0x2c ∧ b ≠ 0x5b ∧ b ≠ 0x5d ∧ b ≠ 0x7b ∧ b ≠ 0x7d ∧ b ≠ 0x22 ∧ b ≠ 0x2b
    ∧ b ≠ 0x2d ∧ isDigit b = false := byte_all (by decide +kernel)

theorem first_word (i : Nat) (b : UInt8) (r : List UInt8) (h : StartsWord b) :
    advanceNone (start i) (b :: r) = some (⟨.item, 1, none, []⟩, none) := by
  obtain ⟨h1, h2, h3, h4, h5, h6, h7, h8, h9, h10, h11⟩ := word_facts b h
  simp [advanceNone, h1, h2, h3, h4, h5, h6, h7, h8, h9, h10, h11, start]

theorem digit_facts : ∀ b, Digit b → isSpace b = false ∧ b ≠ 0x3a ∧ b ≠ 0x2c ∧ b ≠ 0x5b ∧ b ≠ 0x5d ∧ b ≠ 0x7b ∧ b ≠ 0x7d ∧ b ≠ 0x22 ∧ b ≠ 0x2b
    ∧ b ≠ 0x2d ∧ isDigit b = true := byte_all (by decide +kernel)

theorem first_digit (i : Nat) (b : UInt8) (r : List UInt8) (h : Digit b) :
    advanceNone (start i) (b :: r) = some (⟨.number ⟨.plus, ⟨0, 1⟩, ⟨0, 0⟩, .plus, ⟨0, 0⟩⟩, 1, none, []⟩, none) := by
  obtain ⟨h1, h2, h3, h4, h5, h6, h7, h8, h9, h10, h11⟩ := digit_facts b h
  simp [advanceNone, h1, h2, h3, h4, h5, h6, h7, h8, h9, h10, h11, start]

theorem first_sign (i : Nat) (b : UInt8) (r : List UInt8) (h : SignByte b) :
    advanceNone (start i) (b :: r) = some (⟨.number ⟨signOf [b], ⟨1, 1⟩, ⟨0, 0⟩, .plus, ⟨0, 0⟩⟩, 1, none, []⟩,
      if b = 0x2b then some (.error .numberLeadingPlus) else none) := by
  rcases h with h | h <;> cases h <;> rfl

/-! ## White space, marks and words -/

theorem run_mark {k : Nat} {v tf : List UInt8} {toks : List Token} {P : Dec → Prop} (b : UInt8) (t : Token) (h : mark b = some t)
    (hr : Goes k v toks tf P) (hl : (b :: v).length ≤ isizeMax) : Run (k + 1) (b :: v) (t :: toks) tf P := fun i => by
  obtain ⟨df, h1, h2⟩ := hr [b] .none i [] hl
  exact ⟨df, .tell (wfc_none i hl) (first_step (first_mark i b v t h)) h1, h2⟩

/-- A run of bytes after a first one. -/
theorem run_simple {k : Nat} {v tf : List UInt8} {toks : List Token} {P : Dec → Prop} (s : State) (q : UInt8 → Bool) (tok : List UInt8 → Token)
    (b : UInt8) (l : List UInt8) (hs : ∀ i, request ⟨s, i, none, []⟩ = some (.mapWhile none fun _ b => q b))
    (h1 : ∀ i r, advanceNone (start i) (b :: r) = some (⟨s, 1, none, []⟩, none)) (hq : ∀ c ∈ l, q c = true)
    (hh : ∀ u v : List UInt8, u = b :: l → handle ⟨s, u.length, none, []⟩ (u ++ v) = some (⟨s, u.length, some u.length, []⟩, some (tok u)))
    (hw : ∀ i (text : List UInt8), i ≤ text.length → text.length ≤ isizeMax → Wfc text ⟨s, i, none, []⟩)
    (hv : ∃ c v', v = c :: v' ∧ q c = false) (hr : Goes k v toks tf P) (hl : (b :: l ++ v).length ≤ isizeMax) :
    Run (k + 2) (b :: l ++ v) (tok (b :: l) :: toks) tf P := fun i => by
  obtain ⟨c, v', rfl, hc⟩ := hv
  obtain ⟨df, h2, h3⟩ := hr (b :: l) s (b :: l).length [] hl
  have hu := isize_usize _ hl
  have hlen : (b :: l ++ c :: v').length = 1 + l.length + (v'.length + 1) := by simp; omega
  refine ⟨df, .quiet (wfc_none i hl) (first_step (h1 i _)) (.tell (hw 1 _ (by simp) hl) ?_ h2), h3⟩
  rw [inner_none rfl]
  have := while_stop (u := [b]) (mid := l) (rest := v') (b := c) (hs 1) rfl (all_getElem hq) hc (by simp only [List.length_singleton, Option.getD_none]; omega)
  show ([b] ++ (l ++ c :: v'), pureStep ([b] ++ (l ++ c :: v')) _) = _
  rw [this]
  simp only [List.length_singleton]
  have e : 1 + l.length = (b :: l).length := by simp only [List.length_cons]; omega
  rw [e, show [b] ++ (l ++ c :: v') = (b :: l) ++ c :: v' from rfl, hh _ _ rfl]; rfl

theorem rest_simple {k : Nat} (s : State) (q : UInt8 → Bool)
    (b : UInt8) (l : List UInt8) (hs : ∀ i, request ⟨s, i, none, []⟩ = some (.mapWhile none fun _ b => q b))
    (h1 : ∀ i r, advanceNone (start i) (b :: r) = some (⟨s, 1, none, []⟩, none)) (hq : ∀ c ∈ l, q c = true)
    (hw : ∀ i (text : List UInt8), i ≤ text.length → text.length ≤ isizeMax → Wfc text ⟨s, i, none, []⟩)
    (hl : (b :: l).length ≤ isizeMax) :
    Run (k + 1) (b :: l) [] (b :: l) (fun d => d = ⟨s, (b :: l).length, none, []⟩) := fun i => by
  have hu := isize_usize _ hl
  refine ⟨_, .quiet (wfc_none i hl) (first_step (h1 i _)) (.wait (hw 1 _ (by simp) hl) ?_), rfl⟩
  rw [inner_none rfl]
  have := while_end (u := [b]) (mid := l) (hs 1) rfl (all_getElem hq) (by simp only [Option.getD_none, List.length_cons, List.length_nil] at hu ⊢; omega)
  show ([b] ++ l, pureStep ([b] ++ l) _) = _
  rw [this]
  simp only [List.length_cons, List.length_nil, Nat.zero_add, Nat.add_comm]
  rfl

theorem handle_space (u v : List UInt8) (h : ∀ b ∈ u, Space b) :
    handle ⟨.whitespace, u.length, none, []⟩ (u ++ v) = some (⟨.whitespace, u.length, some u.length, []⟩, some (.whitespace u)) := by
  show advanceWhitespace _ _ = _
  unfold advanceWhitespace
  simp only []
  rw [upTo_left]
  show (raiseWhitespace u).bind _ = _
  unfold raiseWhitespace
  rw [if_pos (isUtf8_ascii fun b hb => space_ascii b (h b hb))]; rfl

theorem raiseItem_eq (u : List UInt8) : raiseItem u = wordToken u := rfl

theorem handle_word (u v : List UInt8) :
    handle ⟨.item, u.length, none, []⟩ (u ++ v) = some (⟨.item, u.length, some u.length, []⟩, some (wordToken u)) := by
  show advanceItem _ _ = _
  unfold advanceItem
  simp only []
  rw [upTo_left]; rfl

theorem run_space {k : Nat} {v tf : List UInt8} {toks : List Token} {P : Dec → Prop} (bs : List UInt8) (h : (Lexeme.space bs).fits v)
    (hr : Goes k v toks tf P) (hl : (bs ++ v).length ≤ isizeMax) : Run (k + 2) (bs ++ v) (.whitespace bs :: toks) tf P := by
  obtain ⟨h1, h2, c, v', h3, h4⟩ := h
  cases bs with
  | nil => exact (h1 rfl).elim
  | cons b l =>
    exact run_simple .whitespace isSpace .whitespace b l (fun _ => rfl) (fun i r => first_space i b r (h2 b List.mem_cons_self))
      (fun c hc => (isSpace_iff c).mpr (h2 c (List.mem_cons_of_mem _ hc))) (fun u v hu => handle_space u v (hu ▸ h2)) (fun i t h1 h2 => ⟨h2, h1⟩)
      ⟨c, v', h3, (not_true_iff (isSpace_iff c)).mpr h4⟩ hr hl

theorem run_word {k : Nat} {v tf : List UInt8} {toks : List Token} {P : Dec → Prop} (bs : List UInt8) (h : (Lexeme.word bs).fits v)
    (hr : Goes k v toks tf P) (hl : (bs ++ v).length ≤ isizeMax) : Run (k + 2) (bs ++ v) (wordToken bs :: toks) tf P := by
  obtain ⟨⟨b, l, rfl, h1, h2⟩, c, v', h3, h4⟩ := h
  exact run_simple .item isWordByte wordToken b l (fun _ => rfl) (fun i r => first_word i b r h1)
    (fun c hc => (isWordByte_iff c).mpr (h2 c hc)) (fun u v _ => handle_word u v) (fun i t h1 h2 => ⟨h2, h1⟩)
    ⟨c, v', h3, (not_true_iff (isWordByte_iff c)).mpr h4⟩ hr hl

theorem rest_space {k : Nat} (bs : List UInt8) (h : (Tail.space bs).fits) (hl : bs.length ≤ isizeMax) :
    Run (k + 1) bs [] bs (fun d => d = ⟨.whitespace, bs.length, none, []⟩) := by
  obtain ⟨h1, h2⟩ := h
  cases bs with
  | nil => exact (h1 rfl).elim
  | cons b l =>
    exact rest_simple .whitespace isSpace b l (fun _ => rfl) (fun i r => first_space i b r (h2 b List.mem_cons_self))
      (fun c hc => (isSpace_iff c).mpr (h2 c (List.mem_cons_of_mem _ hc))) (fun i t h1 h2 => ⟨h2, h1⟩) hl

theorem rest_word {k : Nat} (bs : List UInt8) (h : (Tail.word bs).fits) (hl : bs.length ≤ isizeMax) :
    Run (k + 1) bs [] bs (fun d => d = ⟨.item, bs.length, none, []⟩) := by
  obtain ⟨b, l, rfl, h1, h2⟩ := h
  exact rest_simple .item isWordByte b l (fun _ => rfl) (fun i r => first_word i b r h1)
    (fun c hc => (isWordByte_iff c).mpr (h2 c hc)) (fun i t h1 h2 => ⟨h2, h1⟩) hl

end Verif.Json.Bytes
