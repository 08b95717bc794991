import Verif.Json.LemmasBytes12
import Verif.Args.Utf8Chars
/-! # The streaming JSON tokenizer: calling `complete` at each tail, and strings as they are spelled -/
namespace Verif.Json.Bytes
open Verif.Io (usizeMax More SFlow)
variable {σ : Type}

/-! ## The end of the input -/

theorem cut_fits {text : List UInt8} {ls : List Lexeme} {t : Tail} (h : Cut text ls t) : t.fits := by
  induction h with
  | tail t h => exact h
  | lexeme l h hc ih => exact ih

theorem completes_det {R : Reader σ} {st : σ} {d : Dec} {ts ts' : List Token} (h : Completes R st d ts) (h' : Completes R st d ts') : ts = ts' := by
  induction h generalizing ts' with
  | done h =>
    cases h' with
    | done h' => rfl
    | token h' hc => rw [h] at h'; simp at h'
  | token h hc ih =>
    cases h' with
    | done h' => rw [h] at h'; simp at h'
    | token h' hc' =>
      rw [h] at h'
      simp only [Option.some.injEq, Prod.mk.injEq] at h'
      obtain ⟨rfl, rfl, rfl⟩ := h'
      rw [ih hc']

theorem completes_loop {R : Reader σ} {st : σ} {d : Dec} {t : Token} (h : complete R st d = some (st, d, some t)) (ts : List Token) : ¬ Completes R st d ts := by
  induction ts with
  | nil => intro hc; cases hc with | done h' => rw [h] at h'; simp at h'
  | cons x ts ih =>
    intro hc
    cases hc with
    | token h' hc =>
      rw [h] at h'
      simp only [Option.some.injEq, Prod.mk.injEq] at h'
      obtain ⟨rfl, rfl, rfl⟩ := h'
      exact ih hc

theorem completes_panic {R : Reader σ} {st st' : σ} {d d' : Dec} {t : Token} (h : complete R st d = some (st', d', some t)) (hp : complete R st' d' = none)
    (ts : List Token) : ¬ Completes R st d ts := by
  intro hc
  cases hc with
  | done h' => rw [h] at h'; simp at h'
  | token h' hc =>
    rw [h] at h'
    simp only [Option.some.injEq, Prod.mk.injEq] at h'
    obtain ⟨rfl, rfl, rfl⟩ := h'
    cases hc with
    | done h' => rw [hp] at h'; cases h'
    | token h' _ => rw [hp] at h'; cases h'

theorem complete_space {R : Reader σ} {view : σ → List UInt8} (hR : Faithful R view) {st : σ} {d : Dec} {bs : List UInt8} (hf : (Tail.space bs).fits)
    (hv : view st = bs) (hd : Rests (.space bs) d) : complete R st d = some (st, d, some (.whitespace bs)) := by
  have hd : d = ⟨.whitespace, bs.length, none, []⟩ := hd
  rw [complete_all hR (by rw [hd]; intro h; cases h) (by rw [hd]) (by rw [hd, hv]), hd, hv]
  show ((raiseWhitespace bs).map _).map _ = _
  rw [raiseWhitespace_eq hf.2]
  rfl

theorem complete_word {R : Reader σ} {view : σ → List UInt8} (hR : Faithful R view) {st : σ} {d : Dec} {bs : List UInt8}
    (hv : view st = bs) (hd : Rests (.word bs) d) : complete R st d = some (st, d, some (wordToken bs)) := by
  have hd : d = ⟨.item, bs.length, none, []⟩ := hd
  rw [complete_all hR (by rw [hd]; intro h; cases h) (by rw [hd]) (by rw [hd, hv]), hd, hv]
  rfl

theorem complete_string {R : Reader σ} {view : σ → List UInt8} (hR : Faithful R view) {st : σ} {d : Dec} {ps : List Piece} {part : List UInt8}
    (hv : view st = (Tail.string ps part).bytes) (hd : Rests (.string ps part) d) : complete R st d = some (st, d, some (.error .stringIncomplete)) := by
  obtain ⟨h1, h2, h3, h4⟩ := hd
  obtain ⟨m, -, -, h⟩ := complete_some hR h3 h1 (by rw [hv]; exact h2)
  rw [h, h4]
  rfl

/-- A number that is only digits: reported is its first digit. -/
theorem complete_digits {R : Reader σ} {view : σ → List UInt8} (hR : Faithful R view) {st : σ} {d : Dec} {b : UInt8} {ds : List UInt8} (hb : Digit b)
    (hv : view st = b :: ds) (hd : Rests (.number ⟨[], b :: ds, none, none⟩) d) : Completes R st d [.number ⟨b :: ds, .plus, [b], none, none⟩] := by
  have hb' : (Numeral.mk [] (b :: ds) none none).bytes = b :: ds := by simp [Numeral.bytes]
  have hd : d = ⟨.number ⟨.plus, ⟨0, 1⟩, ⟨0, 0⟩, .plus, ⟨0, 0⟩⟩, (b :: ds).length, none, []⟩ := by
    rw [show d = _ from hd, hb']; rfl
  have h1 : complete R st d = some (st, { d with done := some d.idx }, some (.number ⟨b :: ds, .plus, [b], none, none⟩)) := by
    rw [complete_all hR (by rw [hd]; intro h; cases h) (by rw [hd]) (by rw [hd, hv]), hd, hv]
    show ((raiseNumber (b :: ds) ⟨.plus, ⟨0, 1⟩, ⟨0, 0⟩, .plus, ⟨0, 0⟩⟩).map _).map _ = _
    rw [raise_plain b ds hb]
    rfl
  obtain ⟨st', h2, h3⟩ := hR.advance st (b :: ds).length (by rw [hv]; exact Nat.le_refl _)
  rw [hv, List.drop_length] at h3
  refine .token h1 (.done (st' := st') (d' := ⟨.none, (b :: ds).length, none, []⟩) ?_)
  have hc : clearDone R st { d with done := some d.idx } = some (st', ⟨.none, (b :: ds).length, none, []⟩) := by
    rw [hd]
    show (R.advance st (b :: ds).length).map _ = _
    rw [h2]; rfl
  have h0 := complete_empty hR (st := st') (d := ⟨.none, (b :: ds).length, none, []⟩) rfl rfl h3
  unfold complete at h0 ⊢
  rw [hc]
  exact h0

/-- All other numbers: it is said that digits are missing, and `complete` panics when called again. -/
theorem complete_hollow {R : Reader σ} {view : σ → List UInt8} (hR : Faithful R view) {st : σ} {d : Dec} {n : Numeral} (hn : n.Wf)
    (hv : view st = n.bytes) (hd : Rests (.number n) d) (h : ¬ (n.signs = [] ∧ n.fraction = none ∧ n.exponent = none)) :
    ∃ d', complete R st d = some (st, d', some (.error .numberRangeEmpty)) ∧ complete R st d' = none := by
  have hd : d = ⟨.number n.stale.num, n.bytes.length, none, []⟩ := hd
  have hh : n.stale.num.rangeEmpty = true := (hollow_iff _).mpr (Decidable.byContradiction fun hx => h ((stale_plain hn).mp hx))
  refine ⟨⟨.numberDone n.stale.num, n.bytes.length, none, []⟩, ?_, ?_⟩
  · rw [complete_all hR (by rw [hd]; intro h; cases h) (by rw [hd]) (by rw [hd, hv]), hd, hv]
    show (if n.stale.num.rangeEmpty = true then _ else _ : Option _).map _ = _
    rw [if_pos hh]
    rfl
  · rw [complete_all hR (by intro h; cases h) rfl (by rw [hv])]
    rfl

/-! ## Strings as they are spelled -/

theorem simple_ascii : ∀ b v : UInt8, simple b = some v → v < 0x80 := by
  intro b v h
  unfold simple at h
  split at h <;> cases h <;> decide

theorem byte_ge {n m : Nat} (h : n < 256) (hm : m ≤ n) : m ≤ (UInt8.ofNat n).toNat := by rw [Args.toNat_ofNat_lt h]; exact hm

theorem encode_plain {c : Char} (h : c ≠ '"' ∧ c ≠ '\\' ∧ 0x20 ≤ c.toNat) {b : UInt8} (hb : b ∈ String.utf8EncodeChar c) : b ≠ 0x22 ∧ b ≠ 0x5c ∧ 0x1f ≤ b := by
  have h1 : c.val.toNat ≠ 0x22 := fun he => h.1 (Char.ext (UInt32.toNat_inj.mp he))
  have h2 : c.val.toNat ≠ 0x5c := fun he => h.2.1 (Char.ext (UInt32.toNat_inj.mp he))
  have h3 : 0x20 ≤ c.val.toNat := h.2.2
  have key : b.toNat ≠ 0x22 ∧ b.toNat ≠ 0x5c ∧ 0x1f ≤ b.toNat := by
    have he := Args.encode_eq c
    revert hb
    generalize String.utf8EncodeChar c = bs at he
    intro hb
    have big : 128 ≤ b.toNat → b.toNat ≠ 0x22 ∧ b.toNat ≠ 0x5c ∧ 0x1f ≤ b.toNat := by omega
    cases he with
    | one h =>
      rw [List.mem_singleton.mp hb, Args.toNat_ofNat_lt (by omega)]
      omega
    | two h4 h =>
      refine big ?_
      simp only [List.mem_cons, List.not_mem_nil, or_false] at hb
      rcases hb with rfl | rfl <;> exact byte_ge (by omega) (by omega)
    | three h4 h =>
      refine big ?_
      simp only [List.mem_cons, List.not_mem_nil, or_false] at hb
      rcases hb with rfl | rfl | rfl <;> exact byte_ge (by omega) (by omega)
    | four h4 h =>
      refine big ?_
      simp only [List.mem_cons, List.not_mem_nil, or_false] at hb
      rcases hb with rfl | rfl | rfl | rfl <;> exact byte_ge (by omega) (by omega)
  exact ⟨fun e => key.1 (by rw [e]; rfl), fun e => key.2.1 (by rw [e]; rfl), UInt8.le_iff_toNat_le.mpr key.2.2⟩

theorem spells_exists {c : Char} {bs : List UInt8} (h : Spells c bs) : ∃ ps, allBytes ps = bs ∧ (∀ e, AllFit ps e) ∧ meant ps = String.utf8EncodeChar c
    ∧ errors ps = [] ∧ ∀ p ∈ ps, ∀ b, p ≠ .control b := by
  have utf8_eq : ∀ n, n = c.toNat → utf8 n = String.utf8EncodeChar c := by
    rintro n rfl
    unfold utf8
    rw [Char.ofNat_toNat]
  cases h with
  | plain h1 =>
    refine ⟨(String.utf8EncodeChar c).map .plain, ?_, ?_, ?_, ?_, ?_⟩
    · simp [allBytes, List.flatMap_map, Piece.bytes]
    · have : ∀ l : List UInt8, (∀ b ∈ l, b ≠ 0x22 ∧ b ≠ 0x5c ∧ 0x1f ≤ b) → ∀ e, AllFit (l.map .plain) e := by
        intro l
        induction l with
        | nil => intro _ _; trivial
        | cons b l ih =>
          intro h e
          exact ⟨h b List.mem_cons_self, ih (fun x hx => h x (List.mem_cons_of_mem _ hx)) e⟩
      exact this _ fun b hb => encode_plain h1 hb
    · simp [meant, List.flatMap_map, Piece.means]
    · simp [errors, Piece.error]
    · intro p hp b
      simp only [List.mem_map] at hp
      obtain ⟨x, -, rfl⟩ := hp
      intro h; cases h
  | @escape b v h1 h2 =>
    refine ⟨[.escape b v], by simp [allBytes, Piece.bytes], fun e => ⟨h1, trivial⟩, ?_, rfl, ?_⟩
    · have hv := simple_ascii b v h1
      have : String.utf8EncodeChar c = [v] := by
        have he := Args.encode_eq c
        rw [show c.val.toNat = v.toNat from h2.symm] at he
        exact Args.encodes_unique he (Args.encodes_one hv)
      rw [this]
      rfl
    · intro p hp x; rw [List.mem_singleton.mp hp]; intro h; cases h
  | @code h h1 h2 =>
    have hr := Args.char_range c
    have hr : c.toNat < 0xd800 ∨ (0xdfff < c.toNat ∧ c.toNat < 0x110000) := hr
    refine ⟨[.code h], by simp [allBytes, Piece.bytes], fun e => ⟨⟨h1, fun hl => ?_, fun ht => ?_⟩, trivial⟩, ?_, rfl, ?_⟩
    · have := hl.2; omega
    · have := ht.2; omega
    · simp [meant, Piece.means, utf8_eq _ h2]
    · intro p hp x; rw [List.mem_singleton.mp hp]; intro h; cases h
  | @pair h1 h2 hl ht hv =>
    refine ⟨[.pair h1 h2], by simp [allBytes, Piece.bytes], fun e => ⟨⟨hl, ht⟩, trivial⟩, ?_, rfl, ?_⟩
    · simp [meant, Piece.means, utf8_eq _ hv]
    · intro p hp x; rw [List.mem_singleton.mp hp]; intro h; cases h

theorem allFit_append {ps qs : List Piece} {e : List UInt8} (h1 : AllFit ps (allBytes qs ++ e)) (h2 : AllFit qs e) : AllFit (ps ++ qs) e := by
  induction ps with
  | nil => exact h2
  | cons p ps ih =>
    refine ⟨?_, ih h1.2⟩
    have := h1.1
    rw [← List.append_assoc] at this
    show p.fits (allBytes (ps ++ qs) ++ e)
    rwa [show allBytes (ps ++ qs) = allBytes ps ++ allBytes qs from List.flatMap_append]

theorem spellsAll_exists {cs : List Char} {bs : List UInt8} (h : SpellsAll cs bs) : ∃ ps, allBytes ps = bs ∧ (∀ e, AllFit ps e)
    ∧ meant ps = cs.flatMap String.utf8EncodeChar ∧ errors ps = [] ∧ ∀ p ∈ ps, ∀ b, p ≠ .control b := by
  induction h with
  | nil => exact ⟨[], rfl, fun _ => trivial, rfl, rfl, by simp⟩
  | cons h hs ih =>
    obtain ⟨ps, h1, h2, h3, h4, h5⟩ := spells_exists h
    obtain ⟨qs, g1, g2, g3, g4, g5⟩ := ih
    refine ⟨ps ++ qs, ?_, fun e => allFit_append (h2 _) (g2 _), ?_, ?_, ?_⟩
    · rw [← h1, ← g1]; exact List.flatMap_append
    · rw [List.flatMap_cons, ← h3, ← g3]; exact List.flatMap_append
    · have : errors (ps ++ qs) = errors ps ++ errors qs := List.filterMap_append
      rw [this, h4, g4]; rfl
    · intro p hp
      rcases List.mem_append.mp hp with hp | hp
      · exact h5 p hp
      · exact g5 p hp

/-! ## Numbers -/

theorem jsonNumber_exists {neg : Bool} {i : List UInt8} {f : Option (List UInt8)}
    {e : Option (UInt8 × Option UInt8 × List UInt8)} (hi : i ≠ [] ∧ ∀ b ∈ i, Digit b) (hf : ∀ x, f = some x → x ≠ [] ∧ ∀ b ∈ x, Digit b)
    (he : ∀ c s x, e = some (c, s, x) → Exp c ∧ (∀ b, s = some b → SignByte b) ∧ x ≠ [] ∧ ∀ b ∈ x, Digit b) :
    ∃ n : Numeral, n.bytes = jsonNumber neg i f e ∧ n.Wf ∧ (∀ b, ¬ Digit b ∧ ¬ SignByte b ∧ ¬ Point b ∧ ¬ Exp b → ¬ n.Takes b) ∧ ¬ n.Hollow
      ∧ n.signErrors = [] ∧ n.number = ⟨jsonNumber neg i f e, if neg then .minus else .plus, i, f,
        e.map fun (_, s, x) => (if s = some 0x2d then .minus else .plus, x)⟩ := by
  have hn : (Numeral.mk (if neg then [0x2d] else []) i f (e.map fun (c, s, x) => (c, s.toList, x))).bytes = jsonNumber neg i f e := by
    unfold Numeral.bytes jsonNumber
    cases e <;> rfl
  have hw : (Numeral.mk (if neg then [0x2d] else []) i f (e.map fun (c, s, x) => (c, s.toList, x))).Wf := by
    refine ⟨.inr hi.1, ?_, hi.2, fun x hx => (hf x hx).2, fun c s x hx => ?_⟩
    · intro c hc
      cases neg
      · cases hc
      · rw [List.mem_singleton.mp hc]; exact .inr rfl
    · cases e with
      | none => cases hx
      | some y =>
        obtain ⟨c', s', x'⟩ := y
        simp only [Option.map_some, Option.some.injEq, Prod.mk.injEq] at hx
        obtain ⟨rfl, rfl, rfl⟩ := hx
        obtain ⟨h1, h2, -, h3⟩ := he c' s' x' rfl
        refine ⟨h1, fun y hy => ?_, h3⟩
        exact h2 y (by simpa using hy)
  have ht : ∀ b, ¬ Digit b ∧ ¬ SignByte b ∧ ¬ Point b ∧ ¬ Exp b → ¬ (Numeral.mk (if neg then [0x2d] else []) i f (e.map fun (c, s, x) => (c, s.toList, x))).Takes b := by
    intro b hb
    rintro (hx | hx)
    · exact hb.1 hx
    · cases e with
      | none =>
        rcases hx with hx | ⟨-, hx | ⟨-, hx⟩⟩
        · exact hb.2.2.2 hx
        · exact hb.2.2.1 hx
        · exact hb.2.1 hx
      | some y => exact hb.2.1 hx.2
  have hh : ¬ (Numeral.mk (if neg then [0x2d] else []) i f (e.map fun (c, s, x) => (c, s.toList, x))).Hollow := by
    rintro (hx | hx | ⟨c, s, hx⟩)
    · exact hi.1 hx
    · exact (hf [] hx).1 rfl
    · cases e with
      | none => cases hx
      | some y =>
        obtain ⟨c', s', x'⟩ := y
        simp only [Option.map_some, Option.some.injEq, Prod.mk.injEq] at hx
        exact (he c' s' x' rfl).2.2.1 hx.2.2
  have hs : (Numeral.mk (if neg then [0x2d] else []) i f (e.map fun (c, s, x) => (c, s.toList, x))).signErrors = [] := by
    unfold Numeral.signErrors
    cases neg <;> cases e with
    | none => rfl
    | some y =>
      obtain ⟨c', s', x'⟩ := y
      cases s' <;> rfl
  have hx : (Numeral.mk (if neg then [0x2d] else []) i f (e.map fun (c, s, x) => (c, s.toList, x))).number = ⟨jsonNumber neg i f e,
      if neg then .minus else .plus, i, f, e.map fun (_, s, x) => (if s = some 0x2d then .minus else .plus, x)⟩ := by
    unfold Numeral.number
    rw [hn]
    congr 1
    · cases neg <;> rfl
    · cases e with
      | none => rfl
      | some y =>
        obtain ⟨c', s', x'⟩ := y
        cases s' <;> rfl
  exact ⟨_, hn, hw, ht, hh, hs, hx⟩

end Verif.Json.Bytes
