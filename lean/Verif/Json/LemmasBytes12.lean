import Verif.Json.LemmasBytes11
/-! # The streaming JSON tokenizer: sources of tokens, contents of strings, and the end of the input -/
namespace Verif.Json.Bytes
open Verif.Io (usizeMax More SFlow)
variable {σ : Type}

/-! ## Sources -/

theorem flatMap_nil_of {α β : Type} {f : α → List β} : ∀ {l : List α}, (∀ x ∈ l, f x = []) → l.flatMap f = []
  | [], _ => rfl
  | x :: l, h => by rw [List.flatMap_cons, h x List.mem_cons_self, flatMap_nil_of fun y hy => h y (List.mem_cons_of_mem _ hy)]; rfl

theorem errors_source (ps : List Piece) : (errors ps).flatMap source = [] := by
  refine flatMap_nil_of fun t ht => ?_
  simp only [errors, List.mem_filterMap] at ht
  obtain ⟨p, -, hp⟩ := ht
  cases p <;> simp only [Piece.error, Option.map_none, Option.map_some, Option.some.injEq, reduceCtorEq] at hp <;> rw [← hp] <;> rfl

theorem signErrors_source (n : Numeral) : n.signErrors.flatMap source = [] := by
  refine flatMap_nil_of fun t ht => ?_
  unfold Numeral.signErrors at ht
  simp only [List.mem_append] at ht
  rcases ht with (ht | ht) | ht
  · split at ht
    · simp only [List.mem_singleton] at ht; rw [ht]; rfl
    · cases ht
  · split at ht
    · simp only [List.mem_singleton] at ht; rw [ht]; rfl
    · cases ht
  · split at ht
    · cases ht
    · rw [(List.mem_replicate.mp ht).2]; rfl

theorem wordToken_source (bs : List UInt8) : source (wordToken bs) = bs := by
  unfold wordToken
  split
  · rename_i h; rw [h]; rfl
  · split
    · rename_i h; rw [h]; rfl
    · split
      · rename_i h; rw [h]; rfl
      · split <;> rfl

theorem stringToken_source (raw str : List UInt8) : source (stringToken raw str) = raw := by
  unfold stringToken
  split <;> rfl

theorem lexeme_source {x : Lexeme} {v : List UInt8} (h : x.fits v) : x.tokens.flatMap source = x.bytes := by
  cases x with
  | space bs => simp [Lexeme.tokens, Lexeme.bytes, source]
  | mark b t =>
    have h : mark b = some t := h
    unfold mark at h
    split at h <;> cases h <;> rfl
  | word bs => simp [Lexeme.tokens, Lexeme.bytes, wordToken_source]
  | number n =>
    simp only [Lexeme.tokens, List.flatMap_append, signErrors_source]
    split <;> simp [source, Numeral.number, Lexeme.bytes]
  | string ps => simp [Lexeme.tokens, Lexeme.bytes, errors_source, stringToken_source]

theorem tail_source (t : Tail) : t.tokens.flatMap source = [] := by
  cases t with
  | number n => exact signErrors_source n
  | string ps part => exact errors_source ps
  | _ => rfl

theorem cut_source {text : List UInt8} {ls : List Lexeme} {t : Tail} (h : Cut text ls t) : (tokens ls t).flatMap source ++ t.bytes = text := by
  induction h with
  | tail t h =>
    unfold tokens
    rw [List.flatMap_nil, List.nil_append, tail_source, List.nil_append]
  | lexeme x h hc ih =>
    unfold tokens at ih ⊢
    rw [List.flatMap_cons, List.append_assoc, List.flatMap_append, lexeme_source h, List.append_assoc, ih]

/-! ## Contents of strings -/

theorem toldAfter_eq : ∀ (ps : List Piece) (run : List UInt8), (∀ p ∈ ps, ∀ b, p ≠ .control b) → toldAfter run ps = run ++ meant ps
  | [], run, _ => by simp [toldAfter, meant]
  | p :: ps, run, h => by
    have ih := fun run => toldAfter_eq ps run fun q hq => h q (List.mem_cons_of_mem _ hq)
    cases p with
    | control b => exact (h _ List.mem_cons_self b rfl).elim
    | plain b => simp [toldAfter, ih, meant, Piece.means]
    | _ => simp [toldAfter, ih, meant]

theorem told_eq : ∀ (us ps : List Piece), (∀ p ∈ us, p.literal = true) → (∀ p ∈ ps, ∀ b, p ≠ .control b) → told (us ++ ps) = meant (us ++ ps)
  | [], [], _, _ => rfl
  | [], p :: ps, _, h => by
    have ih := told_eq [] ps (by simp) fun q hq => h q (List.mem_cons_of_mem _ hq)
    have h2 := toldAfter_eq ps [] fun q hq => h q (List.mem_cons_of_mem _ hq)
    simp only [List.nil_append] at ih h2 ⊢
    unfold told
    cases p with
    | control b => exact (h _ List.mem_cons_self b rfl).elim
    | plain b => rw [if_pos (show (Piece.plain b).literal = true from rfl), ih]; rfl
    | _ => rw [if_neg (by simp [Piece.literal]), h2]; rfl
  | u :: us, ps, h1, h2 => by
    have ih := told_eq us ps (fun q hq => h1 q (List.mem_cons_of_mem _ hq)) h2
    have hu := h1 u List.mem_cons_self
    simp only [List.cons_append]
    unfold told
    rw [if_pos hu, ih]
    cases u with
    | plain b => rfl
    | control b => rfl
    | _ => cases hu

/-- With a control character after the first escape, more is reported than is meant. -/
theorem toldAfter_length : ∀ (ps : List Piece) (run : List UInt8),
    run.length + (meant ps).length ≤ (toldAfter run ps).length ∧
      ((∃ b, .control b ∈ ps) → run.length + (meant ps).length < (toldAfter run ps).length)
  | [], run => by simp [toldAfter, meant]
  | p :: ps, run => by
    have hm : (meant (p :: ps)).length = p.means.length + (meant ps).length := by simp [meant]
    cases p with
    | plain b =>
      obtain ⟨h1, h2⟩ := toldAfter_length ps (run ++ [b])
      have hb : (Piece.plain b).means.length = 1 := rfl
      simp only [toldAfter, hm, hb, List.length_append, List.length_singleton] at h1 h2 ⊢
      refine ⟨by omega, fun ⟨c, hc⟩ => ?_⟩
      have := h2 ⟨c, by simpa using hc⟩
      omega
    | control b =>
      obtain ⟨h1, h2⟩ := toldAfter_length ps (run ++ [b])
      have hb : (Piece.control b).means.length = 1 := rfl
      simp only [toldAfter, hm, hb, List.length_append, List.length_singleton] at h1 h2 ⊢
      exact ⟨by omega, fun _ => by omega⟩
    | _ =>
      obtain ⟨h1, h2⟩ := toldAfter_length ps []
      simp only [toldAfter, hm, List.length_append, List.length_nil] at h1 h2 ⊢
      refine ⟨by omega, fun ⟨c, hc⟩ => ?_⟩
      have := h2 ⟨c, by simpa using hc⟩
      omega

/-- What is reported is what is meant exactly if no control character follows an escape. -/
theorem told_iff (ps : List Piece) :
    told ps = meant ps ↔ ∀ us p vs, ps = us ++ p :: vs → p.literal = false → ∀ b, .control b ∉ vs := by
  constructor
  · intro h us p vs hps hp b hb
    induction us generalizing ps with
    | nil =>
      subst hps
      have h2 := (toldAfter_length vs []).2 ⟨b, hb⟩
      have h3 := congrArg List.length h
      simp only [List.nil_append] at h3
      unfold told at h3
      rw [if_neg (by simp [hp])] at h3
      simp [meant] at h2 h3
      omega
    | cons u us ih =>
      subst hps
      cases hu : u.literal with
      | true =>
        refine ih (us ++ p :: vs) ?_ rfl
        simp only [List.cons_append] at h
        unfold told at h
        rw [if_pos hu] at h
        have e : u.bytes = u.means := by
          cases u with
          | plain b => rfl
          | control b => rfl
          | _ => cases hu
        rw [e] at h
        exact List.append_cancel_left h
      | false =>
        have h2 := (toldAfter_length (us ++ p :: vs) []).2 ⟨b, by simp [hb]⟩
        have h3 := congrArg List.length h
        simp only [List.cons_append] at h3
        unfold told at h3
        rw [if_neg (by simp [hu])] at h3
        simp [meant] at h2 h3
        omega
  · intro h
    have key : ∀ qs : List Piece, (∀ us p vs, qs = us ++ p :: vs → p.literal = false → ∀ b, .control b ∉ vs) →
        ∃ us vs, qs = us ++ vs ∧ (∀ p ∈ us, p.literal = true) ∧ ∀ p ∈ vs, ∀ b, p ≠ .control b := by
      intro qs
      induction qs with
      | nil => intro _; exact ⟨[], [], rfl, by simp, by simp⟩
      | cons q qs ih =>
        intro h
        cases hq : q.literal with
        | true =>
          obtain ⟨us, vs, h1, h2, h3⟩ := ih fun us p vs e => h (q :: us) p vs (by rw [e]; rfl)
          refine ⟨q :: us, vs, by rw [h1]; rfl, ?_, h3⟩
          intro p hp
          rcases List.mem_cons.mp hp with rfl | hp
          · exact hq
          · exact h2 p hp
        | false =>
          refine ⟨[], q :: qs, rfl, by simp, ?_⟩
          intro p hp b e
          subst e
          rcases List.mem_cons.mp hp with e | hp
          · rw [← e] at hq; cases hq
          · exact h [] q qs rfl hq b hp
    obtain ⟨us, vs, rfl, h1, h2⟩ := key ps h
    exact told_eq us vs h1 h2

/-! ## Control characters -/

theorem simple_not : ∀ b : UInt8, b < 0x1f → simple b = none := byte_all (by decide +kernel)
theorem hex_not : ∀ b : UInt8, b < 0x1f → ¬ Hex b := byte_all (by decide +kernel)

theorem piece_control {p : Piece} {v : List UInt8} (h : p.fits v) {b : UInt8} (hb : b < 0x1f) (hm : b ∈ p.bytes) :
    p.error = some (.stringUnescaped b) ∨ p.error = some (.stringEscapeUnknown b) := by
  have esc : ∀ {hs : List UInt8}, (∀ c ∈ hs, Hex c) → b ∉ escaped hs := by
    intro hs hh hc
    simp only [escaped, List.mem_cons] at hc
    rcases hc with hc | hc | hc
    · rw [hc] at hb; exact absurd hb (by decide)
    · rw [hc] at hb; exact absurd hb (by decide)
    · exact hex_not b hb (hh b hc)
  cases p with
  | plain c =>
    obtain rfl : b = c := by simpa [Piece.bytes] using hm
    exact absurd hb (plain_not b h.2.2)
  | control c =>
    obtain rfl : b = c := by simpa [Piece.bytes] using hm
    exact .inl rfl
  | escape c w =>
    simp only [Piece.bytes, List.mem_cons, List.not_mem_nil, or_false] at hm
    rcases hm with hm | hm
    · rw [hm] at hb; exact absurd hb (by decide)
    · have h : simple c = some w := h
      rw [← hm, simple_not b hb] at h; cases h
  | unknown c =>
    simp only [Piece.bytes, List.mem_cons, List.not_mem_nil, or_false] at hm
    rcases hm with hm | hm
    · rw [hm] at hb; exact absurd hb (by decide)
    · rw [hm]; exact .inr rfl
  | code x => exact (esc h.1.2 hm).elim
  | trail x => exact (esc (show Trail x from h).1.2 hm).elim
  | lead x => exact (esc h.1.1.2 hm).elim
  | pair x y =>
    rcases List.mem_append.mp hm with hm | hm
    · exact (esc h.1.1.2 hm).elim
    · exact (esc h.2.1.2 hm).elim
  | short hs => exact (esc h.2.1 hm).elim

theorem pieces_control {b : UInt8} (hb : b < 0x1f) : ∀ {ps : List Piece} {e : List UInt8}, AllFit ps e → b ∈ allBytes ps →
    .error (.stringUnescaped b) ∈ errors ps ∨ .error (.stringEscapeUnknown b) ∈ errors ps
  | p :: ps, e, h, hm => by
    rcases List.mem_append.mp (show b ∈ p.bytes ++ allBytes ps from hm) with hm | hm
    · rcases piece_control h.1 hb hm with he | he
      · left; simp [errors, he]
      · right; simp [errors, he]
    · have := pieces_control hb h.2 hm
      unfold errors at this ⊢
      rw [List.filterMap_cons]
      cases (p.error.map Token.error) with
      | none => exact this
      | some t =>
        rcases this with this | this
        · exact .inl (List.mem_cons_of_mem _ this)
        · exact .inr (List.mem_cons_of_mem _ this)

/-! ## The end of the input -/

theorem complete_empty {R : Reader σ} {view : σ → List UInt8} (hR : Faithful R view) {st : σ} {d : Dec} (h1 : d.state = .none) (h2 : d.done = none)
    (hv : view st = []) : complete R st d = some (st, d, none) := by
  have hc : clearDone R st d = some (st, d) := by unfold clearDone; rw [h2]
  unfold complete
  rw [hc]
  simp only []
  rw [if_pos h1]
  have := hR.map st 1 none
  cases hm : R.map st 1 none with
  | cont m =>
    rw [hm] at this
    have h3 := this.1.length_le
    rw [hv] at h3
    have := this.2
    simp only [List.length_nil] at h3
    omega
  | brk e => rfl
  | fault => rw [hm] at this; exact this.elim

theorem complete_some {R : Reader σ} {view : σ → List UInt8} (hR : Faithful R view) {st : σ} {d : Dec} (h1 : d.state ≠ .none) (h2 : d.done = none)
    (hv : d.idx ≤ (view st).length) : ∃ m, m <+: view st ∧ d.idx ≤ m.length ∧ complete R st d = (completeState d m).map fun (d, t) => (st, d, t) := by
  have hc : clearDone R st d = some (st, d) := by unfold clearDone; rw [h2]
  unfold complete
  rw [hc]
  simp only []
  rw [if_neg h1]
  have := hR.map st d.idx none
  cases hm : R.map st d.idx none with
  | cont m =>
    rw [hm] at this
    exact ⟨m, this.1, this.2, rfl⟩
  | brk e =>
    rw [hm] at this
    exact absurd this (by show ¬ (view st).length < d.idx; omega)
  | fault => rw [hm] at this; exact this.elim

theorem complete_all {R : Reader σ} {view : σ → List UInt8} (hR : Faithful R view) {st : σ} {d : Dec} (h1 : d.state ≠ .none) (h2 : d.done = none)
    (hv : d.idx = (view st).length) : complete R st d = (completeState d (view st)).map fun (d, t) => (st, d, t) := by
  obtain ⟨m, h3, h4, h5⟩ := complete_some hR h1 h2 (Nat.le_of_eq hv)
  rw [h5, h3.eq_of_length_le (by omega)]

theorem raiseWhitespace_eq {bs : List UInt8} (h : ∀ b ∈ bs, Space b) : raiseWhitespace bs = some (.whitespace bs) := by
  unfold raiseWhitespace
  rw [if_pos (isUtf8_ascii fun b hb => space_ascii b (h b hb))]

theorem stale_plain {n : Numeral} (h : n.Wf) : ¬ n.stale.Hollow ↔ n.signs = [] ∧ n.fraction = none ∧ n.exponent = none := by
  obtain ⟨h0, -⟩ := h
  obtain ⟨s, i, f, e⟩ := n
  rcases e with - | ⟨c, t, e⟩
  · rcases f with - | f
    · by_cases hs : s = []
      · simp only [hs, Numeral.stale, if_true, Numeral.Hollow, and_self, iff_true]
        rintro (h | h | ⟨c, s, h⟩)
        · have h : i.take 1 = [] := h
          rw [List.take_eq_nil_iff] at h
          rcases h with h | h
          · cases h
          · rcases h0 with g | g
            · exact g hs
            · exact g h
        · cases h
        · cases h
      · simp [hs, Numeral.stale, Numeral.Hollow]
    · simp [Numeral.stale, Numeral.Hollow]
  · simp [Numeral.stale, Numeral.Hollow]

theorem raise_plain (b : UInt8) (ds : List UInt8) (hb : Digit b) :
    raiseNumber (b :: ds) ⟨.plus, ⟨0, 1⟩, ⟨0, 0⟩, .plus, ⟨0, 0⟩⟩ = some (.number ⟨b :: ds, .plus, [b], none, none⟩) := by
  rw [raiseNumber_eq]
  have : text (b :: ds) ⟨0, 1⟩ = some [b] := text_eq (u := []) (m := [b]) (v := ds) (by simpa using hb) rfl rfl rfl
  show (text (b :: ds) ⟨0, 1⟩).bind _ = _
  rw [this]
  rfl

end Verif.Json.Bytes
