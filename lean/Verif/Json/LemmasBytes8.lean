import Verif.Json.LemmasBytes7
/-! # The streaming JSON tokenizer on a text: whole strings -/
namespace Verif.Json.Bytes
open Verif.Io (usizeMax)

theorem utf8_ne (n : Nat) : utf8 n ≠ [] := by
  intro h
  have := congrArg List.length h
  unfold utf8 at this
  rw [String.length_utf8EncodeChar] at this
  have := Char.utf8Size_pos (Char.ofNat n)
  simp_all

/-- The opening quote and the contents, if the pieces are still to come. -/
def whole (acc u run : List UInt8) (ps : List Piece) : List UInt8 := if acc.length = 0 then u ++ told ps else acc ++ toldAfter run ps

theorem whole_acc {acc u run : List UInt8} {ps : List Piece} (h : acc.length ≠ 0) : whole acc u run ps = acc ++ toldAfter run ps := if_neg h

theorem toldAfter_escape (run : List UInt8) {p : Piece} (ps : List Piece) (h : p.literal = false) :
    toldAfter run (p :: ps) = run ++ p.means ++ toldAfter [] ps := by
  cases p <;> first | rfl | exact absurd h (by simp [Piece.literal])

theorem whole_escape (acc u run : List UInt8) {p : Piece} (ps : List Piece) (h : p.literal = false) :
    whole acc u run (p :: ps) = base (accRun acc run) u ++ p.means ++ toldAfter [] ps := by
  unfold whole base accRun
  by_cases ha : acc.length = 0
  · rw [if_pos ha, if_neg (show ¬ acc.length > 0 by omega), if_pos ha, told, h, if_neg (by simp), List.append_assoc]
  · rw [if_neg ha, if_pos (show acc.length > 0 by omega), if_neg (by simp only [List.length_append]; omega), toldAfter_escape _ _ h]
    simp only [List.append_assoc]

theorem whole_plain (acc u run : List UInt8) (b : UInt8) (ps : List Piece) :
    whole acc u run (.plain b :: ps) = whole acc (u ++ [b]) (run ++ [b]) ps := by
  unfold whole
  split
  · show u ++ ([b] ++ told ps) = _
    rw [List.append_assoc]
  · rfl

theorem whole_control (acc u run : List UInt8) (b : UInt8) (ps : List Piece) :
    whole acc u run (.control b :: ps) = whole (accRun acc (run ++ [b])) (u ++ [b]) (run ++ [b]) ps := by
  unfold whole accRun
  by_cases ha : acc.length = 0
  · rw [if_pos ha, if_neg (show ¬ acc.length > 0 by omega), if_pos ha]
    show u ++ ([b] ++ told ps) = _
    rw [List.append_assoc]
  · rw [if_neg ha, if_pos (show acc.length > 0 by omega), if_neg (by simp only [List.length_append]; omega)]
    show acc ++ ((run ++ [b]) ++ toldAfter (run ++ [b]) ps) = _
    simp only [List.append_assoc]

theorem wfc_string {text u v : List UInt8} (n : Nat) (acc : List UInt8) (ht : text = u ++ v) (hl : text.length ≤ isizeMax) :
    Wfc text ⟨.string n, u.length, none, acc⟩ := ⟨hl, by rw [ht]; simp⟩

section
variable {text : List UInt8} {k : Nat} {toks : List Token} {tf : List UInt8} {df : Dec}

theorem open_escape {u u0 run r : List UInt8} {acc : List UInt8} (hu : u = u0 ++ run) (ht : text = u ++ 0x5c :: r) (hl : text.length ≤ isizeMax)
    (h : Drain k text ⟨.stringEscape, u.length + 1, none, accRun acc run⟩ toks tf df) :
    Drain (k + 1) text ⟨.string u0.length, u.length, none, acc⟩ toks tf df :=
  .quiet (wfc_string _ _ ht hl) (escape_step acc hu ht hl) h

theorem wfc_escape {u r : List UInt8} (acc : List UInt8) (ht : text = u ++ 0x5c :: r) (hl : text.length ≤ isizeMax) :
    Wfc text ⟨.stringEscape, u.length + 1, none, acc⟩ := ⟨hl, by show u.length + 1 ≤ text.length; rw [ht]; simp⟩

theorem open_code {u u0 run hs r : List UInt8} {acc : List UInt8} (hu : u = u0 ++ run) (ht : text = u ++ (escaped hs ++ r)) (hl : text.length ≤ isizeMax)
    (h : Drain k text ⟨.stringEscapeUnicode (u.length + 2), u.length + 2, none, accRun acc run⟩ toks tf df) :
    Drain (k + 2) text ⟨.string u0.length, u.length, none, acc⟩ toks tf df := by
  have ht' : text = u ++ 0x5c :: 0x75 :: (hs ++ r) := ht
  refine open_escape hu ht' hl (.quiet (wfc_escape _ ht' hl) ?_ h)
  rw [after_escape _ 0x75 ht' hl]
  rfl

theorem wfc_unicode {u r : List UInt8} (hs acc : List UInt8) (ht : text = u ++ (escaped hs ++ r)) (hl : text.length ≤ isizeMax) :
    Wfc text ⟨.stringEscapeUnicode (u.length + 2), u.length + 2, none, acc⟩ :=
  ⟨hl, by show u.length + 2 ≤ text.length; rw [ht]; simp [escaped], Nat.le_refl _, by show u.length + 2 < u.length + 2 + 4; omega⟩

theorem wfc_trail {u r : List UInt8} (e acc : List UInt8) (lead : Nat) (he : e.length = 6) (ht : text = u ++ (e ++ r)) (hl : text.length ≤ isizeMax) :
    Wfc text ⟨.stringEscapeUnicodeTrail (u.length + 6) lead, u.length + 6, none, acc⟩ :=
  ⟨hl, by show u.length + 6 ≤ text.length; rw [ht]; simp [he], Nat.le_refl _, by show u.length + 6 < u.length + 6 + 6; omega⟩

end

theorem escaped_length {h : List UInt8} (hh : Hex4 h) : (escaped h).length = 6 := by simp [escaped, hh.1]

/-- What is known of the end of a string. -/
structure Ends (text e G : List UInt8) (k : Nat) (toks : List Token) (tf : List UInt8) (P : Dec → Prop) : Prop where
  size : text.length ≤ isizeMax
  string : ∀ u u0 run acc : List UInt8, u = u0 ++ run → text = u ++ e → whole acc u run [] = G →
    ∃ df, Drain k text ⟨.string u0.length, u.length, none, acc⟩ toks tf df ∧ P df
  trail : ∀ u h r acc : List UInt8, Hex4 h → e = escaped h ++ r → text = u ++ (escaped h ++ r) →
    Lead h ∧ ∃ df, Drain k text ⟨.stringEscapeUnicodeTrail (u.length + 6) (value h), u.length + 6, none, acc⟩ toks tf df ∧ P df

section
variable {text e G : List UInt8} {k : Nat} {toks : List Token} {tf : List UInt8} {P : Dec → Prop}

def InPieces (text e G : List UInt8) (k : Nat) (toks : List Token) (tf : List UInt8) (P : Dec → Prop) (ps : List Piece) : Prop :=
  ∀ u u0 run acc : List UInt8, u = u0 ++ run → text = u ++ (allBytes ps ++ e) → AllFit ps e → whole acc u run ps = G →
    ∃ df, Drain (k + 3 * (allBytes ps).length) text ⟨.string u0.length, u.length, none, acc⟩ (errors ps ++ toks) tf df ∧ P df

def InTrail (text e G : List UInt8) (k : Nat) (toks : List Token) (tf : List UInt8) (P : Dec → Prop) (ps : List Piece) : Prop :=
  ∀ u h acc : List UInt8, Lead h → text = u ++ (escaped h ++ (allBytes ps ++ e)) → AllFit (.lead h :: ps) e →
    base acc u ++ utf8 0xfffd ++ toldAfter [] ps = G →
    ∃ df, Drain (k + 1 + 3 * (allBytes ps).length) text ⟨.stringEscapeUnicodeTrail (u.length + 6) (value h), u.length + 6, none, acc⟩
      (.error (.stringEscapeUnpairedLeadSurrogate (value h)) :: (errors ps ++ toks)) tf df ∧ P df

theorem means_ne {p : Piece} : p.means ≠ [] := by
  cases p <;> simp [Piece.means, utf8_ne]

/-- The trail surrogate after a lead surrogate. -/
theorem pair_step {u r : List UInt8} (acc h1 h2 : List UInt8) (hp1 : Lead h1) (hp2 : Trail h2) (ht : text = u ++ (escaped h1 ++ (escaped h2 ++ r)))
    (hl : text.length ≤ isizeMax) :
    inner text ⟨.stringEscapeUnicodeTrail (u.length + 6) (value h1), u.length + 6, none, acc⟩ =
      (text, ⟨.string (u.length + 12), u.length + 12, none, base acc u ++ (Piece.pair h1 h2).means⟩, .quiet) := by
  have hs2 := trail_step acc (value h1) (escaped h1) h2 (escaped_length hp1.1) hp1.2 ht hl hp2.1
  have hv := hp2.2
  rw [if_neg (by omega), if_pos hv] at hs2
  exact hs2

/-- The pieces after an escape. -/
theorem pieces_after {ps : List Piece} (h : InPieces text e G k toks tf P ps) {u x acc : List UInt8} {i : Nat} (ht : text = u ++ (x ++ (allBytes ps ++ e)))
    (hf : AllFit ps e) (hi : i = u.length + x.length) (ha : acc.length ≠ 0) (hg : acc ++ toldAfter [] ps = G) :
    ∃ df, Drain (k + 3 * (allBytes ps).length) text ⟨.string i, i, none, acc⟩ (errors ps ++ toks) tf df ∧ P df := by
  have := h (u ++ x) (u ++ x) [] acc (by simp) (by rw [ht]; simp) hf (by rw [whole_acc ha]; exact hg)
  rw [List.length_append, ← hi] at this
  exact this

theorem trail_pieces {ps : List Piece} (he : Ends text e G k toks tf P) (h : InPieces text e G k toks tf P ps)
    (ih : ∀ p ps', ps = p :: ps' → InPieces text e G k toks tf P ps' ∧ InTrail text e G k toks tf P ps') : InTrail text e G k toks tf P ps := by
  intro u hd acc hlead ht hf hg
  obtain ⟨⟨-, hno, hnt⟩, hfit⟩ := hf
  have hl := he.size
  have h6 := escaped_length hlead.1
  have hw := wfc_trail (escaped hd) acc (value hd) h6 ht hl
  rcases matches_cases (allBytes ps ++ e) with ⟨h1, h2⟩ | ⟨m, v', h1, h2, h3⟩ | ⟨m, b, v', h1, h2, h3, h4⟩
  · exact (hno (matches_opens h1 h2)).elim
  · -- an escaped code
    obtain ⟨h2d, hh2, rfl⟩ := matches_six h1 h2
    have ht2 := ht
    rw [h3] at ht2
    have hs := trail_step acc (value hd) (escaped hd) h2d h6 hlead.2 ht2 hl hh2
    have hnt2 : ¬ (0xdc00 ≤ value h2d ∧ value h2d ≤ 0xdfff) := fun hc => hnt h2d v' h3 ⟨hh2, hc⟩
    -- what the code is the code of
    have kind : ∀ {x : List UInt8} (w : List UInt8), Hex4 x → allBytes ps ++ e = escaped x ++ w → h2d = x ∧ v' = w := by
      intro x w hx heq
      rw [h3] at heq
      have := List.append_inj heq (by rw [escaped_length hh2, escaped_length hx])
      refine ⟨?_, this.2⟩
      have := this.1
      unfold escaped at this
      simp only [List.cons.injEq, true_and] at this
      exact this
    cases ps with
    | nil =>
      obtain ⟨k1, k2⟩ := he.trail (u ++ escaped hd) h2d v' (base acc u ++ utf8 0xfffd) hh2 h3 (by rw [ht2]; simp)
      obtain ⟨df, k3, k4⟩ := k2
      refine ⟨df, ?_, k4⟩
      rw [if_pos k1.2] at hs
      rw [List.length_append, h6, Nat.add_assoc] at k3
      exact .tell hw hs k3
    | cons p ps' =>
      obtain ⟨ih1, ih2⟩ := ih p ps' rfl
      obtain ⟨hp, hfit'⟩ := hfit
      cases p with
      | plain b =>
        exfalso
        have := congrArg List.head? h3
        simp [allBytes, Piece.bytes, escaped] at this
        exact hp.2.1 this
      | control b =>
        exfalso
        have := congrArg List.head? h3
        simp [allBytes, Piece.bytes, escaped] at this
        have hp : b < 0x1f := hp
        rw [this] at hp
        exact absurd hp (by decide)
      | escape b w =>
        exfalso
        have := congrArg (fun l => l[1]?) h3
        simp [allBytes, Piece.bytes, escaped] at this
        rw [this] at hp
        exact absurd hp (by simp [Piece.fits, simple])
      | unknown b =>
        exfalso
        have := congrArg (fun l => l[1]?) h3
        simp [allBytes, Piece.bytes, escaped] at this
        exact hp.2 this
      | trail x =>
        exfalso
        have hx : Trail x := hp
        obtain ⟨rfl, -⟩ := kind (x := x) (allBytes ps' ++ e) hx.1 (by simp [allBytes, Piece.bytes])
        exact hnt2 hx.2
      | code x =>
        have hx : Hex4 x ∧ ¬ Lead x ∧ ¬ Trail x := hp
        obtain ⟨rfl, rfl⟩ := kind (x := x) (allBytes ps' ++ e) hx.1 (by simp [allBytes, Piece.bytes])
        rw [if_neg (fun hc => hx.2.1 ⟨hx.1, hc⟩), if_neg hnt2] at hs
        have ha : (base acc u ++ utf8 0xfffd ++ utf8 (value h2d)).length ≠ 0 := by
          have := List.length_pos_iff.mpr (utf8_ne (value h2d))
          simp only [List.length_append]; omega
        obtain ⟨df, k3, k4⟩ := pieces_after ih1 (u := u) (x := escaped hd ++ escaped h2d) (i := u.length + 12) (by rw [ht2]; simp) hfit'
          (by simp [h6, escaped_length hh2]) ha (by rw [← hg]; simp [toldAfter, Piece.means])
        refine ⟨df, ?_, k4⟩
        have h5 : errors (.code h2d :: ps') = errors ps' := rfl
        rw [h5]
        refine (Drain.tell hw hs k3).mono ?_
        have : (allBytes (.code h2d :: ps')).length = 6 + (allBytes ps').length := by simp [allBytes, Piece.bytes, escaped_length hh2]
        omega
      | lead x =>
        have hx : Lead x := hp.1
        obtain ⟨rfl, rfl⟩ := kind (x := x) (allBytes ps' ++ e) hx.1 (by simp [allBytes, Piece.bytes])
        rw [if_pos hx.2] at hs
        have ha : (base acc u ++ utf8 0xfffd).length ≠ 0 := base_ne _ (utf8_ne _)
        obtain ⟨df, k3, k4⟩ := ih2 (u ++ escaped hd) h2d (base acc u ++ utf8 0xfffd) hx (by rw [ht2]; simp) ⟨hp, hfit'⟩ (by
          rw [show base (base acc u ++ utf8 0xfffd) (u ++ escaped hd) = base acc u ++ utf8 0xfffd from if_neg ha, ← hg]
          simp [toldAfter, Piece.means])
        rw [List.length_append, h6, Nat.add_assoc] at k3
        refine ⟨df, (Drain.tell hw hs k3).mono ?_, k4⟩
        have : (allBytes (.lead h2d :: ps')).length = 6 + (allBytes ps').length := by simp [allBytes, Piece.bytes, escaped_length hh2]
        omega
      | pair x y =>
        have hx : Lead x ∧ Trail y := hp
        obtain ⟨rfl, rfl⟩ := kind (x := x) (escaped y ++ (allBytes ps' ++ e)) hx.1.1 (by simp [allBytes, Piece.bytes])
        rw [if_pos hx.1.2] at hs
        have ha : (base acc u ++ utf8 0xfffd).length ≠ 0 := base_ne _ (utf8_ne _)
        have ht3 : text = (u ++ escaped hd) ++ (escaped h2d ++ (escaped y ++ (allBytes ps' ++ e))) := by rw [ht2]; simp
        have hs2 := pair_step (base acc u ++ utf8 0xfffd) h2d y hx.1 hx.2 ht3 hl
        rw [show base (base acc u ++ utf8 0xfffd) (u ++ escaped hd) = base acc u ++ utf8 0xfffd from if_neg ha] at hs2
        have hw2 := wfc_trail (escaped h2d) (base acc u ++ utf8 0xfffd) (value h2d) (escaped_length hh2) ht3 hl
        have ha2 : (base acc u ++ utf8 0xfffd ++ (Piece.pair h2d y).means).length ≠ 0 := by
          have := List.length_pos_iff.mpr (means_ne (p := .pair h2d y))
          simp only [List.length_append]; omega
        obtain ⟨df, k3, k4⟩ := pieces_after ih1 (u := u) (x := escaped hd ++ (escaped h2d ++ escaped y)) (i := (u ++ escaped hd).length + 12) (by rw [ht2]; simp) hfit'
          (by simp [h6, escaped_length hh2, escaped_length hx.2.1]) ha2
          (by rw [← hg, toldAfter_escape [] _ rfl, List.nil_append, List.append_assoc (base acc u ++ utf8 0xfffd)])
        refine ⟨df, ?_, k4⟩
        have hq := Drain.quiet hw2 hs2 k3
        rw [List.length_append, h6] at hq
        have h5 : errors (.pair h2d y :: ps') = errors ps' := rfl
        rw [h5]
        refine (Drain.tell hw hs hq).mono ?_
        have : (allBytes (.pair h2d y :: ps')).length = 12 + (allBytes ps').length := by
          simp [allBytes, Piece.bytes, escaped_length hh2, escaped_length hx.2.1]; omega
        omega
      | short hs' =>
        exfalso
        obtain ⟨p1, p2, b, w, p3, p4⟩ := hp
        have hcat : escaped hs' ++ (b :: w) = escaped h2d ++ v' := by
          have : allBytes (.short hs' :: ps') ++ e = escaped hs' ++ (allBytes ps' ++ e) := by simp [allBytes, Piece.bytes]
          rw [← h3, this, p3]
        have hcat : hs' ++ b :: w = h2d ++ v' := by
          simp only [escaped, List.cons_append, List.cons.injEq, true_and] at hcat
          exact hcat
        have hi : hs'.length < h2d.length := by rw [hh2.1]; exact p1
        have e1 : (hs' ++ b :: w)[hs'.length]? = some b := getElem_at rfl
        rw [hcat, List.getElem?_append_left hi, List.getElem?_eq_getElem hi] at e1
        cases e1
        exact p4 (hh2.2 _ (List.getElem_mem hi))
  · -- no code
    have ht2 := ht
    rw [h3] at ht2
    have hs := trail_mismatch acc (value hd) (escaped hd) m b v' h6 ht2 hl h1 h2 h4
    obtain ⟨df, k3, k4⟩ := pieces_after h (u := u) (x := escaped hd) (i := u.length + 6) ht hfit (by rw [h6])
      (base_ne _ (utf8_ne _)) hg
    exact ⟨df, (Drain.tell hw hs k3).mono (by omega), k4⟩

theorem string_pieces (he : Ends text e G k toks tf P) {p : Piece} {ps : List Piece} (ih1 : InPieces text e G k toks tf P ps)
    (ih2 : InTrail text e G k toks tf P ps) : InPieces text e G k toks tf P (p :: ps) := by
  intro u u0 run acc hu ht hf hg
  have hl := he.size
  have hf' := hf
  obtain ⟨hp, hfit⟩ := hf
  have hb : allBytes (p :: ps) = p.bytes ++ allBytes ps := rfl
  rw [hb, List.append_assoc] at ht
  rw [hb, List.length_append]
  cases p with
  | plain b =>
    have ht' : text = u ++ b :: (allBytes ps ++ e) := ht
    obtain ⟨df, k1, k2⟩ := ih1 (u ++ [b]) u0 (run ++ [b]) acc (by rw [hu]; simp) (by rw [ht']; simp) hfit (by rw [← whole_plain]; exact hg)
    refine ⟨df, Drain.mono (k1.skip (wfc_string _ _ ht' hl) ?_ rfl rfl) (by omega), k2⟩
    rw [List.length_append]
    exact plain_step _ acc b ht' hl rfl hp
  | control b =>
    have ht' : text = u ++ b :: (allBytes ps ++ e) := ht
    obtain ⟨df, k1, k2⟩ := ih1 (u ++ [b]) u0 (run ++ [b]) (accRun acc (run ++ [b])) (by rw [hu]; simp) (by rw [ht']; simp) hfit
      (by rw [← whole_control]; exact hg)
    rw [List.length_append] at k1
    refine ⟨df, Drain.mono (.tell (wfc_string _ _ ht' hl) (control_step acc b hu ht' hl hp) k1) ?_, k2⟩
    simp [Piece.bytes]; omega
  | escape b v =>
    have ht' : text = u ++ 0x5c :: b :: (allBytes ps ++ e) := ht
    have hp : simple b = some v := hp
    rw [whole_escape _ _ _ _ rfl] at hg
    have hs := after_escape (accRun acc run) b ht' hl
    rw [hp] at hs
    obtain ⟨df, k1, k2⟩ := pieces_after ih1 (u := u) (x := [0x5c, b]) (i := u.length + 2) ht hfit rfl (base_ne [v] (by simp)) hg
    refine ⟨df, Drain.mono (open_escape hu ht' hl (.quiet (wfc_escape _ ht' hl) hs k1)) ?_, k2⟩
    simp [Piece.bytes]; omega
  | unknown b =>
    have ht' : text = u ++ 0x5c :: b :: (allBytes ps ++ e) := ht
    obtain ⟨hp, hp2⟩ : simple b = none ∧ b ≠ 0x75 := hp
    rw [whole_escape _ _ _ _ rfl] at hg
    have hs := after_escape (accRun acc run) b ht' hl
    rw [hp] at hs
    simp only [] at hs
    rw [if_neg hp2] at hs
    obtain ⟨df, k1, k2⟩ := pieces_after ih1 (u := u) (x := [0x5c, b]) (i := u.length + 2) ht hfit rfl (base_ne [b] (by simp)) hg
    refine ⟨df, Drain.mono (open_escape hu ht' hl (.tell (wfc_escape _ ht' hl) hs k1)) ?_, k2⟩
    simp [Piece.bytes]; omega
  | code h =>
    obtain ⟨hp, hp2, hp3⟩ : Hex4 h ∧ ¬ Lead h ∧ ¬ Trail h := hp
    have ht' : text = u ++ (escaped h ++ (allBytes ps ++ e)) := ht
    rw [whole_escape _ _ _ _ rfl] at hg
    have hs := code_step (accRun acc run) h ht' hl hp
    rw [if_neg (fun hc => hp2 ⟨hp, hc⟩), if_neg (fun hc => hp3 ⟨hp, hc⟩)] at hs
    obtain ⟨df, k1, k2⟩ := pieces_after ih1 (u := u) (x := escaped h) (i := u.length + 6) ht hfit (by rw [escaped_length hp]) (base_ne _ (utf8_ne _)) hg
    refine ⟨df, Drain.mono (open_code hu ht' hl (.quiet (wfc_unicode h _ ht' hl) hs k1)) ?_, k2⟩
    simp [Piece.bytes, escaped_length hp]; omega
  | trail h =>
    have hp : Trail h := hp
    have ht' : text = u ++ (escaped h ++ (allBytes ps ++ e)) := ht
    rw [whole_escape _ _ _ _ rfl] at hg
    have hs := code_step (accRun acc run) h ht' hl hp.1
    have hp2 := hp.2
    rw [if_neg (by omega), if_pos hp2] at hs
    obtain ⟨df, k1, k2⟩ := pieces_after ih1 (u := u) (x := escaped h) (i := u.length + 6) ht hfit (by rw [escaped_length hp.1]) (base_ne _ (utf8_ne _)) hg
    refine ⟨df, Drain.mono (open_code hu ht' hl (.tell (wfc_unicode h _ ht' hl) hs k1)) ?_, k2⟩
    simp [Piece.bytes, escaped_length hp.1]; omega
  | lead h =>
    have hp1 : Lead h := hp.1
    have ht' : text = u ++ (escaped h ++ (allBytes ps ++ e)) := ht
    rw [whole_escape _ _ _ _ rfl] at hg
    have hs := code_step (accRun acc run) h ht' hl hp1.1
    rw [if_pos hp1.2] at hs
    obtain ⟨df, k1, k2⟩ := ih2 u h (accRun acc run) hp1 ht' hf' hg
    refine ⟨df, Drain.mono (open_code hu ht' hl (.quiet (wfc_unicode h _ ht' hl) hs k1)) ?_, k2⟩
    simp [Piece.bytes, escaped_length hp1.1]; omega
  | pair h1 h2 =>
    obtain ⟨hp1, hp2⟩ : Lead h1 ∧ Trail h2 := hp
    have ht' : text = u ++ (escaped h1 ++ (escaped h2 ++ (allBytes ps ++ e))) := by rw [ht]; simp [Piece.bytes]
    rw [whole_escape _ _ _ _ rfl] at hg
    have hs := code_step (accRun acc run) h1 ht' hl hp1.1
    rw [if_pos hp1.2] at hs
    have hs2 := pair_step (accRun acc run) h1 h2 hp1 hp2 ht' hl
    obtain ⟨df, k1, k2⟩ := pieces_after ih1 (u := u) (x := escaped h1 ++ escaped h2) (i := u.length + 12) ht hfit
      (by simp [escaped_length hp1.1, escaped_length hp2.1]) (base_ne _ means_ne) hg
    refine ⟨df, Drain.mono (open_code hu ht' hl (.quiet (wfc_unicode h1 _ ht' hl) hs
      (.quiet (wfc_trail (escaped h1) _ _ (escaped_length hp1.1) ht' hl) hs2 k1))) ?_, k2⟩
    simp [Piece.bytes, escaped_length hp1.1, escaped_length hp2.1]; omega
  | short hs =>
    obtain ⟨p1, p2, b, w, p3, p4⟩ := hp
    have ht' : text = u ++ (escaped hs ++ (allBytes ps ++ e)) := ht
    have ht2 := ht'
    rw [p3] at ht2
    rw [whole_escape _ _ _ _ rfl] at hg
    have hst := short_step (accRun acc run) hs b ht2 hl p1 p2 p4
    obtain ⟨df, k1, k2⟩ := pieces_after ih1 (u := u) (x := escaped hs) (i := u.length + 2 + hs.length) ht hfit (by simp [escaped]; omega)
      (base_ne _ (utf8_ne _)) hg
    refine ⟨df, Drain.mono (open_code hu ht' hl (.tell (wfc_unicode hs _ ht' hl) hst k1)) ?_, k2⟩
    simp [Piece.bytes, escaped]; omega

theorem all_pieces (he : Ends text e G k toks tf P) : ∀ ps : List Piece, InPieces text e G k toks tf P ps ∧ InTrail text e G k toks tf P ps
  | [] => by
    have h : InPieces text e G k toks tf P [] := fun u u0 run acc hu ht _ hg => he.string u u0 run acc hu ht hg
    exact ⟨h, trail_pieces he h (fun p ps' hc => by cases hc)⟩
  | p :: ps => by
    have ih := all_pieces he ps
    have h := string_pieces (p := p) he ih.1 ih.2
    exact ⟨h, trail_pieces he h (fun p ps' hc => by cases hc; exact ih)⟩

end

/-! ## Whole strings -/

theorem run_string {k : Nat} {v tf : List UInt8} {toks : List Token} {P : Dec → Prop} (ps : List Piece) (h : (Lexeme.string ps).fits v)
    (hr : Goes k v toks tf P) (hl : ((Lexeme.string ps).bytes ++ v).length ≤ isizeMax) :
    Run (k + 2 + 3 * (allBytes ps).length) ((Lexeme.string ps).bytes ++ v) ((Lexeme.string ps).tokens ++ toks) tf P := fun i => by
  have hf : AllFit ps (0x22 :: v) := h
  have ht : (Lexeme.string ps).bytes ++ v = [0x22] ++ (allBytes ps ++ 0x22 :: v) := by simp [Lexeme.bytes]
  rw [ht] at hl ⊢
  have he : Ends ([0x22] ++ (allBytes ps ++ 0x22 :: v)) (0x22 :: v) (0x22 :: told ps) (k + 1)
      (stringToken (0x22 :: (allBytes ps ++ [0x22])) (told ps) :: toks) tf P := by
    refine ⟨hl, ?_, ?_⟩
    · intro u u0 run acc hu htx hg
      have hue : u = 0x22 :: allBytes ps := by
        have htx' : (0x22 :: allBytes ps) ++ 0x22 :: v = u ++ 0x22 :: v := by rw [← htx]; simp
        exact (List.append_cancel_right htx').symm
      obtain ⟨acc', hq⟩ := quote_step (u := u) acc hu htx hl (told ps) (by
        rw [← hg]
        unfold whole
        split
        · simp [told]
        · rfl)
      obtain ⟨df, this, h2⟩ := hr (u ++ [0x22]) (.string u0.length) (u.length + 1) acc' (by rw [show u ++ [0x22] ++ v = u ++ 0x22 :: v by simp, ← htx]; exact hl)
      refine ⟨df, ?_, h2⟩
      have hrest : Drain k ([0x22] ++ (allBytes ps ++ 0x22 :: v)) ⟨.string u0.length, u.length + 1, some (u.length + 1), acc'⟩ toks tf df := by
        rw [show u ++ [0x22] ++ v = u ++ 0x22 :: v by simp, ← htx, List.length_append, List.length_singleton] at this
        exact this
      have hraw : u ++ [0x22] = 0x22 :: (allBytes ps ++ [0x22]) := by rw [hue]; rfl
      rw [hraw] at hq
      exact .tell (wfc_string _ _ htx hl) hq hrest
    · intro u h r acc hh hc
      have := congrArg List.head? hc
      simp [escaped] at this
  obtain ⟨df', h3, h4⟩ := (all_pieces he ps).1 [0x22] [] [0x22] [] rfl rfl hf (by simp [whole])
  refine ⟨df', ?_, h4⟩
  have hq : inner ([0x22] ++ (allBytes ps ++ 0x22 :: v)) (start i) = ([0x22] ++ (allBytes ps ++ 0x22 :: v), ⟨.string 0, 1, none, []⟩, .quiet) :=
    first_step (first_quote i _)
  have := Drain.quiet (wfc_none i hl) hq h3
  show Drain _ _ _ (errors ps ++ [_] ++ toks) _ _
  rw [List.append_assoc]
  exact this.mono (by omega)

/-- The tokenizer is within a string. -/
def InString (n : Nat) (d : Dec) : Prop :=
  d.done = none ∧ d.idx ≤ n ∧ d.state ≠ .none ∧ ∀ map, completeState d map = some (d, some (.error .stringIncomplete))

theorem opens_cases {v : List UInt8} (h : Opens v) : v = [] ∨ v = [0x5c] ∨ ∃ hs, v = escaped hs ∧ hs.length < 4 ∧ ∀ b ∈ hs, Hex b := by
  obtain ⟨w, h, hw, hh, he⟩ := h
  have hpos := List.length_pos_iff.mpr hw
  match v, he with
  | [], _ => exact .inl rfl
  | [a], he =>
    simp only [escaped, List.cons_append, List.cons.injEq] at he
    exact .inr (.inl (by rw [he.1]))
  | a :: b :: hs, he =>
    simp only [escaped, List.cons_append, List.cons.injEq] at he
    obtain ⟨rfl, rfl, he⟩ := he
    refine .inr (.inr ⟨hs, rfl, ?_, ?_⟩)
    · have := congrArg List.length he
      have := hh.1
      simp only [List.length_append] at *
      omega
    · intro b hb
      exact hh.2 b (by rw [← he]; exact List.mem_append_left _ hb)

theorem rest_string {k : Nat} (ps : List Piece) (part : List UInt8) (h : (Tail.string ps part).fits) (hl : (Tail.string ps part).bytes.length ≤ isizeMax) :
    Run (k + 4 + 3 * (allBytes ps).length) (Tail.string ps part).bytes (errors ps) (Tail.string ps part).bytes
      (InString (Tail.string ps part).bytes.length) := fun i => by
  obtain ⟨hf, hp⟩ := h
  have ht : (Tail.string ps part).bytes = [0x22] ++ (allBytes ps ++ part) := rfl
  rw [ht] at hl ⊢
  generalize htx : [0x22] ++ (allBytes ps ++ part) = text at *
  have ends : ∀ u h r acc : List UInt8, Lead h → Opens r → text = u ++ (escaped h ++ r) →
      ∃ df, Drain k text ⟨.stringEscapeUnicodeTrail (u.length + 6) (value h), u.length + 6, none, acc⟩ [] text df ∧ InString text.length df := by
    intro u h r acc hlead ho ht
    obtain ⟨o1, o2⟩ := opens_matches ho
    exact ⟨_, .wait (wfc_trail (escaped h) acc _ (escaped_length hlead.1) ht hl) (trail_waits acc (value h) (escaped h) r (escaped_length hlead.1) ht hl o1 o2),
      rfl, Nat.le_refl _, by simp, fun _ => rfl⟩
  have he : Ends text part (0x22 :: told ps) (k + 3) [] text (InString text.length) := by
    refine ⟨hl, ?_, ?_⟩
    · intro u u0 run acc hu htx _
      rcases hp with hp | ⟨h, r, hlead, ho, rfl⟩
      · rcases opens_cases hp with rfl | rfl | ⟨hs, rfl, p1, p2⟩
        · rw [List.append_nil] at htx
          subst htx
          exact ⟨_, .wait (wfc_string (v := []) _ _ (by simp) hl) (string_waits _ acc hl), rfl, Nat.le_refl _, by simp, fun _ => rfl⟩
        · refine ⟨_, Drain.mono (open_escape hu htx hl (.wait (wfc_escape _ htx hl) (escape_waits _ htx hl)) (k := k)) (by omega),
            rfl, ?_, by simp, fun _ => rfl⟩
          rw [htx]; simp
        · refine ⟨_, Drain.mono (open_code (r := []) hu (by rw [List.append_nil]; exact htx) hl
            (.wait (wfc_unicode (r := []) hs _ (by rw [List.append_nil]; exact htx) hl) (short_waits _ hs htx hl p1 p2)) (k := k)) (by omega),
            rfl, Nat.le_refl _, by simp, fun _ => rfl⟩
      · have hs := code_step (accRun acc run) h htx hl hlead.1
        rw [if_pos hlead.2] at hs
        obtain ⟨df, k1, k2⟩ := ends u h r (accRun acc run) hlead ho htx
        exact ⟨df, open_code hu htx hl (.quiet (wfc_unicode h _ htx hl) hs k1), k2⟩
    · intro u h r acc hh hc htx
      rcases hp with hp | ⟨h', r', hlead, ho, hpe⟩
      · exfalso
        have := (opens_matches hp).1
        rw [hc, List.length_append, escaped_length hh] at this
        omega
      · rw [hc] at hpe
        have := List.append_inj hpe (by rw [escaped_length hh, escaped_length hlead.1])
        obtain ⟨e1, rfl⟩ := this
        have e1 : h = h' := by
          unfold escaped at e1
          simp only [List.cons.injEq, true_and] at e1
          exact e1
        subst e1
        obtain ⟨df, k1, k2⟩ := ends u h r acc hlead ho htx
        exact ⟨hlead, df, k1.mono (by omega), k2⟩
  obtain ⟨df', h3, h4⟩ := (all_pieces he ps).1 [0x22] [] [0x22] [] rfl htx.symm hf (by simp [whole])
  refine ⟨df', ?_, h4⟩
  have hq : inner text (start i) = (text, ⟨.string 0, 1, none, []⟩, .quiet) := by
    rw [← htx]; exact first_step (first_quote i _)
  have := Drain.quiet (wfc_none i hl) hq h3
  rw [List.append_nil] at this
  exact this.mono (by omega)

end Verif.Json.Bytes
