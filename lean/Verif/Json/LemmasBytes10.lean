import Verif.Json.LemmasBytes9
/-! # The cut of a text is unique -/
namespace Verif.Json.Bytes

/-- The text is at its end, or goes on with something else. -/
def Stop (p : UInt8 → Prop) (v : List UInt8) : Prop := v = [] ∨ ∃ b v', v = b :: v' ∧ ¬ p b

theorem span_unique {p : UInt8 → Prop} : ∀ {a a' v v' : List UInt8}, (∀ x ∈ a, p x) → (∀ x ∈ a', p x) → Stop p v → Stop p v' →
    a ++ v = a' ++ v' → a = a' ∧ v = v'
  | [], [], v, v', _, _, _, _, h => ⟨rfl, h⟩
  | [], x :: a', v, v', _, h2, h3, _, h => by
    rcases h3 with h3 | ⟨b, w, h3, h4⟩
    · rw [h3] at h; cases h
    · rw [h3] at h
      simp only [List.nil_append, List.cons_append, List.cons.injEq] at h
      rw [h.1] at h4
      exact (h4 (h2 x List.mem_cons_self)).elim
  | x :: a, [], v, v', h1, _, _, h3, h => by
    rcases h3 with h3 | ⟨b, w, h3, h4⟩
    · rw [h3] at h; cases h
    · rw [h3] at h
      simp only [List.nil_append, List.cons_append, List.cons.injEq] at h
      rw [← h.1] at h4
      exact (h4 (h1 x List.mem_cons_self)).elim
  | x :: a, y :: a', v, v', h1, h2, h3, h4, h => by
    simp only [List.cons_append, List.cons.injEq] at h
    obtain ⟨g1, g2⟩ := span_unique (fun z hz => h1 z (List.mem_cons_of_mem _ hz)) (fun z hz => h2 z (List.mem_cons_of_mem _ hz)) h3 h4 h.2
    exact ⟨by rw [h.1, g1], g2⟩

/-! ## Numbers -/

theorem digit_sign : ∀ b, Digit b → ¬ SignByte b := byte_all (by decide +kernel)
theorem point_not : ∀ b, Point b → ¬ SignByte b ∧ ¬ Digit b ∧ ¬ Exp b := byte_all (by decide +kernel)
theorem exp_not : ∀ b, Exp b → ¬ SignByte b ∧ ¬ Digit b ∧ ¬ Point b := byte_all (by decide +kernel)

def fractionBytes (f : Option (List UInt8)) : List UInt8 := match f with | none => [] | some f => 0x2e :: f
def exponentBytes (e : Option (UInt8 × List UInt8 × List UInt8)) : List UInt8 := match e with | none => [] | some (c, s, e) => c :: (s ++ e)

theorem numeral_bytes (n : Numeral) (v : List UInt8) :
    n.bytes ++ v = n.signs ++ (n.digits ++ (fractionBytes n.fraction ++ (exponentBytes n.exponent ++ v))) := by
  obtain ⟨s, i, f, e⟩ := n
  rcases f with - | f <;> rcases e with - | ⟨c, t, e⟩ <;> simp [Numeral.bytes, fractionBytes, exponentBytes]

def NStop (n : Numeral) (v : List UInt8) : Prop := v = [] ∨ ∃ b v', v = b :: v' ∧ ¬ n.Takes b

theorem stop_mono {p q : UInt8 → Prop} {v : List UInt8} (h : Stop q v) (hpq : ∀ b, p b → q b) : Stop p v := by
  rcases h with h | ⟨b, v', h1, h2⟩
  · exact .inl h
  · exact .inr ⟨b, v', h1, fun hp => h2 (hpq b hp)⟩

theorem stop_digits {p : UInt8 → Prop} {d v : List UInt8} (hd : ∀ x ∈ d, ¬ p x) (hv : d = [] → Stop p v) : Stop p (d ++ v) := by
  cases d with
  | nil => exact hv rfl
  | cons x d => exact .inr ⟨x, d ++ v, rfl, hd x List.mem_cons_self⟩

theorem stop_exponent {p : UInt8 → Prop} {n : Numeral} {v : List UInt8} (hn : n.Wf) (hp : ∀ b, Exp b → ¬ p b) (hv : n.exponent = none → Stop p v) :
    Stop p (exponentBytes n.exponent ++ v) := by
  obtain ⟨-, -, -, -, h⟩ := hn
  cases he : n.exponent with
  | none => exact hv he
  | some x =>
    obtain ⟨c, s, e⟩ := x
    exact .inr ⟨c, s ++ e ++ v, rfl, hp c (h c s e he).1⟩

theorem stop_fraction {p : UInt8 → Prop} {f : Option (List UInt8)} {v : List UInt8} (hp : ∀ b, Point b → ¬ p b) (hv : f = none → Stop p v) :
    Stop p (fractionBytes f ++ v) := by
  cases f with
  | none => exact hv rfl
  | some x => exact .inr ⟨0x2e, x ++ v, rfl, hp _ rfl⟩

theorem nstop_stop {n : Numeral} {v : List UInt8} {p : UInt8 → Prop} (h : NStop n v) (hp : ∀ b, p b → n.Takes b) : Stop p v := stop_mono h hp

theorem number_unique {n n' : Numeral} {v v' : List UInt8} (hn : n.Wf) (hn' : n'.Wf) (hv : NStop n v) (hv' : NStop n' v')
    (h : n.bytes ++ v = n'.bytes ++ v') : n = n' ∧ v = v' := by
  rw [numeral_bytes, numeral_bytes] at h
  have signs : ∀ {n : Numeral} {v : List UInt8}, n.Wf → NStop n v → Stop SignByte (n.digits ++ (fractionBytes n.fraction ++ (exponentBytes n.exponent ++ v))) := by
    intro n v hn hv
    refine stop_digits (fun x hx => digit_sign x (hn.2.2.1 x hx)) fun hd => stop_fraction (fun b hb => (point_not b hb).1) fun hf =>
      stop_exponent hn (fun b hb => (exp_not b hb).1) fun he => nstop_stop hv fun b hb => ?_
    unfold Numeral.Takes
    rw [he]
    exact .inr (.inr ⟨hf, .inr ⟨hd, hb⟩⟩)
  have digits : ∀ {n : Numeral} {v : List UInt8}, n.Wf → NStop n v → Stop Digit (fractionBytes n.fraction ++ (exponentBytes n.exponent ++ v)) := by
    intro n v hn hv
    exact stop_fraction (fun b hb => (point_not b hb).2.1) fun hf =>
      stop_exponent hn (fun b hb => (exp_not b hb).2.1) fun he => nstop_stop hv fun b hb => .inl hb
  have fraction : ∀ {n : Numeral} {v : List UInt8}, n.Wf → NStop n v → Stop Digit (exponentBytes n.exponent ++ v) := by
    intro n v hn hv
    exact stop_exponent hn (fun b hb => (exp_not b hb).2.1) fun he => nstop_stop hv fun b hb => .inl hb
  have point : ∀ {n : Numeral} {v : List UInt8}, n.Wf → NStop n v → n.fraction = none → Stop Point (exponentBytes n.exponent ++ v) := by
    intro n v hn hv hf
    refine stop_exponent hn (fun b hb => (exp_not b hb).2.2) fun he => nstop_stop hv fun b hb => ?_
    unfold Numeral.Takes
    rw [he]
    exact .inr (.inr ⟨hf, .inl hb⟩)
  have letter : ∀ {n : Numeral} {v : List UInt8}, NStop n v → n.exponent = none → Stop Exp v := by
    intro n v hv he
    refine nstop_stop hv fun b hb => ?_
    unfold Numeral.Takes
    rw [he]
    exact .inr (.inl hb)
  have notPoint : ∀ {x w w' : List UInt8}, Stop Point w → ¬ w = 0x2e :: w' := by
    intro x w w' hs he
    rcases hs with hs | ⟨b, w2, hs, hb⟩
    · rw [hs] at he; cases he
    · rw [hs] at he; cases he; exact hb rfl
  have notExp : ∀ {c : UInt8} {w w' : List UInt8}, Exp c → Stop Exp w → ¬ w = c :: w' := by
    intro c w w' hc hs he
    rcases hs with hs | ⟨b, w2, hs, hb⟩
    · rw [hs] at he; cases he
    · rw [hs] at he; cases he; exact hb hc
  obtain ⟨e1, h⟩ := span_unique hn.2.1 hn'.2.1 (signs hn hv) (signs hn' hv') h
  obtain ⟨e2, h⟩ := span_unique hn.2.2.1 hn'.2.2.1 (digits hn hv) (digits hn' hv') h
  have e3 : n.fraction = n'.fraction ∧ exponentBytes n.exponent ++ v = exponentBytes n'.exponent ++ v' := by
    cases hf : n.fraction with
    | none =>
      cases hf' : n'.fraction with
      | none =>
        rw [hf, hf'] at h
        exact ⟨rfl, h⟩
      | some f =>
        rw [hf, hf'] at h
        exact (notPoint (x := []) (point hn hv hf) h).elim
    | some f =>
      cases hf' : n'.fraction with
      | none =>
        rw [hf, hf'] at h
        exact (notPoint (x := []) (point hn' hv' hf') h.symm).elim
      | some f' =>
        rw [hf, hf'] at h
        have h : 0x2e :: (f ++ _) = 0x2e :: (f' ++ _) := h
        rw [List.cons.injEq] at h
        obtain ⟨g1, g2⟩ := span_unique (hn.2.2.2.1 f hf) (hn'.2.2.2.1 f' hf') (fraction hn hv) (fraction hn' hv') h.2
        exact ⟨by rw [g1], g2⟩
  obtain ⟨e3, h⟩ := e3
  have e4 : n.exponent = n'.exponent ∧ v = v' := by
    cases he : n.exponent with
    | none =>
      cases he' : n'.exponent with
      | none =>
        rw [he, he'] at h
        exact ⟨rfl, h⟩
      | some x =>
        obtain ⟨c, s, e⟩ := x
        rw [he, he'] at h
        exact (notExp (hn'.2.2.2.2 c s e he').1 (letter hv he) h).elim
    | some x =>
      obtain ⟨c, s, e⟩ := x
      cases he' : n'.exponent with
      | none =>
        rw [he, he'] at h
        exact (notExp (hn.2.2.2.2 c s e he).1 (letter hv' he') h.symm).elim
      | some x' =>
        obtain ⟨c', s', e'⟩ := x'
        rw [he, he'] at h
        have h : c :: (s ++ e ++ v) = c' :: (s' ++ e' ++ v') := h
        rw [List.cons.injEq, List.append_assoc, List.append_assoc] at h
        obtain ⟨g0, h⟩ := h
        have last : ∀ {n : Numeral} {c : UInt8} {s e v : List UInt8}, n.Wf → NStop n v → n.exponent = some (c, s, e) → Stop SignByte (e ++ v) := by
          intro n c s e v hn hv he
          refine stop_digits (fun x hx => digit_sign x ((hn.2.2.2.2 c s e he).2.2 x hx)) fun hd => nstop_stop hv fun b hb => ?_
          unfold Numeral.Takes
          rw [he]
          exact .inr ⟨hd, hb⟩
        obtain ⟨g1, h⟩ := span_unique (hn.2.2.2.2 c s e he).2.1 (hn'.2.2.2.2 c' s' e' he').2.1 (last hn hv he) (last hn' hv' he') h
        obtain ⟨g2, h⟩ := span_unique (hn.2.2.2.2 c s e he).2.2 (hn'.2.2.2.2 c' s' e' he').2.2 (nstop_stop hv fun b hb => .inl hb)
          (nstop_stop hv' fun b hb => .inl hb) h
        exact ⟨by rw [g0, g1, g2], h⟩
  refine ⟨?_, e4.2⟩
  cases n; cases n'
  cases e1; cases e2; cases e3; cases e4.1
  rfl

/-! ## Strings -/

open Classical in
/-- The piece after `\u`. -/
noncomputable def code? (r : List UInt8) : Option (Piece × List UInt8) :=
  if Hex4 (r.take 4) then
    if Lead (r.take 4) then
      if Opens (r.drop 4) then none
      else if (r.drop 4).take 2 = [0x5c, 0x75] ∧ Trail ((r.drop 6).take 4) then some (.pair (r.take 4) ((r.drop 6).take 4), r.drop 10)
      else some (.lead (r.take 4), r.drop 4)
    else if Trail (r.take 4) then some (.trail (r.take 4), r.drop 4)
    else some (.code (r.take 4), r.drop 4)
  else if r.drop (r.takeWhile fun b => decide (Hex b)).length = [] then none
  else some (.short (r.takeWhile fun b => decide (Hex b)), r.drop (r.takeWhile fun b => decide (Hex b)).length)

/-- The first piece of a string. -/
noncomputable def next? : List UInt8 → Option (Piece × List UInt8)
  | [] => none
  | b :: r =>
    if b = 0x22 then none
    else if b = 0x5c then
      match r with
      | [] => none
      | c :: r =>
        match simple c with
        | some w => some (.escape c w, r)
        | none => if c = 0x75 then code? r else some (.unknown c, r)
    else if b < 0x1f then some (.control b, r)
    else some (.plain b, r)

theorem next_code (r : List UInt8) : next? (0x5c :: 0x75 :: r) = code? r := rfl

theorem control_not : ∀ b : UInt8, b < 0x1f → b ≠ 0x22 ∧ b ≠ 0x5c := byte_all (by decide +kernel)
theorem plain_not : ∀ b : UInt8, 0x1f ≤ b → ¬ b < 0x1f := byte_all (by decide +kernel)
theorem lead_trail {h : List UInt8} (h1 : Lead h) : ¬ Trail h := fun h2 => by
  have := h1.2; have := h2.2; omega

theorem next_fits {p : Piece} {v : List UInt8} (h : p.fits v) : next? (p.bytes ++ v) = some (p, v) := by
  have four : ∀ {h v : List UInt8}, Hex4 h → (h ++ v).take 4 = h ∧ (h ++ v).drop 4 = v := by
    intro h v hh
    rw [← hh.1]
    exact ⟨List.take_left, List.drop_left⟩
  cases p with
  | plain b =>
    obtain ⟨h1, h2, h3⟩ := h
    simp [Piece.bytes, next?, h1, h2, plain_not b h3]
  | control b =>
    obtain ⟨h1, h2⟩ := control_not b h
    simp [Piece.bytes, next?, h1, h2, show b < 0x1f from h]
  | escape b w =>
    simp [Piece.bytes, next?, show simple b = some w from h]
  | unknown b =>
    obtain ⟨h1, h2⟩ := h
    simp [Piece.bytes, next?, h1, h2]
  | code x =>
    obtain ⟨h1, h2, h3⟩ := h
    show code? (x ++ v) = _
    obtain ⟨e1, e2⟩ := four (v := v) h1
    unfold code?
    rw [e1, e2, if_pos h1, if_neg h2, if_neg h3]
  | trail x =>
    have h : Trail x := h
    show code? (x ++ v) = _
    obtain ⟨e1, e2⟩ := four (v := v) h.1
    unfold code?
    rw [e1, e2, if_pos h.1, if_neg (fun hl => lead_trail hl h), if_pos h]
  | lead x =>
    obtain ⟨h1, h2, h3⟩ := h
    show code? (x ++ v) = _
    obtain ⟨e1, e2⟩ := four (v := v) h1.1
    have e3 : (x ++ v).drop 6 = v.drop 2 := by rw [show 6 = 4 + 2 from rfl, ← List.drop_drop, e2]
    unfold code?
    rw [e1, e2, e3, if_pos h1.1, if_pos h1, if_neg h2, if_neg]
    rintro ⟨g1, g2⟩
    refine h3 _ (v.drop 6) ?_ g2
    have s1 : v = v.take 2 ++ v.drop 2 := (List.take_append_drop 2 v).symm
    have s2 : v.drop 2 = (v.drop 2).take 4 ++ v.drop 6 := by
      rw [show 6 = 2 + 4 from rfl, ← List.drop_drop, List.take_append_drop]
    rw [s2, g1] at s1
    exact s1
  | pair x y =>
    obtain ⟨h1, h2⟩ := h
    show code? (x ++ escaped y ++ v) = _
    rw [List.append_assoc]
    obtain ⟨e1, e2⟩ := four (v := escaped y ++ v) h1.1
    have e3 : (x ++ (escaped y ++ v)).drop 6 = y ++ v := by rw [show 6 = 4 + 2 from rfl, ← List.drop_drop, e2]; rfl
    have e4 : (x ++ (escaped y ++ v)).drop 10 = v := by rw [show 10 = 6 + 4 from rfl, ← List.drop_drop, e3, (four h2.1).2]
    unfold code?
    rw [e1, e2, e3, e4, (four h2.1).1, if_pos h1.1, if_pos h1, if_neg, if_pos ⟨rfl, h2⟩]
    intro ho
    have := (opens_matches ho).1
    rw [List.length_append, escaped_length h2.1] at this
    omega
  | short hs =>
    obtain ⟨h1, h2, b, v', rfl, h3⟩ := h
    show code? (hs ++ b :: v') = _
    have e1 : (hs ++ b :: v').takeWhile (fun b => decide (Hex b)) = hs := by
      rw [List.takeWhile_append_of_pos (by intro a ha; exact decide_eq_true (h2 a ha))]
      rw [List.takeWhile_cons_of_neg (by simpa using h3), List.append_nil]
    unfold code?
    rw [if_neg, e1, List.drop_left, if_neg (by simp)]
    intro hx
    refine h3 (hx.2 b ?_)
    obtain ⟨j, hj⟩ : ∃ j, 4 = hs.length + (j + 1) := ⟨3 - hs.length, by omega⟩
    rw [hj, List.take_length_add_append]
    simp

theorem next_end {e : List UInt8} (h : Part e ∨ ∃ v, e = 0x22 :: v) : next? e = none := by
  rcases h with (h | ⟨h, r, hl, ho, rfl⟩) | ⟨v, rfl⟩
  · rcases opens_cases h with rfl | rfl | ⟨hs, rfl, h1, h2⟩
    · rfl
    · rfl
    · show code? hs = none
      have e1 : hs.takeWhile (fun b => decide (Hex b)) = hs := by
        have := List.takeWhile_append_of_pos (p := fun b => decide (Hex b)) (l₁ := hs) (l₂ := []) (by intro a ha; exact decide_eq_true (h2 a ha))
        rwa [List.append_nil, List.takeWhile_nil, List.append_nil] at this
      unfold code?
      rw [if_neg, e1, if_pos (by simp)]
      intro hx
      have := hx.1
      simp only [List.length_take] at this
      omega
  · show code? (h ++ r) = none
    have e1 : (h ++ r).take 4 = h := by rw [← hl.1.1]; exact List.take_left
    have e2 : (h ++ r).drop 4 = r := by rw [← hl.1.1]; exact List.drop_left
    unfold code?
    rw [e1, e2, if_pos hl.1, if_pos hl, if_pos ho]
  · rfl

theorem string_unique : ∀ {ps ps' : List Piece} {e e' : List UInt8}, AllFit ps e → AllFit ps' e' →
    (Part e ∨ ∃ v, e = 0x22 :: v) → (Part e' ∨ ∃ v, e' = 0x22 :: v) → allBytes ps ++ e = allBytes ps' ++ e' → ps = ps' ∧ e = e'
  | [], [], e, e', _, _, _, _, h => ⟨rfl, h⟩
  | [], p :: ps', e, e', _, h2, h3, _, h => by
    exfalso
    have h1 := next_end h3
    have h2 := next_fits h2.1
    rw [show e = p.bytes ++ (allBytes ps' ++ e') by rw [← List.append_assoc]; exact h] at h1
    rw [h1] at h2; cases h2
  | p :: ps, [], e, e', h2, _, _, h3, h => by
    exfalso
    have h1 := next_end h3
    have h2 := next_fits h2.1
    rw [show e' = p.bytes ++ (allBytes ps ++ e) by rw [← List.append_assoc]; exact h.symm] at h1
    rw [h1] at h2; cases h2
  | p :: ps, p' :: ps', e, e', h1, h2, h3, h4, h => by
    have g1 := next_fits h1.1
    have g2 := next_fits h2.1
    have h : p.bytes ++ (allBytes ps ++ e) = p'.bytes ++ (allBytes ps' ++ e') := by
      rw [← List.append_assoc, ← List.append_assoc]; exact h
    rw [h, g2] at g1
    simp only [Option.some.injEq, Prod.mk.injEq] at g1
    obtain ⟨k1, k2⟩ := string_unique h1.2 h2.2 h3 h4 g1.2.symm
    exact ⟨by rw [g1.1, k1], k2⟩

/-! ## Lexemes -/

instance (b : UInt8) : Decidable (StartsWord b) := by unfold StartsWord; infer_instance

/-- The kind of lexeme a byte starts. -/
def kind (b : UInt8) : Nat :=
  if Space b then 0 else if (mark b).isSome then 1 else if b = 0x22 then 2 else if SignByte b ∨ Digit b then 3 else 4

theorem kind_space : ∀ b, Space b → kind b = 0 := byte_all (by decide +kernel)
theorem kind_mark : ∀ b, (mark b).isSome → kind b = 1 := byte_all (by decide +kernel)
theorem kind_number : ∀ b, SignByte b ∨ Digit b → kind b = 3 := byte_all (by decide +kernel)
theorem kind_word : ∀ b, StartsWord b → kind b = 4 := byte_all (by decide +kernel)

def Lexeme.kind : Lexeme → Nat
  | space _ => 0
  | mark _ _ => 1
  | string _ => 2
  | number _ => 3
  | word _ => 4

/-- Nothing starts the empty tail. -/
def Tail.kind : Tail → Nat
  | none => 5
  | space _ => 0
  | string _ _ => 2
  | number _ => 3
  | word _ => 4

def kindOf : List UInt8 → Nat
  | [] => 5
  | b :: _ => kind b

theorem number_kind {n : Numeral} (h : n.Wf) (v : List UInt8) : kindOf (n.bytes ++ v) = 3 := by
  rw [numeral_bytes]
  cases hs : n.signs with
  | cons b s => exact kind_number b (.inl (h.2.1 b (by rw [hs]; exact List.mem_cons_self)))
  | nil =>
    cases hd : n.digits with
    | cons b s => exact kind_number b (.inr (h.2.2.1 b (by rw [hd]; exact List.mem_cons_self)))
    | nil => rcases h.1 with g | g <;> contradiction

theorem space_kind {bs : List UInt8} (h1 : bs ≠ []) (h2 : ∀ b ∈ bs, Space b) (v : List UInt8) : kindOf (bs ++ v) = 0 := by
  cases bs with
  | nil => exact (h1 rfl).elim
  | cons b l => exact kind_space b (h2 b List.mem_cons_self)

theorem lexeme_kind {x : Lexeme} {v : List UInt8} (h : x.fits v) : kindOf (x.bytes ++ v) = x.kind := by
  cases x with
  | space bs => exact space_kind h.1 h.2.1 v
  | mark b t => exact kind_mark b (by rw [show mark b = some t from h]; rfl)
  | word bs =>
    obtain ⟨⟨b, l, rfl, h, -⟩, -⟩ := h
    exact kind_word b h
  | number n => exact number_kind h.1 v
  | string ps => rfl

theorem tail_kind {t : Tail} (h : t.fits) : kindOf t.bytes = t.kind := by
  cases t with
  | none => rfl
  | space bs => rw [← List.append_nil (Tail.bytes _)]; exact space_kind h.1 h.2 []
  | word bs =>
    obtain ⟨b, l, rfl, h, -⟩ := h
    exact kind_word b h
  | number n => rw [← List.append_nil (Tail.bytes _)]; exact number_kind h []
  | string ps part => rfl

theorem part_quote {v : List UInt8} (h : Part (0x22 :: v)) : False := by
  rcases h with ⟨w, h, -, -, he⟩ | ⟨h, r, -, -, he⟩
  · simp [escaped] at he
  · simp [escaped] at he

theorem word_split {b b' : UInt8} {l l' v v' : List UInt8} (h1 : ∀ c ∈ l, InWord c) (h2 : ∀ c ∈ l', InWord c) (h3 : Stop InWord v) (h4 : Stop InWord v')
    (h : b :: l ++ v = b' :: l' ++ v') : b :: l = b' :: l' ∧ v = v' := by
  simp only [List.cons_append, List.cons.injEq] at h
  obtain ⟨g1, g2⟩ := span_unique h1 h2 h3 h4 h.2
  exact ⟨by rw [h.1, g1], g2⟩

theorem lexeme_unique {x x' : Lexeme} {v v' : List UInt8} (h : x.fits v) (h' : x'.fits v') (he : x.bytes ++ v = x'.bytes ++ v') : x = x' ∧ v = v' := by
  have hk : x.kind = x'.kind := by rw [← lexeme_kind h, ← lexeme_kind h', he]
  cases x <;> cases x' <;> first | cases hk | skip
  · obtain ⟨-, h1, h2⟩ := h
    obtain ⟨-, h1', h2'⟩ := h'
    obtain ⟨g1, g2⟩ := span_unique h1 h1' (.inr h2) (.inr h2') he
    exact ⟨by rw [g1], g2⟩
  · rename_i b t b' t'
    have he : b :: v = b' :: v' := he
    cases he
    have h : mark b = some t := h
    have h' : mark b = some t' := h'
    rw [h] at h'; cases h'
    exact ⟨rfl, rfl⟩
  · obtain ⟨⟨b, l, rfl, -, h1⟩, h2⟩ := h
    obtain ⟨⟨b', l', rfl, -, h1'⟩, h2'⟩ := h'
    obtain ⟨g1, g2⟩ := word_split h1 h1' (.inr h2) (.inr h2') he
    exact ⟨by rw [g1], g2⟩
  · obtain ⟨g1, g2⟩ := number_unique h.1 h'.1 (.inr h.2) (.inr h'.2) he
    exact ⟨by rw [g1], g2⟩
  · rename_i ps ps'
    have he : allBytes ps ++ 0x22 :: v = allBytes ps' ++ 0x22 :: v' := by simpa [Lexeme.bytes] using he
    obtain ⟨g1, g2⟩ := string_unique h h' (.inr ⟨v, rfl⟩) (.inr ⟨v', rfl⟩) he
    cases g2
    exact ⟨by rw [g1], rfl⟩

theorem lexeme_tail {x : Lexeme} {t : Tail} {v : List UInt8} (h : x.fits v) (h' : t.fits) (he : x.bytes ++ v = t.bytes) : False := by
  have hk : x.kind = t.kind := by rw [← lexeme_kind h, ← tail_kind h', he]
  rw [← List.append_nil t.bytes] at he
  cases x <;> cases t <;> first | cases hk | skip
  · obtain ⟨-, h1, b, v', h2, -⟩ := id h
    obtain ⟨g1, g2⟩ := span_unique h1 h'.2 (.inr h.2.2) (.inl rfl) he
    rw [h2] at g2; cases g2
  · obtain ⟨⟨b, l, rfl, -, h1⟩, b2, v', h2, h3⟩ := h
    obtain ⟨b', l', rfl, -, h1'⟩ := h'
    obtain ⟨g1, g2⟩ := word_split h1 h1' (.inr ⟨b2, v', h2, h3⟩) (.inl rfl) he
    rw [h2] at g2; cases g2
  · obtain ⟨hn, b2, v', h2, h3⟩ := h
    obtain ⟨g1, g2⟩ := number_unique hn h' (.inr ⟨b2, v', h2, h3⟩) (.inl rfl) he
    rw [h2] at g2; cases g2
  · rename_i ps ps' part
    have he : allBytes ps ++ 0x22 :: v = allBytes ps' ++ part := by simpa [Lexeme.bytes, Tail.bytes] using he
    obtain ⟨g1, g2⟩ := string_unique h h'.1 (.inr ⟨v, rfl⟩) (.inl h'.2) he
    rw [← g2] at h'
    exact part_quote h'.2

theorem tail_unique {t t' : Tail} (h : t.fits) (h' : t'.fits) (he : t.bytes = t'.bytes) : t = t' := by
  have hk : t.kind = t'.kind := by rw [← tail_kind h, ← tail_kind h', he]
  cases t <;> cases t' <;> first | cases hk | skip
  · rfl
  · exact congrArg Tail.space he
  · exact congrArg Tail.word he
  · obtain ⟨g1, g2⟩ := number_unique h h' (.inl rfl) (.inl rfl) (congrArg (· ++ []) he)
    rw [g1]
  · rename_i ps part ps' part'
    have he : allBytes ps ++ part = allBytes ps' ++ part' := by simpa [Tail.bytes] using he
    obtain ⟨g1, g2⟩ := string_unique h.1 h'.1 (.inl h.2) (.inl h'.2) he
    rw [g1, g2]

theorem cut_unique' {text text' : List UInt8} {ls ls' : List Lexeme} {t t' : Tail} (h : Cut text ls t) : Cut text' ls' t' → text = text' → ls = ls' ∧ t = t' := by
  induction h generalizing text' ls' t' with
  | tail t ht =>
    intro h' he
    cases h' with
    | tail t' ht' => exact ⟨rfl, tail_unique ht ht' he⟩
    | lexeme x hx hc => exact (lexeme_tail hx ht he.symm).elim
  | lexeme x hx hc ih =>
    intro h' he
    cases h' with
    | tail t' ht' => exact (lexeme_tail hx ht' he).elim
    | lexeme x' hx' hc' =>
      obtain ⟨g1, g2⟩ := lexeme_unique hx hx' he
      obtain ⟨g3, g4⟩ := ih hc' g2
      exact ⟨by rw [g1, g3], g4⟩

theorem cut_unique {text : List UInt8} {ls ls' : List Lexeme} {t t' : Tail} (h : Cut text ls t) (h' : Cut text ls' t') : ls = ls' ∧ t = t' :=
  cut_unique' h h' rfl

/-! ## More text -/

theorem piece_more {p : Piece} {v : List UInt8} (b : List UInt8) (h : p.fits v) : p.fits (v ++ b) := by
  cases p with
  | lead x =>
    obtain ⟨h1, h2, h3⟩ := h
    have hsplit : ∀ h2 v', Hex4 h2 → v ++ b = escaped h2 ++ v' → v.length < 6 → Opens v := by
      intro y v' hy he hlt
      refine ⟨(escaped y).drop v.length, y, ?_, hy, ?_⟩
      · intro hc
        have := congrArg List.length hc
        rw [List.length_drop, escaped_length hy, List.length_nil] at this
        omega
      · have : (escaped y).take v.length = v := by
          have := congrArg (List.take v.length) he
          rw [List.take_left, List.take_append_of_le_length (by rw [escaped_length hy]; omega)] at this
          exact this.symm
        rw [← this, List.length_take, Nat.min_eq_left (by rw [escaped_length hy]; omega)]
        exact List.take_append_drop _ _
    refine ⟨h1, ?_, ?_⟩
    · rintro ⟨w, y, hw, hy, he⟩
      refine h2 ⟨b ++ w, y, ?_, hy, by rw [← List.append_assoc]; exact he⟩
      intro hc
      exact hw (List.append_eq_nil_iff.mp hc).2
    · intro y v' he ht
      by_cases hlt : v.length < 6
      · exact h2 (hsplit y v' ht.1 he hlt)
      · refine h3 y (v.drop 6) ?_ ht
        have e1 := congrArg (List.take 6) he
        rw [List.take_append_of_le_length (by omega), ← escaped_length ht.1, List.take_left, escaped_length ht.1] at e1
        rw [← e1]
        exact (List.take_append_drop _ _).symm
  | short hs =>
    obtain ⟨h1, h2, c, v', rfl, h3⟩ := h
    exact ⟨h1, h2, c, v' ++ b, rfl, h3⟩
  | _ => exact h

theorem pieces_more {ps : List Piece} {v : List UInt8} (b : List UInt8) (h : AllFit ps v) : AllFit ps (v ++ b) := by
  induction ps with
  | nil => trivial
  | cons p ps ih =>
    refine ⟨?_, ih h.2⟩
    rw [← List.append_assoc]
    exact piece_more b h.1

theorem lexeme_more {x : Lexeme} {v : List UInt8} (b : List UInt8) (h : x.fits v) : x.fits (v ++ b) := by
  cases x with
  | space bs =>
    obtain ⟨h1, h2, c, v', rfl, h3⟩ := h
    exact ⟨h1, h2, c, v' ++ b, rfl, h3⟩
  | mark c t => exact h
  | word bs =>
    obtain ⟨h1, c, v', rfl, h3⟩ := h
    exact ⟨h1, c, v' ++ b, rfl, h3⟩
  | number n =>
    obtain ⟨h1, c, v', rfl, h3⟩ := h
    exact ⟨h1, c, v' ++ b, rfl, h3⟩
  | string ps => exact pieces_more (v := 0x22 :: v) b h

end Verif.Json.Bytes
