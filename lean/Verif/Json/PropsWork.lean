import Verif.Json.LemmasWork2
import Verif.Json.PropsBytes
/-! # Time and memory of the streaming JSON tokenizer (C98)

`R` is any stream that does what `Read` asks for, `G` any way in which vectors grow, and `Life` ranges over all ways in which text arrives and `pop` is
called. -/
namespace Verif.Json.Work
open Verif.Io (usizeMax More SFlow)
open Verif.Json.Bytes (Reader Dec isizeMax Faithful History slices slices_faithful)
variable {σ : Type}

/-! ## The meter -/

/-- The metered tokenizer is the tokenizer. -/
theorem metered_same (G : Growth) (R : Reader σ) (st : σ) (d : Dec) (m : Meter) :
    ((pop G R st d m).1, (pop G R st d m).2.1, (pop G R st d m).2.2.2) = Bytes.pop R st d := advance_same G R _ st d _

/-- So whatever may happen to the tokenizer is metered. -/
theorem history_metered (G : Growth) {R : Reader σ} {view : σ → List UInt8} {fed : List UInt8} {toks : List Bytes.Token} {w : Bool} {st : σ} {d : Dec}
    (h : History R view fed toks w st d) : ∃ m, Life G R view fed toks w st d m := by
  induction h with
  | start st => exact ⟨_, .start st⟩
  | arrive b h hb ih => obtain ⟨m, ih⟩ := ih; exact ⟨m, .arrive b ih hb⟩
  | @token fed toks w st st' d d' t h hp ih =>
    obtain ⟨m, ih⟩ := ih
    have := metered_same G R st d m
    rw [hp] at this
    generalize hq : pop G R st d m = r at this
    obtain ⟨a, b, c, fl⟩ := r
    cases this
    exact ⟨c, .token ih hq⟩
  | @more fed toks w st st' d d' e h hp ih =>
    obtain ⟨m, ih⟩ := ih
    have := metered_same G R st d m
    rw [hp] at this
    generalize hq : pop G R st d m = r at this
    obtain ⟨a, b, c, fl⟩ := r
    cases this
    exact ⟨c, .more ih hq⟩

theorem life_history {G : Growth} {R : Reader σ} {view : σ → List UInt8} {fed : List UInt8} {toks : List Bytes.Token} {w : Bool} {st : σ} {d : Dec} {m : Meter}
    (h : Life G R view fed toks w st d m) : History R view fed toks w st d := by
  induction h with
  | start st => exact .start st
  | arrive b h hb ih => exact .arrive b ih hb
  | @token fed toks w st st' d d' m m' t h hp ih =>
    have := metered_same G R st d m
    rw [hp] at this
    exact .token ih this.symm
  | @more fed toks w st st' d d' m m' e h hp ih =>
    have := metered_same G R st d m
    rw [hp] at this
    exact .more ih this.symm

/-! ## C98: time -/

theorem tally_tests {text : List UInt8} {d : Dec} {c tests e : Nat} (hw : Bytes.Wfc text d) (h : Tally d c tests e) : tests ≤ 2 * (c + text.length) := by
  unfold Bytes.Wfc Bytes.Wf at hw
  unfold Tally at h
  cases hd : d.done with
  | some n => rw [hd] at h hw; simp only at h hw; omega
  | none =>
    rw [hd] at h hw
    simp only at h hw
    cases hs : d.state <;> rw [hs] at h hw <;> simp only at h hw <;> omega

/-- A byte of the text is looked at twice at most, however often the tokenizer has to wait for more. -/
theorem tests_linear {G : Growth} {R : Reader σ} {view : σ → List UInt8} (hR : Faithful R view) {fed : List UInt8} {toks : List Bytes.Token} {w : Bool} {st : σ}
    {d : Dec} {m : Meter} (h : Life G R view fed toks w st d m) : m.tests ≤ 2 * fed.length := by
  obtain ⟨c, hc, hi⟩ := life_inv hR h
  obtain ⟨U, u, e, K, -, -, -, -, -, -, k6⟩ := hi.rest
  have := tally_tests hi.wf k6
  omega

/-- Apart from one round for each call of `pop`, a round takes a byte of the text at least. -/
theorem rounds_linear {G : Growth} {R : Reader σ} {view : σ → List UInt8} (hR : Faithful R view) {fed : List UInt8} {toks : List Bytes.Token} {w : Bool} {st : σ}
    {d : Dec} {m : Meter} (h : Life G R view fed toks w st d m) : m.rounds ≤ m.calls + fed.length := by
  obtain ⟨c, hc, hi⟩ := life_inv hR h
  have := hi.round
  have := front_le hi.wf
  omega

theorem front_reached {d : Dec} {c tests e : Nat} {text : List UInt8} (hw : Bytes.Wfc text d) (h : Tally d c tests e) :
    front d ≤ reached d ∧ 2 * d.accStr.length ≤ 3 * reached d + 2 * e ∧ reached d ≤ text.length := by
  unfold Bytes.Wfc Bytes.Wf at hw
  unfold Tally at h
  unfold front reached
  cases hd : d.done with
  | some n => rw [hd] at h hw; simp only at h hw ⊢; omega
  | none =>
    rw [hd] at h hw
    simp only at h hw ⊢
    cases hs : d.state <;> rw [hs] at h hw <;> simp only at h hw ⊢
    case none => rw [h.2]; simp
    case whitespace => rw [h.2.2]; simp; exact hw.2
    case item => rw [h.2.2]; simp; exact hw.2
    case number => rw [h.2.2]; simp; exact hw.2
    case numberDone => rw [h.2.2]; simp; exact hw.2
    all_goals omega

theorem copied_bound {G : Growth} {R : Reader σ} {view : σ → List UInt8} (hR : Faithful R view) {fed : List UInt8} {toks : List Bytes.Token} {w : Bool} {st : σ}
    {d : Dec} {m : Meter} (h : Life G R view fed toks w st d m) :
    2 * m.copied ≤ (3 + 2 * unescaped toks) * fed.length ∧ unescaped toks ≤ fed.length := by
  obtain ⟨c, hc, hi⟩ := life_inv hR h
  obtain ⟨U, u, e, K, k1, k2, k3, k4, k5, k7, k6⟩ := hi.rest
  obtain ⟨f1, f2, f3⟩ := front_reached hi.wf k6
  have hu : u * front d ≤ u * (view st).length := Nat.mul_le_mul_left u (by omega)
  rw [k1, ← hc]
  refine ⟨?_, ?_⟩
  · simp only [Nat.add_mul, Nat.mul_add, Nat.mul_assoc] at k5 ⊢
    omega
  · have : controls ((view st).take (front d)) ≤ ((view st).take (front d)).length := List.countP_le_length
    rw [List.length_take] at this
    omega

/-- The bytes that are copied in order to decode escape sequences: three for two bytes of the text, as long as no control character in a string was
reported. Each of those may double the current string. -/
theorem copies_linear_partial {G : Growth} {R : Reader σ} {view : σ → List UInt8} (hR : Faithful R view) {fed : List UInt8} {toks : List Bytes.Token} {w : Bool}
    {st : σ} {d : Dec} {m : Meter} (h : Life G R view fed toks w st d m) :
    2 * m.copied ≤ (3 + 2 * unescaped toks) * fed.length
    ∧ ((∀ b, .error (.stringUnescaped b) ∉ toks) → 2 * m.copied ≤ 3 * fed.length) := by
  obtain ⟨h1, -⟩ := copied_bound hR h
  refine ⟨h1, fun hn => ?_⟩
  have : unescaped toks = 0 := by
    unfold unescaped
    rw [List.countP_eq_zero]
    intro t ht hu
    unfold isUnescaped at hu
    split at hu
    · exact hn _ ht
    · cases hu
  rw [this] at h1
  exact h1

/-- In any case at most the square. -/
theorem copies_square {G : Growth} {R : Reader σ} {view : σ → List UInt8} (hR : Faithful R view) {fed : List UInt8} {toks : List Bytes.Token} {w : Bool}
    {st : σ} {d : Dec} {m : Meter} (h : Life G R view fed toks w st d m) : 2 * m.copied ≤ (3 + 2 * fed.length) * fed.length := by
  obtain ⟨h1, h2⟩ := copied_bound hR h
  exact Nat.le_trans h1 (Nat.mul_le_mul_right _ (by omega))

/-! ## C98: memory -/

/-- The buffer of the tokenizer holds three bytes for two bytes of the current token at most, if there are no control characters in it. -/
theorem buffer_linear_partial {R : Reader σ} {view : σ → List UInt8} (hR : Faithful R view) {fed : List UInt8} {toks : List Bytes.Token} {w : Bool}
    {st : σ} {d : Dec} (h : History R view fed toks w st d) :
    reached d ≤ (view st).length
    ∧ 2 * d.accStr.length ≤ (3 + 2 * controls ((view st).take (reached d))) * reached d
    ∧ ((∀ b ∈ (view st).take (reached d), 0x1f ≤ b) → 2 * d.accStr.length ≤ 3 * reached d) := by
  obtain ⟨m, h⟩ := history_metered amortized h
  obtain ⟨c, hc, hi⟩ := life_inv hR h
  obtain ⟨U, u, e, K, k1, k2, k3, k4, k5, k7, k6⟩ := hi.rest
  obtain ⟨f1, f2, f3⟩ := front_reached hi.wf k6
  have hctl : controls ((view st).take (front d)) ≤ controls ((view st).take (reached d)) :=
    List.Sublist.countP_le (List.IsPrefix.sublist (List.take_prefix_take_left (l := view st) f1))
  have he : e ≤ controls ((view st).take (reached d)) * reached d := Nat.le_trans k2 (Nat.mul_le_mul (by omega) f1)
  have hb : 2 * d.accStr.length ≤ (3 + 2 * controls ((view st).take (reached d))) * reached d := by
    rw [Nat.add_mul, Nat.mul_assoc]; omega
  refine ⟨f3, hb, fun hn => ?_⟩
  have : controls ((view st).take (reached d)) = 0 := by
    unfold controls
    rw [List.countP_eq_zero]
    intro b hm hlt
    exact absurd (of_decide_eq_true hlt) (UInt8.not_lt.mpr (hn b hm))
  rw [this] at hb
  exact hb

/-- What is allocated is twice that at most, or 4096 bytes. -/
theorem capacity_bound {G : Growth} {R : Reader σ} {view : σ → List UInt8} (hR : Faithful R view) {fed : List UInt8} {toks : List Bytes.Token} {w : Bool}
    {st : σ} {d : Dec} {m : Meter} (h : Life G R view fed toks w st d m) : d.accStr.length ≤ m.cap ∧ m.cap ≤ max 4096 (2 * d.accStr.length) := by
  obtain ⟨c, hc, hi⟩ := life_inv hR h
  exact ⟨hi.enough, hi.cap⟩

/-- Once all text was read, not more than 4096 bytes are kept, whatever was read before. -/
theorem idle_small {G : Growth} {R : Reader σ} {view : σ → List UInt8} (hR : Faithful R view) {fed : List UInt8} {toks : List Bytes.Token} {w : Bool}
    {st : σ} {d : Dec} {m : Meter} (h : Life G R view fed toks w st d m) (he : view st = []) : d.accStr = [] ∧ m.cap ≤ 4096 := by
  obtain ⟨c, hc, hi⟩ := life_inv hR h
  obtain ⟨U, u, e, K, k1, k2, k3, k4, k5, k7, k6⟩ := hi.rest
  have hcap := hi.cap
  have hw := hi.wf
  suffices hs : d.accStr = [] by
    refine ⟨hs, ?_⟩
    rw [hs] at hcap
    simp at hcap
    omega
  rw [he] at hw
  unfold Bytes.Wfc Bytes.Wf at hw
  unfold Tally at k6
  cases hd : d.done with
  | some n => rw [hd] at k6 hw; simp only [List.length_nil] at k6 hw; omega
  | none =>
    rw [hd] at k6 hw
    simp only [List.length_nil] at k6 hw
    cases hs : d.state <;> rw [hs] at k6 hw <;> simp only at k6 hw
    case none => exact k6.2
    all_goals omega

/-! ## C98: where it is not linear -/

theorem step_quiet {st : { l : List UInt8 // l.length ≤ isizeMax }} {d d' : Dec} (hw : Bytes.Wf st.1 d) (hn : d.done = none)
    (h : Bytes.pureStep st.1 d = (d', .quiet)) (f : Nat) : Bytes.advance slices (f + 1) st d = Bytes.advance slices f st d' := by
  have hwc : Bytes.Wfc st.1 d := by unfold Bytes.Wfc; rw [hn]; exact hw
  obtain ⟨st', d2, fl, ha, he⟩ := Bytes.inner_eq slices_faithful st d hwc
  have hi : Bytes.inner st.1 d = (st.1, d', .quiet) := by unfold Bytes.inner Bytes.clear; rw [hn]; simp only [h]
  rw [hi] at he
  simp only [Prod.mk.injEq] at he
  obtain ⟨e1, rfl, e3⟩ := he
  obtain rfl := Subtype.ext e1
  rcases fl with (- | t) | e | - <;> first | (simp only [Bytes.advance, ha]; done) | cases e3

theorem step_tell {st : { l : List UInt8 // l.length ≤ isizeMax }} {d d' : Dec} {t : Bytes.Token} (hw : Bytes.Wf st.1 d) (hn : d.done = none)
    (h : Bytes.pureStep st.1 d = (d', .tell t)) (f : Nat) : Bytes.advance slices (f + 1) st d = (st, d', .cont t) := by
  have hwc : Bytes.Wfc st.1 d := by unfold Bytes.Wfc; rw [hn]; exact hw
  obtain ⟨st', d2, fl, ha, he⟩ := Bytes.inner_eq slices_faithful st d hwc
  have hi : Bytes.inner st.1 d = (st.1, d', .tell t) := by unfold Bytes.inner Bytes.clear; rw [hn]; simp only [h]
  rw [hi] at he
  simp only [Prod.mk.injEq] at he
  obtain ⟨e1, rfl, e3⟩ := he
  obtain rfl := Subtype.ext e1
  rcases fl with (- | t') | e | -
  · cases e3
  · cases e3; simp only [Bytes.advance, ha]
  · cases e3
  · cases e3

/-- `"\n` followed by control characters, a text that is not valid JSON. -/
def bomb (n : Nat) : List UInt8 := 0x22 :: 0x5c :: 0x6e :: List.replicate n 0x01

theorem bomb_length (n : Nat) : (bomb n).length = n + 3 := by simp [bomb]

theorem pure_map {text : List UInt8} {d : Dec} {min : Nat} {mx : Option Nat} (hq : Bytes.request d = some (.map min mx)) (h : min ≤ text.length) :
    Bytes.pureStep text d = Bytes.fin d (Bytes.handle d text) := by
  unfold Bytes.pureStep
  rw [hq]
  simp only []
  rw [if_pos h]

theorem pure_while {text : List UInt8} {d : Dec} {mx : Option Nat} {p : Nat → UInt8 → Bool} {n : Nat} (hq : Bytes.request d = some (.mapWhile mx p))
    (h : Bytes.scanTo p ((text.drop d.idx).take (mx.getD usizeMax - d.idx)) d.idx = (n, true)) :
    Bytes.pureStep text d = Bytes.fin { d with idx := n } (Bytes.handle { d with idx := n } text) := by
  unfold Bytes.pureStep
  rw [hq]
  simp only [h]
  rw [if_pos (.inl trivial)]

theorem bomb_step {n i : Nat} (hn : n + 3 ≤ isizeMax) (hi : i < n) (acc : List UInt8) (ha : 0 < acc.length) :
    ∃ acc', acc'.length = acc.length + (i + 1)
      ∧ Bytes.pureStep (bomb n) ⟨.string 3, 3 + i, none, acc⟩ = (⟨.string 3, 3 + (i + 1), none, acc'⟩, .tell (.error (.stringUnescaped 1))) := by
  have hu := Bytes.isize_usize _ hn
  have hd : (bomb n).drop (3 + i) = 0x01 :: List.replicate (n - i - 1) 0x01 := by
    rw [Nat.add_comm]
    show (List.replicate n (0x01 : UInt8)).drop i = _
    rw [List.drop_replicate, show n - i = (n - i - 1) + 1 by omega, List.replicate_succ]; rfl
  have hg : (bomb n)[3 + i]? = some 0x01 := by
    have := List.getElem?_drop (xs := bomb n) (i := 3 + i) (j := 0)
    rw [hd] at this
    exact this.symm
  obtain ⟨k, hk⟩ : ∃ k, usizeMax - (3 + i) = k + 1 := ⟨usizeMax - (3 + i) - 1, by omega⟩
  have hb := bomb_length n
  have hpart : Bytes.between (bomb n) 3 (3 + i + 1) = some (((bomb n).take (3 + i + 1)).drop 3) := by
    unfold Bytes.between; rw [if_pos ⟨by omega, by omega⟩]
  have hlen : (((bomb n).take (3 + i + 1)).drop 3).length = i + 1 := by
    rw [List.length_drop, List.length_take]; omega
  have hadd : Bytes.strictAdd (3 + i) 1 = some (3 + i + 1) := by
    unfold Bytes.strictAdd; rw [if_pos (by omega)]
  refine ⟨acc ++ ((bomb n).take (3 + i + 1)).drop 3, by rw [List.length_append, hlen], ?_⟩
  have hs : Bytes.scanTo (fun _ b => Bytes.isPlain b) (((bomb n).drop (3 + i)).take (usizeMax - (3 + i))) (3 + i) = (3 + i, true) := by
    rw [hd, hk]; rfl
  have hh : Bytes.handle ⟨.string 3, 3 + i, none, acc⟩ (bomb n)
      = some (⟨.string 3, 3 + (i + 1), none, acc ++ ((bomb n).take (3 + i + 1)).drop 3⟩, some (.error (.stringUnescaped 1))) := by
    show Bytes.advanceString ⟨.string 3, 3 + i, none, acc⟩ 3 (bomb n) = _
    unfold Bytes.advanceString
    simp only [hg, hadd, hpart, Option.bind_eq_bind, Option.bind_some, Bytes.stringRaw, ha, if_true]
    rfl
  rw [pure_while (d := ⟨.string 3, 3 + i, none, acc⟩) rfl hs]
  show Bytes.fin _ (Bytes.handle ⟨.string 3, 3 + i, none, acc⟩ (bomb n)) = _
  rw [hh]
  rfl

theorem bomb_start {n : Nat} (hn : n + 3 ≤ isizeMax) (f : Nat) :
    Bytes.advance slices (f + 3) ⟨bomb n, by rw [bomb_length]; exact hn⟩ .new
      = Bytes.advance slices f ⟨bomb n, by rw [bomb_length]; exact hn⟩ ⟨.string 3, 3, none, [0x22, 0x0a]⟩ := by
  have hb := bomb_length n
  have hl : (bomb n).length ≤ isizeMax := by omega
  have h1 : Bytes.pureStep (bomb n) .new = (⟨.string 0, 1, none, []⟩, .quiet) := by
    rw [pure_map (d := .new) rfl (by omega)]; rfl
  have h2 : Bytes.pureStep (bomb n) ⟨.string 0, 1, none, []⟩ = (⟨.stringEscape, 2, none, []⟩, .quiet) := by rfl
  have h3 : Bytes.pureStep (bomb n) ⟨.stringEscape, 2, none, []⟩ = (⟨.string 3, 3, none, [0x22, 0x0a]⟩, .quiet) := by
    rw [pure_map (d := ⟨.stringEscape, 2, none, []⟩) (min := 3) rfl (by omega)]; rfl
  rw [step_quiet (st := ⟨bomb n, _⟩) ⟨hl, trivial⟩ rfl h1, step_quiet (st := ⟨bomb n, _⟩) ⟨hl, by show 1 ≤ (bomb n).length; omega⟩ rfl h2,
    step_quiet (st := ⟨bomb n, _⟩) ⟨hl, by show 2 ≤ (bomb n).length; omega⟩ rfl h3]

/-- After an escape sequence, each control character has the bytes since then appended again: the buffer grows with the square of the text. -/
theorem buffer_quadratic (n : Nat) (hn : n + 4 ≤ isizeMax) : ∃ toks st d,
    History slices (·.1) (bomb (n + 1)) toks false st d ∧ reached d = n + 4 ∧ 2 * d.accStr.length = 4 + (n + 1) * (n + 2) := by
  have hl : (bomb (n + 1)).length ≤ isizeMax := by rw [bomb_length]; omega
  have main : ∀ i, i ≤ n → ∃ toks acc, acc.length > 0 ∧ 2 * acc.length = 4 + (i + 1) * (i + 2)
      ∧ History slices (·.1) (bomb (n + 1)) toks false ⟨bomb (n + 1), hl⟩ ⟨.string 3, 3 + (i + 1), none, acc⟩ := by
    intro i
    induction i with
    | zero =>
      intro _
      obtain ⟨acc', a1, a2⟩ := bomb_step (n := n + 1) (i := 0) (by omega) (by omega) [0x22, 0x0a] (by decide)
      refine ⟨_, acc', by simp at a1; omega, by simp at a1; omega,
        History.token (History.start (R := slices) (view := (·.1)) ⟨bomb (n + 1), hl⟩) (st' := ⟨bomb (n + 1), hl⟩) (t := .error (.stringUnescaped 1)) ?_⟩
      show Bytes.advance slices ((4 * usizeMax - 4) + 1 + 3) _ _ = _
      rw [bomb_start (by omega)]
      exact step_tell (st := ⟨bomb (n + 1), hl⟩) ⟨hl, by show 3 ≤ _; rw [bomb_length]; omega⟩ rfl a2 _
    | succ i ih =>
      intro hi
      obtain ⟨toks, acc, h1, h2, h3⟩ := ih (by omega)
      obtain ⟨acc', a1, a2⟩ := bomb_step (n := n + 1) (i := i + 1) (by omega) (by omega) acc h1
      refine ⟨_, acc', by omega, ?_, History.token h3 (st' := ⟨bomb (n + 1), hl⟩) (t := .error (.stringUnescaped 1)) ?_⟩
      · rw [a1, Nat.mul_add, h2]
        simp only [Nat.add_mul, Nat.mul_add]
        omega
      · show Bytes.advance slices ((4 * usizeMax - 1) + 1) _ _ = _
        exact step_tell (st := ⟨bomb (n + 1), hl⟩) ⟨hl, by show 3 + (i + 1) ≤ _; rw [bomb_length]; omega⟩ rfl a2 _
  obtain ⟨toks, acc, h1, h2, h3⟩ := main n (Nat.le_refl _)
  exact ⟨toks, _, _, h3, by show 3 + (n + 1) = n + 4; omega, h2⟩

/-- So no factor bounds the memory of the tokenizer, as the property would have it. -/
theorem buffer_no_factor (k : Nat) (hk : 2 * k + 8 ≤ isizeMax) : ∃ fed toks st d,
    History slices (·.1) fed toks false st d ∧ k * fed.length < d.accStr.length := by
  obtain ⟨toks, st, d, h1, -, h2⟩ := buffer_quadratic (2 * k + 4) (by omega)
  refine ⟨_, toks, st, d, h1, ?_⟩
  rw [bomb_length]
  have e1 : k * (2 * k + 4 + 1 + 3) = 2 * (k * k) + 8 * k := by grind
  have e2 : (2 * k + 4 + 1) * (2 * k + 4 + 2) = 4 * (k * k) + 22 * k + 30 := by grind
  omega

/-! ## Examples -/

/-- A history with an escape sequence, two pieces of text, and a wait in between: `"\n` and `a" `. It meets the hypotheses of `life_history`, `tests_linear`,
`rounds_linear`, `copies_linear_partial`, `copies_square`, `capacity_bound`, and (forgetting the meter) of `history_metered` and `buffer_linear_partial`. -/
example : ∃ toks st d m, Life amortized slices (·.1) ([0x22, 0x5c, 0x6e] ++ [0x61, 0x22, 0x20]) toks false st d m
    ∧ toks = [.string [0x22, 0x5c, 0x6e, 0x61, 0x22] [0x0a, 0x61]] ∧ m = ⟨2, 5, 3, 4, 8⟩ ∧ reached d = 5 := by
  have h0 : Life amortized slices (·.1) [0x22, 0x5c, 0x6e] [] false ⟨[0x22, 0x5c, 0x6e], by decide⟩ .new .new :=
    .start (R := slices) (view := (·.1)) ⟨[0x22, 0x5c, 0x6e], by decide⟩
  have p1 : pop amortized slices ⟨[0x22, 0x5c, 0x6e], by decide⟩ .new .new
      = (⟨[0x22, 0x5c, 0x6e], by decide⟩, ⟨.string 3, 3, none, [0x22, 0x0a]⟩, ⟨1, 4, 1, 2, 8⟩, .brk ⟨4, none⟩) := rfl
  have h1 := Life.more h0 p1
  have h2 := Life.arrive (st' := ⟨[0x22, 0x5c, 0x6e, 0x61, 0x22, 0x20], by decide⟩) [0x61, 0x22, 0x20] h1 rfl
  have p2 : pop amortized slices ⟨[0x22, 0x5c, 0x6e, 0x61, 0x22, 0x20], by decide⟩ ⟨.string 3, 3, none, [0x22, 0x0a]⟩ ⟨1, 4, 1, 2, 8⟩
      = (⟨[0x22, 0x5c, 0x6e, 0x61, 0x22, 0x20], by decide⟩, ⟨.string 3, 5, some 5, [0x22, 0x0a, 0x61, 0x22]⟩, ⟨2, 5, 3, 4, 8⟩,
        .cont (.string [0x22, 0x5c, 0x6e, 0x61, 0x22] [0x0a, 0x61])) := rfl
  exact ⟨_, _, _, _, Life.token h2 p2, rfl, rfl, rfl⟩

/-- The bounds are met with little to spare: a short Unicode escape takes two bytes and yields three. -/
example : (popAll 100 "\"\\ux".toUTF8.toList .new .new).1.accStr = [0x22, 0xef, 0xbf, 0xbd] := by decide +kernel

/-- The text of `buffer_quadratic` with four control characters. -/
example : ∃ toks st d, History slices (·.1) (bomb 4) toks false st d ∧ d.accStr.length = 12 := by
  obtain ⟨toks, st, d, h1, -, h2⟩ := buffer_quadratic 3 (by decide)
  exact ⟨toks, st, d, h1, by omega⟩

end Verif.Json.Work
