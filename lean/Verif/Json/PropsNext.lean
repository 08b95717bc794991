import Verif.Json.LemmasNext
import Verif.Json.PropsDecode
import Verif.Json.PropsWork
/-! # Properties of what the streaming JSON tokenizer and decoder ask for

Everywhere `R` is any stream that does what `Read` asks for, and the histories range over all ways in which text arrives and `pop` is called. -/
namespace Verif.Json.Next
open Verif.Io (usizeMax More SFlow)
open Verif.Json.Bytes (Reader Faithful slices slices_faithful)
open Verif.Json.Stream (Item)
variable {σ : Type}

/-! ## C95: waiting for the next byte -/

theorem slices_reports : Reports slices := by
  intro st min max e h
  change (if min ≤ st.1.length then SFlow.cont st.1 else SFlow.brk (⟨min, max⟩ : More)) = _ at h
  split at h
  · cases h
  · cases h; rfl

/-- If the tokenizer asks for more, it asks for the byte after those the stream holds. -/
theorem tokenizer_next {R : Reader σ} {view : σ → List UInt8} (hR : Faithful R view) (hq : Reports R) {fed : List UInt8} {toks : List Bytes.Token}
    {w : Bool} {st st' : σ} {d d' : Bytes.Dec} {e : More} (h : Bytes.History R view fed toks w st d)
    (hp : Bytes.pop R st d = (st', d', .brk e)) : NextByte (view st') e := pop_brk hR hq h hp

/-- If the decoder asks for more, it asks for the byte after those the stream holds. -/
theorem decoder_next {R : Reader σ} {view : σ → List UInt8} (hR : Faithful R view) (hq : Reports R) {fed : List UInt8} {is : List Item}
    {w : Bool} {st st' : σ} {d d' : Decode.Dec} {e : More} (h : Decode.History R view fed is w st d)
    (hp : Decode.pop R st d = (st', d', .brk e)) : NextByte (view st') e := by
  obtain ⟨toks, h1, -⟩ := Decode.history_known hR h
  have main : ∀ (fuel : Nat) (toks : List Bytes.Token) (w : Bool) (st : σ) (d : Decode.Dec), Bytes.History R view fed toks w st d.tokenizer →
      Decode.advance R fuel st d = (st', d', .brk e) → NextByte (view st') e := by
    intro fuel
    induction fuel with
    | zero => intro toks w st d _ h; cases h
    | succ fuel ih =>
      intro toks w st d h hp
      rw [Decode.advance] at hp
      rcases hb : Bytes.pop R st d.tokenizer with ⟨st1, t1, tok | e1 | _⟩
      · simp only [Decode.advanceInner, hb] at hp
        rcases ha : d.inner.advance (Decode.kind tok) with ⟨i1, _ | i⟩
        · rw [ha] at hp
          exact ih _ _ _ _ (.token h hb) hp
        · rw [ha] at hp
          simp at hp
      · simp only [Decode.advanceInner, hb, Prod.mk.injEq, SFlow.brk.injEq] at hp
        obtain ⟨rfl, -, rfl⟩ := hp
        exact pop_brk hR hq h hb
      · simp [Decode.advanceInner, hb] at hp
  exact main _ toks w st d h1 hp

/-- Once the next byte is there, `pop` gets ahead: it reports a token, or asks for a byte further on. -/
theorem tokenizer_progress {R : Reader σ} {view : σ → List UInt8} (hR : Faithful R view) (hq : Reports R) {fed : List UInt8} {toks : List Bytes.Token}
    {w : Bool} {st st1 st2 st3 : σ} {d d1 d2 : Bytes.Dec} {e e2 : More} (h : Bytes.History R view fed toks w st d)
    (hp : Bytes.pop R st d = (st1, d1, .brk e)) {b : UInt8} {bs : List UInt8} (hb : view st2 = view st1 ++ b :: bs)
    (hp2 : Bytes.pop R st2 d1 = (st3, d2, .brk e2)) : e.min + bs.length < e2.min := by
  have h1 := (tokenizer_next hR hq h hp).1
  have h2 := (tokenizer_next hR hq (.arrive (b :: bs) (.more h hp) hb) hp2).1
  have hk := Bytes.history_known hR (.more h hp)
  have hd : d1.done = none := by
    obtain ⟨_, _, _, _, -, -, -, -, h5⟩ := hk
    obtain ⟨_, -, -, -, hr⟩ := h5 rfl
    exact rests_done hr
  rw [h1, h2, known_view hR (Bytes.history_known hR (.arrive (b :: bs) (.more h hp) hb)) hd hp2, hb, List.length_append, List.length_cons]
  omega

theorem held_le {R : Reader σ} {view : σ → List UInt8} (hR : Faithful R view) {fed : List UInt8} {is : List Item} {w : Bool} {st : σ} {d : Decode.Dec}
    (h : Decode.History R view fed is w st d) : (view st).length ≤ fed.length := by
  obtain ⟨toks, h1, -⟩ := Decode.history_known hR h
  obtain ⟨m, h1⟩ := Work.history_metered Work.amortized h1
  obtain ⟨c, hc, -⟩ := Work.life_inv hR h1
  omega

/-- The same for the decoder, which may have skipped white space, commas and colons: the byte it asks for is further on in the text by as many bytes as
arrived. -/
theorem decoder_progress {R : Reader σ} {view : σ → List UInt8} (hR : Faithful R view) (hq : Reports R) {fed : List UInt8} {is : List Item}
    {w : Bool} {st st1 st2 st3 : σ} {d d1 d2 : Decode.Dec} {e e2 : More} (h : Decode.History R view fed is w st d)
    (hp : Decode.pop R st d = (st1, d1, .brk e)) {b : UInt8} {bs : List UInt8} (hb : view st2 = view st1 ++ b :: bs)
    (hp2 : Decode.pop R st2 d1 = (st3, d2, .brk e2)) :
    place (fed ++ b :: bs) (view st3) e2 = place fed (view st1) e + (bs.length + 1) ∧ place fed (view st1) e = fed.length + 1 := by
  have h1 := (decoder_next hR hq h hp).1
  have hm := Decode.History.arrive (b :: bs) (.more h hp) hb
  have h2 := (decoder_next hR hq hm hp2).1
  have l1 := held_le hR (.more h hp)
  have l2 := held_le hR (.more hm hp2)
  unfold place
  rw [List.length_append, List.length_cons] at l2 ⊢
  omega

/-! Examples: in the midst of an escape within a string, and between two tokens. -/

/-- `"\ud83`, where the seventh byte belongs to the escape and an eighth one would not, and then `4"`. -/
example : ∃ st d st' d' d'', Bytes.pop slices ⟨[0x22, 0x5c, 0x75, 0x64, 0x38, 0x33], by decide⟩ .new = (st, d, .brk ⟨7, some 7⟩)
    ∧ Bytes.pop slices ⟨[0x22, 0x5c, 0x75, 0x64, 0x38, 0x33, 0x34], by decide⟩ d = (st', d', .brk ⟨8, some 13⟩)
    ∧ (Bytes.pop slices ⟨[0x22, 0x5c, 0x75, 0x64, 0x38, 0x33, 0x34, 0x22], by decide⟩ d').2 =
      (d'', .cont (.error (.stringEscapeUnpairedLeadSurrogate 0xd834))) := ⟨_, _, _, _, _, rfl, rfl, rfl⟩

/-- `[` is reported without a further byte; then the next byte is asked for. -/
example : ∃ st d st' d', Decode.pop slices ⟨[0x5b], by decide⟩ .new = (st, d, .cont .arrayOpen)
    ∧ Decode.pop slices st d = (st', d', .brk ⟨1, some 1⟩) ∧ st'.1 = [] := ⟨_, _, _, _, rfl, rfl, rfl⟩

/-- For `decoder_progress`: a space, and then another one. -/
example : ∃ st d st' d', Decode.pop slices ⟨[0x20], by decide⟩ .new = (st, d, .brk ⟨2, none⟩) ∧ st.1 = [0x20]
    ∧ Decode.pop slices ⟨[0x20, 0x20], by decide⟩ d = (st', d', .brk ⟨3, none⟩) := ⟨_, _, _, _, rfl, rfl, rfl⟩

end Verif.Json.Next
