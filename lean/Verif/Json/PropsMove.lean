import Verif.Json.LemmasMove
import Verif.Json.PropsBuf
/-! # What the buffers of a JSON tokenizer cost, C100 -/
namespace Verif.Json

open Buffered

variable {fl : BitVec 32} {r k : Nat} {t : Buffered}

/-- C100. Whatever has been done to a tokenizer: growing and shrinking its buffers has copied at most twelve bytes for each byte of text, plus two bytes
for each byte that was in buffers when they were cloned (one of which for the clone itself). -/
theorem tokenizer_moves (h : Toil fl r k t) : t.moved ≤ 12 * r + 2 * k := by
  have := solvent_moved (toil_solvent h) (toil_small h).2
  omega

/-- Pushing characters, as a computation. -/
def Buffered.feed (t : Buffered) : List Char → Option Buffered
  | [] => some t
  | c :: l => (t.advance (some c)).res.bind fun t => t.feed l

/-- C100. All texts: a tokenizer accepts every text, and has then copied at most twelve bytes for each byte of it. -/
theorem text_moves (fl : BitVec 32) (cs : List Char) : ∃ t, (Buffered.withFlags fl).feed cs = some t ∧ t.moved ≤ 12 * bytes cs := by
  have key : ∀ (cs : List Char) (r : Nat) (t : Buffered), Toil fl r 0 t → ∃ t', t.feed cs = some t' ∧ Toil fl (r + bytes cs) 0 t' := by
    intro cs
    induction cs with
    | nil => intro r t h; exact ⟨t, rfl, h⟩
    | cons c l ih =>
      intro r t h
      obtain ⟨w, hw⟩ := toil_life h
      obtain ⟨evs, t', ha⟩ := life_goes_on hw (some c)
      obtain ⟨u, hf, hu⟩ := ih _ _ (.push c h ha)
      refine ⟨u, ?_, by rw [bytes, ← Nat.add_assoc]; exact hu⟩
      rw [Buffered.feed, ha]
      exact hf
  obtain ⟨t, hf, ht⟩ := key cs 0 _ .new
  rw [Nat.zero_add] at ht
  exact ⟨t, hf, by have := tokenizer_moves ht; omega⟩

/-- C100. And not much less can be enough, as buffers are grown piece by piece: for what is in the buffers when a text has been pushed, that many bytes
have been copied, but for eight of each buffer. -/
theorem text_moves_least (fl : BitVec 32) (cs : List Char) (t : Buffered) (h : (Buffered.withFlags fl).feed cs = some t) :
    bytes t.tok.acc + bytes t.tok.accStr + t.tok.accNum.length ≤ t.moved + 24 := by
  have key : ∀ (cs : List Char) (r : Nat) (t t' : Buffered), Toil fl r 0 t → Paid t → t.feed cs = some t' → Good t' ∧ Paid t' := by
    intro cs
    induction cs with
    | nil => intro r t t' h hp hf; cases hf; exact ⟨(toil_small h).1, hp⟩
    | cons c l ih =>
      intro r t t' h hp hf
      rw [Buffered.feed, Option.bind_eq_some_iff] at hf
      obtain ⟨u, hu, hf⟩ := hf
      rcases ha : t.advance (some c) with ⟨evs, o⟩
      rw [ha] at hu
      simp only at hu
      subst hu
      exact ih _ _ _ (.push c h ha) (paid_push hp (toil_small h).1 ha) hf
  obtain ⟨hg, -, -, -, hp⟩ := key cs 0 _ t .new ⟨.inl rfl, .inl rfl, .inl rfl, Nat.le_refl 24⟩ h
  have h1 := hg.1.1
  have h2 := hg.2.1.1
  have h3 := hg.2.2.1
  omega

/-- text_moves_least: the word is in the buffer for the text only, so the bound is 20 ≤ 24 + 24. -/
example : ((Buffered.withFlags 0).feed (List.replicate 20 'a')).map (fun t => (bytes t.tok.acc, t.moved)) = some (20, 24) := by decide +kernel

/-- A word of 20 characters: the buffer is moved with 8 and 16 bytes. A string of that length has two buffers. -/
example : ((Buffered.withFlags 0).feed (List.replicate 20 'a')).map (·.moved) = some (8 + 16)
    ∧ ((Buffered.withFlags 0).feed ('"' :: List.replicate 20 'a')).map (·.moved) = some (2 * (8 + 16)) := by decide +kernel

/-- They are not moved again for the next token. -/
example : ((Buffered.withFlags 0).feed (List.replicate 20 'a' ++ [' '] ++ List.replicate 20 'b')).map (·.moved) = some (8 + 16) := by decide +kernel

end Verif.Json
