import Verif.Dbus.LemmasAhead
import Verif.Dbus.PropsRetry
/-! # C139: what a decoder has answered does not depend on what follows in its data -/
namespace Verif.Dbus.Ahead
open Verif.Io
variable {σ τ : Type}

/-- C139. Whatever was answered about some data, by any reader of it: the same calls, without those that were refused, have the same answers and the same
effect on the decoder with any reader of data that begins with it, as long as that does not refuse what is there. -/
theorem answers_stay {I : ReadImpl σ} {J : ReadImpl τ} {data rest : List UInt8} (hI : Linear I data) (hJ : Linear J (data ++ rest)) (hr : Ready J (data ++ rest))
    (hist : List Ask) (d d' : Dec) (st st₁ : σ) (st' : τ) (rs : List Ans) (h : Ask.runs I hist d st = some (d', st₁, rs)) :
    ∃ st₁', Ask.runs J (Ask.kepts hist rs) d st' = some (d', st₁', Ans.kepts rs) :=
  Retry.asks_keeps (linear_more hI hJ.size) hJ hr hist d st st' h

/-- C139. If nothing was refused then everything is the same, whatever follows: values as well as errors. -/
theorem continuations_agree {I : ReadImpl σ} {J : ReadImpl τ} {data rest : List UInt8} (hI : Linear I data) (hJ : Linear J (data ++ rest)) (hr : Ready J (data ++ rest))
    (hist : List Ask) (d d' : Dec) (st st₁ : σ) (st' : τ) (rs : List Ans) (h : Ask.runs I hist d st = some (d', st₁, rs)) (ha : AllAnswered rs) :
    ∃ st₁', Ask.runs J hist d st' = some (d', st₁', rs) := by
  obtain ⟨x, hx⟩ := answers_stay hI hJ hr hist d d' st st₁ st' rs h
  rw [ask_kepts hist h ha, ans_kepts rs ha] at hx
  exact ⟨x, hx⟩

/-- C139. For slices: the answers and the decoder are the same for all data with this beginning. -/
theorem slices_agree (data x y : List UInt8) (hx : (data ++ x).length ≤ usizeMax) (hy : (data ++ y).length ≤ usizeMax) (hist : List Ask) (d d' : Dec) (rs : List Ans)
    (h : Ask.runs (sliceRead data) hist d () = some (d', (), rs)) (ha : AllAnswered rs) :
    Ask.runs (sliceRead (data ++ x)) hist d () = some (d', (), rs) ∧ Ask.runs (sliceRead (data ++ y)) hist d () = some (d', (), rs) := by
  have hd : data.length ≤ usizeMax := by rw [List.length_append] at hx; omega
  have hI := (slice_ready hd).1
  obtain ⟨_, h1⟩ := continuations_agree hI (slice_ready hx).1 (slice_ready hx).2 hist d d' () () () rs h ha
  obtain ⟨_, h2⟩ := continuations_agree hI (slice_ready hy).1 (slice_ready hy).2 hist d d' () () () rs h ha
  exact ⟨h1, h2⟩

/-- C139. So two slices whose answers are different differ in what both of them have, or one of them ends there: if the answers to calls that were all answered for both are
different, then neither of the slices begins with the other one. -/
theorem differ_within (a b : List UInt8) (ha : a.length ≤ usizeMax) (hb : b.length ≤ usizeMax) (hist : List Ask) (d d₁ d₂ : Dec) (rs qs : List Ans)
    (h1 : Ask.runs (sliceRead a) hist d () = some (d₁, (), rs)) (h2 : Ask.runs (sliceRead b) hist d () = some (d₂, (), qs)) (hr : AllAnswered rs) (hq : AllAnswered qs)
    (hne : rs ≠ qs ∨ d₁ ≠ d₂) : ¬ a <+: b ∧ ¬ b <+: a := by
  refine ⟨fun ⟨x, hx⟩ => ?_, fun ⟨x, hx⟩ => ?_⟩
  · subst hx
    have := (slices_agree a x x hb hb hist d d₁ rs h1 hr).1
    rw [h2] at this
    cases this
    simp at hne
  · subst hx
    have := (slices_agree b x x ha ha hist d d₂ qs h2 hq).1
    rw [h1] at this
    cases this
    simp at hne

/-- An array with one string, of which the length claims more: this string, a wrong call and the question for more are answered from the first ten bytes. -/
example : ∃ d d' rs, Dec.with_ (ofTy (.array (.basic .string))) false = some d
    ∧ Ask.runs (sliceRead [200, 0, 0, 0, 1, 0, 0, 0, 97, 0]) [.array, .more, .u16, .sub none [.string, .commit], .more] d () = some (d', (), rs) ∧ AllAnswered rs :=
  ⟨_, _, [.ok, .more true, .brk (some .mismatch), .sub [.str [97], .ok], .more true], rfl, rfl, rfl, rfl, rfl, ⟨rfl, rfl, trivial⟩, rfl, trivial⟩

/-- Refusals are what changes: a second string is there or not. -/
example : (decFrom false "as" [200, 0, 0, 0, 1, 0, 0, 0, 97, 0] [.array, .string, .string]).map (·.map Ans.waits) = some [false, false, true]
    ∧ (decFrom false "as" [200, 0, 0, 0, 1, 0, 0, 0, 97, 0, 0, 0, 0, 0, 0, 0, 0] [.array, .string, .string]).map (·.map Ans.waits) = some [false, false, false] := by
  decide +kernel

end Verif.Dbus.Ahead
