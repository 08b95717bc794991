import Verif.Text.ModelFormat
import Verif.Text.PropsCompat
/-! # Property theorems: formatting through the compatibility writer (C108) -/
namespace Verif.Text
open Verif.Args
variable {σ : Type} {all : σ → Bytes → Option (σ × Bool)}

/-- Formatting that fails on this writer although every piece was written. -/
def Spurious (all : σ → Bytes → Option (σ × Bool)) : Format → σ → Prop
  | .done ok, _ => ok = false
  | .write v k, s =>
    match all s v with
    | some (s', true) => Spurious all (k true) s'
    | _ => False

/-- Formatting that fails only after a piece could not be written, as the documentation of `core::fmt` asks for. -/
def Format.Honest : Format → Prop
  | .done ok => ok = true
  | .write _ k => (k true).Honest

theorem adapter_failed (f : Format) : ∀ s : σ, f.run (adapter all) (s, true) = (f.run all s).map fun x => ((x.1, true), x.2) := by
  induction f with
  | done ok => intro s; rfl
  | write v k ih =>
    intro s
    simp only [Format.run, adapter]
    cases all s v with
    | none => rfl
    | some x =>
      obtain ⟨s', ok⟩ := x
      cases ok
      · exact ih false s'
      · exact ih true s'

theorem adapter_fresh (f : Format) : ∀ s : σ, ∃ b : Bool, f.run (adapter all) (s, false) = (f.run all s).map (fun x => ((x.1, b), x.2))
    ∧ (b = false → Spurious all f s ∨ ∀ s', f.run all s ≠ some (s', false)) ∧ (Spurious all f s → b = false ∧ ∃ s', f.run all s = some (s', false)) := by
  induction f with
  | done ok =>
    intro s
    refine ⟨false, rfl, fun _ => ?_, fun h => ⟨rfl, s, ?_⟩⟩
    · cases ok
      · exact .inl rfl
      · exact .inr fun s' h => by cases h
    · simp only [Spurious] at h
      subst h
      rfl
  | write v k ih =>
    intro s
    simp only [Format.run, adapter, Spurious]
    cases all s v with
    | none => exact ⟨false, rfl, fun _ => .inr fun _ h => (by cases h), fun h => h.elim⟩
    | some x =>
      obtain ⟨s', ok⟩ := x
      cases ok
      · exact ⟨true, adapter_failed _ _, fun h => (by cases h), fun h => h.elim⟩
      · exact ih true s'

/-- C108, exact. For every writer and everything that is formatted: `write_fmt` does what formatting to any other sink of text does (with `write_str`, as if
it were not overridden), unless formatting fails by itself, without the writer. Then it panics instead of returning the error. -/
theorem write_fmt_same_iff (f : Format) (s : σ) :
    (write_fmt all f s = f.run (sinkOf all) s ↔ ¬ Spurious all f s)
    ∧ (Spurious all f s → write_fmt all f s = none ∧ ∃ s', f.run (sinkOf all) s = some (s', false)) := by
  obtain ⟨b, h1, h2, h3⟩ := adapter_fresh (all := all) f s
  have hx : f.run (sinkOf all) s = f.run all s := rfl
  rw [hx]
  have spur : Spurious all f s → write_fmt all f s = none ∧ ∃ s', f.run all s = some (s', false) := by
    intro h
    obtain ⟨rfl, s', hr⟩ := h3 h
    refine ⟨?_, s', hr⟩
    rw [write_fmt, h1, hr]
    rfl
  refine ⟨⟨fun he hs => ?_, fun hn => ?_⟩, spur⟩
  · obtain ⟨q1, s', q2⟩ := spur hs
    rw [q1, q2] at he
    cases he
  · rw [write_fmt, h1]
    cases hr : f.run all s with
    | none => rfl
    | some x =>
      obtain ⟨s', ok⟩ := x
      cases ok
      · cases b
        · rcases h2 rfl with h | h
          · exact absurd h hn
          · exact absurd hr (h s')
        · rfl
      · rfl

theorem honest_not_spurious (f : Format) (hf : f.Honest) : ∀ s : σ, ¬ Spurious all f s := by
  induction f with
  | done ok =>
    intro s h
    simp only [Format.Honest] at hf
    simp only [Spurious] at h
    rw [hf] at h
    cases h
  | write v k ih =>
    intro s h
    simp only [Spurious] at h
    split at h
    · exact ih true hf _ h
    · exact h

/-- C108. What is formatted by implementations that fail only if the writer does: the same as with any other sink, with every writer. -/
theorem write_fmt_partial (f : Format) (hf : f.Honest) (s : σ) : write_fmt all f s = f.run (sinkOf all) s :=
  (write_fmt_same_iff f s).1.mpr (honest_not_spurious f hf s)

/-- C108. And for no others: if formatting can fail by itself, there are writers with which `write_fmt` panics: all those that take everything. -/
theorem write_fmt_panics (f : Format) (hf : ¬ f.Honest) (hall : ∀ s v, ∃ s', all s v = some (s', true)) (s : σ) : write_fmt all f s = none := by
  refine ((write_fmt_same_iff f s).2 ?_).1
  induction f generalizing s with
  | done ok =>
    cases ok
    · rfl
    · exact absurd rfl hf
  | write v k ih =>
    obtain ⟨s', hs⟩ := hall s v
    simp only [Spurious, hs]
    exact ih true hf s'

theorem plain_honest : ∀ l : List Bytes, (Format.plain l).Honest
  | [] => rfl
  | _ :: l => plain_honest l

/-- C108. Pieces of text that are formatted to a writer of any behaviour: all of it is taken, in order, if that succeeds, and a beginning of it if it fails. -/
theorem write_fmt_text : ∀ (l : List Bytes) (t : Bytes) (cs cs' : List Call) (t' : Bytes) (ok : Bool),
    write_fmt scripted (.plain l) (t, cs) = some ((t', cs'), ok) →
    (ok = true → t' = t ++ l.flatten) ∧ (ok = false → ∃ y z, y ++ z = l.flatten ∧ z ≠ [] ∧ t' = t ++ y) := by
  intro l t cs cs' t' ok h
  rw [write_fmt_partial _ (plain_honest l)] at h
  change (Format.plain l).run scripted (t, cs) = _ at h
  induction l generalizing t cs with
  | nil =>
    cases h
    exact ⟨fun _ => (List.append_nil _).symm, fun h => by cases h⟩
  | cons v l ih =>
    obtain ⟨w1, w2, -⟩ := write_all_spec t cs v
    simp only [Format.plain, Format.run, scripted] at h
    cases hw : write_all t cs v with
    | ok x =>
      rw [hw] at h
      simp only [if_true] at h
      obtain ⟨a, b⟩ := ih _ _ h
      rw [w1 x hw] at a b
      refine ⟨fun ho => by rw [a ho, List.flatten_cons, List.append_assoc], fun ho => ?_⟩
      obtain ⟨y, z, h1, h2, h3⟩ := b ho
      exact ⟨v ++ y, z, by rw [List.append_assoc, h1]; rfl, h2, by rw [h3, List.append_assoc]⟩
    | error x =>
      rw [hw] at h
      simp only [Bool.false_eq_true, if_false, Format.run] at h
      cases h
      refine ⟨fun h => (by cases h), fun _ => ?_⟩
      obtain ⟨y, z, h1, h2, h3⟩ := w2 _ hw
      exact ⟨y, z ++ l.flatten, by rw [← List.append_assoc, h1]; rfl, by simp [h2], h3⟩
    | waiting x => rw [hw] at h; cases h
    | panic => rw [hw] at h; cases h

/-- C108. A writer that is called by `write_all` is called as often as that takes, and not once more: what has been used up of its behaviour is all that has
the same result, and with any less of it `write_all` does not return. -/
theorem write_all_calls : ∀ (t : Bytes) (cs cs' : List Call) (b t' : Bytes) (ok : Bool), scripted (t, cs) b = some ((t', cs'), ok) →
    ∃ used, cs = used ++ cs' ∧ write_all t used b = (if ok then .ok t' else .error t')
      ∧ ∀ (less : List Call) (c : Call) (more : List Call), used = less ++ c :: more → ∃ x, write_all t less b = .waiting x := by
  intro t cs
  induction cs generalizing t with
  | nil =>
    intro cs' b t' ok h
    by_cases hb : b = []
    · subst hb
      cases h
      exact ⟨[], rfl, rfl, fun l c m h => by cases l <;> cases h⟩
    · simp only [scripted, write_all, if_neg hb] at h
      cases h
  | cons c cs ih =>
    intro cs' b t' ok h
    by_cases hb : b = []
    · subst hb
      cases h
      exact ⟨[], rfl, rfl, fun l c m h => by cases l <;> cases h⟩
    · have none_waits : ∀ t, write_all t [] b = .waiting t := fun t => if_neg hb
      cases c with
      | failed =>
        simp only [scripted, write_all, write_all_rest, if_neg hb] at h
        cases h
        refine ⟨[.failed], rfl, if_neg hb, fun l c m h => ?_⟩
        cases l with
        | nil => exact ⟨t, none_waits t⟩
        | cons _ l => cases l <;> cases h
      | interrupted =>
        have h' : scripted (t, cs) b = some ((t', cs'), ok) := by
          simp only [scripted, write_all, write_all_rest, if_neg hb] at h ⊢
          exact h
        obtain ⟨used, h1, h2, h3⟩ := ih _ _ _ _ _ h'
        refine ⟨.interrupted :: used, by rw [h1]; rfl, by rw [← h2, write_all, if_neg hb], fun l c m h => ?_⟩
        cases l with
        | nil => exact ⟨t, none_waits t⟩
        | cons d l =>
          have hd := (List.cons.inj h).1
          subst hd
          obtain ⟨x, hx⟩ := h3 l c m (List.cons.inj h).2
          exact ⟨x, by rw [← hx, write_all, if_neg hb]⟩
      | took n =>
        by_cases hn : n = 0
        · subst hn
          simp only [scripted, write_all, write_all_rest, if_neg hb, if_pos] at h
          cases h
          refine ⟨[.took 0], rfl, if_neg hb, fun l c m h => ?_⟩
          cases l with
          | nil => exact ⟨t, none_waits t⟩
          | cons _ l => cases l <;> cases h
        · by_cases hl : b.length < n
          · simp only [scripted, write_all, if_neg hb, if_neg hn, if_pos hl] at h
            cases h
          · have h' : scripted (t ++ b.take n, cs) (b.drop n) = some ((t', cs'), ok) := by
              simp only [scripted, write_all, write_all_rest, if_neg hb, if_neg hn, if_neg hl] at h ⊢
              exact h
            obtain ⟨used, h1, h2, h3⟩ := ih _ _ _ _ _ h'
            refine ⟨.took n :: used, by rw [h1]; rfl, by rw [← h2, write_all, if_neg hb]; simp only [if_neg hn, if_neg hl], fun l c m h => ?_⟩
            cases l with
            | nil => exact ⟨t, none_waits t⟩
            | cons d l =>
              have hd := (List.cons.inj h).1
              subst hd
              obtain ⟨x, hx⟩ := h3 l c m (List.cons.inj h).2
              exact ⟨x, by rw [← hx, write_all, if_neg hb]; simp only [if_neg hn, if_neg hl]⟩

/-- write_all_calls: two calls are left. -/
example : scripted ([], [.interrupted, .took 1, .took 2, .failed, .took 7]) [1, 2, 3] = some (([1, 2, 3], [.failed, .took 7]), true) := rfl

/-- C108, disagreement: a value that refuses to be formatted. Any other sink returns the error. -/
theorem write_fmt_refused : write_fmt scripted (.write [0x61] fun _ => .done false) ([], [.took 1]) = none
    ∧ Format.run scripted (.write [0x61] fun _ => .done false) ([], [.took 1]) = some (([0x61], []), false) := ⟨rfl, rfl⟩

/-- Two pieces, with short writes and an interruption; and a failure in the second. -/
example : write_fmt scripted (.plain [[1, 2], [3, 4]]) ([], [.took 1, .interrupted, .took 1, .took 2]) = some (([1, 2, 3, 4], []), true)
    ∧ write_fmt scripted (.plain [[1, 2], [3, 4]]) ([], [.took 2, .took 1, .failed]) = some (([1, 2, 3], []), false) := ⟨rfl, rfl⟩

/-- Formatting that goes on after a failure, and succeeds: so does `write_fmt`, as any other sink does. -/
example : write_fmt scripted (.write [1, 2] fun _ => .write [3] fun _ => .done true) ([], [.failed, .took 1]) = some (([3], []), true) := rfl

end Verif.Text
