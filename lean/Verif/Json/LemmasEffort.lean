import Verif.Json.SpecEffort
import Verif.Json.PropsWork
import Verif.Json.PropsDecode
namespace Verif.Json.Effort
open Verif.Io (usizeMax SFlow)
open Verif.Json.Bytes (Reader Faithful source)
open Verif.Json.Work (Growth)
open Verif.Json.Stream (Tok Item Kind nest opened Good)
open Verif.Json.Decode (Dec kind)
variable {σ : Type}

/-! ## The meter is not read -/

theorem inner_same (G : Growth) (R : Reader σ) (st : σ) (d : Dec) (m : Meter) :
    ((advanceInner G R st d m).1, (advanceInner G R st d m).2.1, (advanceInner G R st d m).2.2.2) = Decode.advanceInner R st d := by
  have h := Work.metered_same G R st d.tokenizer m.tok
  unfold advanceInner Decode.advanceInner
  generalize Work.pop G R st d.tokenizer m.tok = r at h
  obtain ⟨a, b, c, fl⟩ := r
  simp only at h
  rw [← h]
  cases fl <;> rfl

theorem advance_same (G : Growth) (R : Reader σ) : ∀ (n : Nat) (st : σ) (d : Dec) (m : Meter),
    ((advance G R n st d m).1, (advance G R n st d m).2.1, (advance G R n st d m).2.2.2) = Decode.advance R n st d
  | 0, _, _, _ => rfl
  | n + 1, st, d, m => by
    have h := inner_same G R st d m
    unfold advance Decode.advance
    generalize advanceInner G R st d m = r at h
    obtain ⟨a, b, c, fl⟩ := r
    simp only at h
    rw [← h]
    rcases fl with (- | i) | e | -
    · exact advance_same G R n a b c
    · rfl
    · rfl
    · rfl

/-! ## Calls of the tokenizer -/

theorem finish_calls (G : Growth) (d : Bytes.Dec) (m : Work.Meter) (r) : (Work.finish G d m r).2.1.calls = m.calls := by
  unfold Work.finish; split <;> rfl

theorem state_calls (G : Growth) (R : Reader σ) (st : σ) (d : Bytes.Dec) (m : Work.Meter) : (Work.advanceState G R st d m).2.1.calls = m.calls := by
  unfold Work.advanceState
  split
  · rfl
  · split
    · rfl
    · rfl
    · exact finish_calls ..
  · simp only []
    split
    · rfl
    · rfl
    · exact finish_calls ..

theorem inner_calls (G : Growth) (R : Reader σ) (st : σ) (d : Bytes.Dec) (m : Work.Meter) : (Work.advanceInner G R st d m).2.2.1.calls = m.calls := by
  unfold Work.advanceInner
  cases hc : Work.clearDone R st d m with
  | none => rfl
  | some r =>
    obtain ⟨st1, d1, m1⟩ := r
    have : m1.calls = m.calls := by
      unfold Work.clearDone at hc
      split at hc
      · cases hc; rfl
      · cases ha : R.advance st _ with
        | none => rw [ha] at hc; cases hc
        | some s => rw [ha] at hc; cases hc; rfl
    exact (state_calls G R st1 d1 m1).trans this

theorem advance_calls (G : Growth) (R : Reader σ) : ∀ (n : Nat) (st : σ) (d : Bytes.Dec) (m : Work.Meter), (Work.advance G R n st d m).2.2.1.calls = m.calls
  | 0, _, _, _ => rfl
  | n + 1, st, d, m => by
    have h := inner_calls G R st d { m with rounds := m.rounds + 1 }
    unfold Work.advance
    generalize Work.advanceInner G R st d { m with rounds := m.rounds + 1 } = r at h
    obtain ⟨a, b, c, fl⟩ := r
    have h : c.calls = m.calls := h
    rcases fl with (- | i) | e | -
    · exact (advance_calls G R n a b c).trans h
    · exact h
    · exact h
    · exact h

theorem pop_calls {G : Growth} {R : Reader σ} {st st' : σ} {d d' : Bytes.Dec} {m m' : Work.Meter} {fl : SFlow Bytes.Token}
    (h : Work.pop G R st d m = (st', d', m', fl)) : m'.calls = m.calls + 1 := by
  have := advance_calls G R (4 * usizeMax) st d { m with calls := m.calls + 1 }
  unfold Work.pop at h
  rw [h] at this
  exact this

/-! ## The stack -/

/-- What is in the stack is around what is open. -/
theorem stack_opened {d : Stream.Dec} (hg : Good d) : d.stack.length = (opened d).length - 1 := by
  obtain ⟨s, st⟩ := d
  unfold Good at hg
  cases s <;> simp_all [opened]

theorem run_opened {toks : List Tok} {d : Stream.Dec} {is : List Item} (h : Stream.Dec.new.run toks = (d, is)) : nest [] is = some (opened d) ∧ Good d := by
  have := Stream.run_nest toks .new (fun _ => rfl)
  rw [h] at this
  exact this

theorem was_now {toks : List Tok} {d : Stream.Dec} {is : List Item} (h : Stream.Dec.new.run toks = (d, is)) : WasOpen is (opened d).length :=
  ⟨is, _, List.prefix_refl _, (run_opened h).1, rfl⟩

theorem was_later {is js : List Item} {n : Nat} (h : WasOpen is n) : WasOpen (is ++ js) n := by
  obtain ⟨p, o, h1, h2⟩ := h
  exact ⟨p, o, h1.trans (List.prefix_append _ _), h2⟩

theorem was_snoc {is : List Item} {i : Item} {n : Nat} (h : WasOpen (is ++ [i]) n) : WasOpen is n ∨ ∃ o, nest [] (is ++ [i]) = some o ∧ o.length = n := by
  obtain ⟨p, o, h1, h2, h3⟩ := h
  rcases List.prefix_concat_iff.mp h1 with rfl | h1
  · exact .inr ⟨o, h2, h3⟩
  · exact .inl ⟨p, o, h1, h2, h3⟩

/-- What is known throughout: the tokens so far, what is missing to a call of `pop`, and the capacity. -/
structure Inv (G : Growth) (R : Reader σ) (view : σ → List UInt8) (fed : List UInt8) (toks : List Bytes.Token) (is : List Item) (w : Bool) (st : σ) (d : Dec)
    (m : Meter) (pend : Nat) : Prop where
  life : Work.Life G R view fed toks w st d.tokenizer m.tok
  run : Stream.Dec.new.run (toks.map kind) = (d.inner, is)
  count : m.tok.calls + is.length + pend = m.calls + toks.length
  cap : ∃ n, WasOpen is n ∧ m.cap ≤ max 8 (2 * n)
  high : ∀ n, WasOpen is n → n ≤ m.cap + 1

theorem grow_cap {G : Growth} {toks : List Tok} {i0 i1 : Stream.Dec} {is : List Item} {t : Tok} {out : Option Item} {cap : Nat}
    (hr : Stream.Dec.new.run toks = (i0, is)) (ha : i0.advance t = (i1, out)) (hc : ∃ n, WasOpen is n ∧ cap ≤ max 8 (2 * n))
    (hh : ∀ n, WasOpen is n → n ≤ cap + 1) :
    Stream.Dec.new.run (toks ++ [t]) = (i1, is ++ out.toList)
    ∧ (∃ n, WasOpen (is ++ out.toList) n ∧ G.grow cap i1.stack.length ≤ max 8 (2 * n))
    ∧ ∀ n, WasOpen (is ++ out.toList) n → n ≤ G.grow cap i1.stack.length + 1 := by
  have hr' : Stream.Dec.new.run (toks ++ [t]) = (i1, is ++ out.toList) := by
    rw [Stream.run_append, hr]
    simp [Stream.Dec.run, ha]
  obtain ⟨ho, hg⟩ := run_opened hr'
  have hst := stack_opened hg
  have hup : cap ≤ G.grow cap i1.stack.length ∧ i1.stack.length ≤ G.grow cap i1.stack.length := by
    by_cases hx : i1.stack.length ≤ cap
    · rw [G.keeps _ _ hx]; exact ⟨Nat.le_refl _, hx⟩
    · have := G.modest cap i1.stack.length (by omega); omega
  refine ⟨hr', ?_, ?_⟩
  · by_cases hx : i1.stack.length ≤ cap
    · rw [G.keeps _ _ hx]
      obtain ⟨n, h1, h2⟩ := hc
      exact ⟨n, was_later h1, h2⟩
    · have := G.modest cap i1.stack.length (by omega)
      exact ⟨_, was_now hr', by omega⟩
  · intro n hn
    cases out with
    | none =>
      have := hh n (by simpa using hn)
      omega
    | some i =>
      rcases was_snoc hn with hn | ⟨o, h1, h2⟩
      · have := hh n hn
        omega
      · have ho : nest [] (is ++ [i]) = _ := ho
        rw [ho] at h1
        cases h1
        omega

theorem advance_inv {G : Growth} {R : Reader σ} {view : σ → List UInt8} {fed : List UInt8} : ∀ (fuel : Nat) {toks : List Bytes.Token} {is : List Item}
    {w : Bool} {st : σ} {d : Dec} {m : Meter}, Inv G R view fed toks is w st d m 1 →
    match advance G R fuel st d m with
    | (_, _, _, .fault) => True
    | (st', d', m', .brk _) => ∃ toks', Inv G R view fed toks' is true st' d' m' 0
    | (st', d', m', .cont i) => ∃ toks', Inv G R view fed toks' (is ++ [i]) false st' d' m' 0
  | 0, _, _, _, _, _, _, _ => trivial
  | fuel + 1, toks, is, w, st, d, m, h => by
    unfold advance advanceInner
    rcases hp : Work.pop G R st d.tokenizer m.tok with ⟨st1, t1, m1, fl⟩
    have hcalls := pop_calls hp
    have hcount := h.count
    cases fl with
    | fault => trivial
    | brk e =>
      exact ⟨toks, .more h.life hp, h.run, by show m1.calls + is.length + 0 = m.calls + toks.length; omega, h.cap, h.high⟩
    | cont token =>
      have hl := Work.Life.token h.life hp
      rcases ha : d.inner.advance (kind token) with ⟨i1, out⟩
      obtain ⟨g1, g2, g3⟩ := grow_cap (G := G) h.run ha h.cap h.high
      have g1 : Stream.Dec.new.run ((toks ++ [token]).map kind) = (i1, is ++ out.toList) := by rw [List.map_append]; exact g1
      cases out with
      | none =>
        simp only [ha]
        simp only [Option.toList_none, List.append_nil] at g1 g2 g3
        exact advance_inv fuel (toks := toks ++ [token]) ⟨hl, g1, by
          show m1.calls + is.length + 1 = m.calls + (toks ++ [token]).length
          rw [List.length_append, List.length_singleton]; omega, g2, g3⟩
      | some i =>
        simp only [ha]
        exact ⟨toks ++ [token], hl, g1, by
          show m1.calls + (is ++ [i]).length + 0 = m.calls + (toks ++ [token]).length
          rw [List.length_append, List.length_append, List.length_singleton, List.length_singleton]; omega, g2, g3⟩

theorem life_inv {G : Growth} {R : Reader σ} {view : σ → List UInt8} {fed : List UInt8} {is : List Item} {w : Bool} {st : σ} {d : Dec} {m : Meter}
    (h : Life G R view fed is w st d m) : ∃ toks, Inv G R view fed toks is w st d m 0 := by
  induction h with
  | start st =>
    refine ⟨[], .start st, rfl, rfl, ⟨0, ⟨[], [], List.prefix_refl _, rfl, rfl⟩, Nat.zero_le _⟩, ?_⟩
    rintro n ⟨p, o, h1, h2, h3⟩
    obtain rfl := List.prefix_nil.mp h1
    cases h2
    rw [← h3]
    exact Nat.zero_le _
  | arrive b h hb ih =>
    obtain ⟨toks, hi⟩ := ih
    exact ⟨toks, .arrive b hi.life hb, hi.run, hi.count, hi.cap, hi.high⟩
  | @item fed is w st st' d d' m m' i h hp ih =>
    obtain ⟨toks, hi⟩ := ih
    have := advance_inv usizeMax (m := { m with calls := m.calls + 1 }) (toks := toks) (is := is) (w := w) (st := st) (d := d) (G := G) (R := R) (view := view)
      (fed := fed) ⟨hi.life, hi.run, by show m.tok.calls + is.length + 1 = m.calls + 1 + toks.length; have := hi.count; omega, hi.cap, hi.high⟩
    unfold pop at hp
    rw [hp] at this
    exact this
  | @more fed is w st st' d d' m m' e h hp ih =>
    obtain ⟨toks, hi⟩ := ih
    have := advance_inv usizeMax (m := { m with calls := m.calls + 1 }) (toks := toks) (is := is) (w := w) (st := st) (d := d) (G := G) (R := R) (view := view)
      (fed := fed) ⟨hi.life, hi.run, by show m.tok.calls + is.length + 1 = m.calls + 1 + toks.length; have := hi.count; omega, hi.cap, hi.high⟩
    unfold pop at hp
    rw [hp] at this
    exact this

/-! ## Tokens that are not reported -/

theorem run_silent : ∀ (toks : List Bytes.Token) (d : Stream.Dec), (∀ raw, .whitespace raw ∈ toks → raw ≠ []) →
    toks.length ≤ (d.run (toks.map kind)).2.length + (toks.flatMap source).length
  | [], _, _ => Nat.le_refl _
  | t :: l, d, hw => by
    have ih := run_silent l (d.advance (kind t)).1 (fun raw h => hw raw (List.mem_cons_of_mem _ h))
    simp only [List.map_cons, Stream.Dec.run, List.flatMap_cons, List.length_append, List.length_cons]
    cases ho : (d.advance (kind t)).2 with
    | some i => simp only [Option.toList_some, List.length_singleton]; omega
    | none =>
      have hs : 0 < (source t).length := by
        have := Decode.silent d (kind t) ho
        cases t <;> simp [kind] at this
        · exact List.length_pos_iff.mpr (hw _ List.mem_cons_self)
        · exact Nat.one_pos
        · exact Nat.one_pos
      omega

theorem silent_tokens {R : Reader σ} {view : σ → List UInt8} (hR : Faithful R view) {fed : List UInt8} {toks : List Bytes.Token} {w : Bool} {st : σ}
    {t : Bytes.Dec} (h : Bytes.History R view fed toks w st t) {d : Stream.Dec} {is : List Item} (hr : Stream.Dec.new.run (toks.map kind) = (d, is)) :
    toks.length ≤ is.length + fed.length := by
  obtain ⟨ls, tl, hc⟩ := Bytes.cut_total fed
  have := run_silent toks .new (fun raw hm => Decode.space_nonempty hc ((Bytes.pop_reports hR h hc).subset hm))
  rw [hr] at this
  have hp := (Bytes.sources_prefix hR h).length_le
  exact Nat.le_trans this (Nat.add_le_add_left hp _)

/-- Errors of the tokenizer are errors of the decoder. -/
theorem run_errors : ∀ (toks : List Tok) (d : Stream.Dec), .error ∉ (d.run toks).2 → .error ∉ toks
  | [], _, _ => by simp
  | t :: l, d, h => by
    simp only [Stream.Dec.run, List.mem_append, not_or] at h
    have ih := run_errors l _ h.2
    intro hm
    rcases List.mem_cons.mp hm with rfl | hm
    · apply h.1
      obtain ⟨s, k⟩ := d
      cases s <;> simp [Stream.Dec.advance, Stream.Dec.unexpected]
    · exact ih hm

theorem advance_opened (d : Stream.Dec) (hg : Good d) (t : Tok) :
    (opened (d.advance t).1).length ≤ (opened d).length + (if t = .arrayOpen ∨ t = .objectOpen then 1 else 0) := by
  obtain ⟨s, st⟩ := d
  unfold Good at hg
  cases s <;> cases t <;>
    simp_all [Stream.Dec.advance, Stream.Dec.unexpected, Stream.Dec.value, Stream.Dec.goto, Stream.Dec.arrayOpen, Stream.Dec.objectOpen, Stream.Dec.arrayClose,
      Stream.Dec.objectClose, Stream.Dec.enter, opened, Stream.leave_eq] <;>
    (have := (Stream.opened_back st).1; simp only [opened] at this; rw [this]; omega)

theorem source_bracket (t : Bytes.Token) : (if kind t = .arrayOpen ∨ kind t = .objectOpen then 1 else 0) ≤ (source t).countP bracket := by
  cases t <;> simp [kind, source, bracket]

theorem run_brackets : ∀ (toks : List Bytes.Token) (d : Stream.Dec), Good d →
    (opened (d.run (toks.map kind)).1).length ≤ (opened d).length + (toks.flatMap source).countP bracket
  | [], d, _ => Nat.le_refl _
  | t :: l, d, hg => by
    have ih := run_brackets l (d.advance (kind t)).1 (Stream.advance_nest d hg _).2
    have h1 := advance_opened d hg (kind t)
    have h2 := source_bracket t
    simp only [List.map_cons, Stream.Dec.run, List.flatMap_cons, List.countP_append]
    omega

end Verif.Json.Effort
