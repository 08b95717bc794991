import Verif.Json.SpecNext
import Verif.Json.LemmasDecode2
/-! # Lemmas on what the streaming JSON tokenizer asks for -/
namespace Verif.Json.Next
open Verif.Io (usizeMax More SFlow StreamImpl WhileOut whileLoop)
open Verif.Json.Bytes (Reader Faithful Dec Token)
variable {σ : Type}

theorem while_brk {τ : Type} (I : StreamImpl σ) (st : σ) (max : Option Nat) (pred : τ → Nat → UInt8 → τ × Bool) (e : More) :
    ∀ (fuel n : Nat) (t : τ), (whileLoop I st max pred fuel n t).flow = .brk e →
      I.map st ((whileLoop I st max pred fuel n t).n + 1) max = .brk e := by
  intro fuel
  induction fuel with
  | zero => intro n t h; cases h
  | succ fuel ih =>
    intro n t h
    rw [whileLoop] at h ⊢
    simp only at h ⊢
    by_cases hn : n + 1 ≤ usizeMax
    · rw [if_pos hn] at h ⊢
      cases hm : I.map st (n + 1) max with
      | fault => rw [hm] at h; cases h
      | brk e' => rw [hm] at h; simp only at h ⊢; rw [hm, h]
      | cont map =>
        rw [hm] at h
        simp only at h ⊢
        split at h
        · rename_i hc
          rw [if_pos hc]
          rcases ht : Io.testLoop pred (map.take (min map.length (max.getD usizeMax))) (map.take (min map.length (max.getD usizeMax))).length n t
            with ⟨n', t', _ | _ | _⟩
          · rw [ht] at h; cases h
          · rw [ht] at h
            simp only at h ⊢
            by_cases hx : n' ≥ max.getD usizeMax
            · rw [if_pos hx] at h; cases h
            · rw [if_neg hx] at h ⊢
              exact ih _ _ h
          · rw [ht] at h; cases h
        · cases h
    · rw [if_neg hn] at h; cases h

/-- What is asked for in a state if there is not enough data. -/
def Asks (d : Dec) (min : Nat) (max : Option Nat) : Prop :=
  match d.state with
  | .none => min = 1 ∧ max = some 1
  | .numberDone _ => min = d.idx
  | .stringEscapeUnicode s => min = d.idx + 1 ∧ max = some (s + 4)
  | .stringEscapeUnicodeTrail s _ => min = d.idx + 1 ∧ max = some (s + 6)
  | _ => min = d.idx + 1 ∧ max = none

theorem strictAdd_eq {a b n : Nat} (h : Bytes.strictAdd a b = some n) : n = a + b := by
  unfold Bytes.strictAdd at h
  split at h
  · cases h; rfl
  · cases h

theorem state_brk {R : Reader σ} {st : σ} {d d' : Dec} {e : More} (h : Bytes.advanceState R st d = (d', .brk e)) :
    ∃ min max, R.map st min max = .brk e ∧ Asks d' min max := by
  have hf : ∀ (x : Option (Dec × Option Token)) (d0 : Dec), Bytes.finish d0 x ≠ (d', .brk e) := by
    intro x d0 hx
    unfold Bytes.finish at hx
    split at hx <;> cases hx
  unfold Bytes.advanceState at h
  cases hr : Bytes.request d with
  | none => rw [hr] at h; cases h
  | some r =>
    rw [hr] at h
    cases r with
    | map min max =>
      simp only at h
      cases hm : R.map st min max with
      | fault => rw [hm] at h; cases h
      | cont m => rw [hm] at h; exact (hf _ _ h).elim
      | brk e' =>
        rw [hm] at h
        cases h
        refine ⟨min, max, hm, ?_⟩
        unfold Bytes.request at hr
        unfold Asks
        cases hs : d.state <;> rw [hs] at hr <;> simp only at hr ⊢
        · cases hr; exact ⟨rfl, rfl⟩
        all_goals first
          | (cases hr; done)
          | (cases hr; rfl)
          | skip
        · obtain ⟨n, hn, hx⟩ := Option.map_eq_some_iff.mp hr
          cases hx
          exact ⟨strictAdd_eq hn, rfl⟩
        · obtain ⟨n, hn, hx⟩ := Option.map_eq_some_iff.mp hr
          cases hx
        · split at hr
          · obtain ⟨n, hn, hx⟩ := Option.map_eq_some_iff.mp hr
            cases hx
          · cases hr
    | mapWhile max p =>
      simp only at h
      have hw := while_brk R.toStreamImpl st max (fun (_ : Unit) i b => ((), p i b)) e usizeMax d.idx ()
      unfold Io.readMapWhile at h
      generalize whileLoop R.toStreamImpl st max (fun (_ : Unit) i b => ((), p i b)) usizeMax d.idx () = r at h hw
      cases hg : r.flow with
      | fault => rw [hg] at h; cases h
      | cont m => rw [hg] at h; exact (hf _ _ h).elim
      | brk e' =>
        rw [hg] at h
        simp only [Prod.mk.injEq, SFlow.brk.injEq] at h
        obtain ⟨rfl, rfl⟩ := h
        refine ⟨r.n + 1, max, hw hg, ?_⟩
        unfold Bytes.request at hr
        unfold Asks
        simp only
        cases hs : d.state <;> rw [hs] at hr <;> simp only at hr ⊢
        all_goals first
          | (cases hr; done)
          | (cases hr; exact ⟨trivial, rfl⟩)
          | skip
        · obtain ⟨n, hn, hx⟩ := Option.map_eq_some_iff.mp hr
          cases hx
        · obtain ⟨n, hn, hx⟩ := Option.map_eq_some_iff.mp hr
          cases hx
          exact ⟨trivial, by rw [strictAdd_eq hn]⟩
        · split at hr
          · obtain ⟨n, hn, hx⟩ := Option.map_eq_some_iff.mp hr
            cases hx
            exact ⟨trivial, by rw [strictAdd_eq hn]⟩
          · cases hr

theorem advance_brk {R : Reader σ} {e : More} {st' : σ} {d' : Dec} : ∀ (fuel : Nat) (st : σ) (d : Dec), Bytes.advance R fuel st d = (st', d', .brk e) →
    ∃ min max, R.map st' min max = .brk e ∧ Asks d' min max := by
  intro fuel
  induction fuel with
  | zero => intro st d h; cases h
  | succ fuel ih =>
    intro st d h
    rw [Bytes.advance] at h
    rcases hi : Bytes.advanceInner R st d with ⟨st1, d1, (_ | t) | e1 | _⟩
    · rw [hi] at h; exact ih _ _ h
    · rw [hi] at h; cases h
    · rw [hi] at h
      cases h
      unfold Bytes.advanceInner at hi
      cases hc : Bytes.clearDone R st d with
      | none => rw [hc] at hi; cases hi
      | some x =>
        obtain ⟨st2, d2⟩ := x
        rw [hc] at hi
        simp only [Prod.mk.injEq] at hi
        obtain ⟨rfl, hi⟩ := hi
        exact state_brk hi
    · rw [hi] at h; cases h

theorem rests_done {t : Bytes.Tail} {d : Dec} (hr : Bytes.Rests t d) : d.done = none := by
  cases t with
  | none => exact hr.2
  | string ps part => exact hr.1
  | _ => cases hr; rfl

/-- After `pop` asked for more, the state of the tokenizer is well-formed. -/
theorem known_wf {R : Reader σ} {view : σ → List UInt8} (hR : Faithful R view) {fed : List UInt8} {toks : List Token} {st : σ} {d : Dec}
    (h : Bytes.Known view fed toks true st d) : Bytes.Wf (view st) d := by
  obtain ⟨ls, c, toks', i, -, -, -, h4, h5⟩ := h
  obtain ⟨t, -, -, -, hr⟩ := h5 rfl
  obtain ⟨all, tf, df, hd, -⟩ := Bytes.first_drain (view st) (hR.size st) i
  obtain ⟨r, -, e2⟩ := h4 [] (by rw [List.append_nil]; exact hR.size st) _ all tf df (by rwa [List.append_nil])
  rw [List.append_nil] at e2
  have := e2.wf
  unfold Bytes.Wfc at this
  rwa [rests_done hr] at this

/-- Nothing is taken from the stream before the lexeme at its beginning was read. -/
theorem known_view {R : Reader σ} {view : σ → List UInt8} (hR : Faithful R view) {fed : List UInt8} {toks : List Token} {w : Bool} {st st' : σ}
    {d d' : Dec} {fl : SFlow Token} (h : Bytes.Known view fed toks w st d) (hn : d.done = none) (hp : Bytes.pop R st d = (st', d', fl)) :
    view st' = view st := by
  obtain ⟨ls, c, toks', i, -, -, -, h4, -⟩ := h
  obtain ⟨all, tf, df, hd, -⟩ := Bytes.first_drain (view st) (hR.size st) i
  obtain ⟨r, -, e2⟩ := h4 [] (by rw [List.append_nil]; exact hR.size st) _ all tf df (by rwa [List.append_nil])
  rw [List.append_nil] at e2
  have := Bytes.isizeMax_lt
  have := hR.size st
  obtain ⟨st1, d1, fl1, ha, hv, -⟩ := Bytes.advance_spec hR e2 hn (4 * usizeMax) st rfl (by omega)
  rw [← Bytes.pop, hp] at ha
  cases ha
  exact hv

theorem pop_brk {R : Reader σ} {view : σ → List UInt8} (hR : Faithful R view) (hq : Reports R) {fed : List UInt8} {toks : List Token} {w : Bool}
    {st st' : σ} {d d' : Dec} {e : More} (h : Bytes.History R view fed toks w st d) (hp : Bytes.pop R st d = (st', d', .brk e)) :
    NextByte (view st') e := by
  have hw := known_wf hR (Bytes.history_known hR (.more h hp))
  obtain ⟨min, max, hm, ha⟩ := advance_brk _ _ _ hp
  have hl := hR.map st' min max
  rw [hm] at hl
  simp only at hl
  have he := hq _ _ _ _ hm
  subst he
  unfold Bytes.Wf at hw
  unfold Asks at ha
  unfold NextByte
  simp only
  cases hs : d'.state <;> rw [hs] at ha hw <;> simp only at ha hw
  case none =>
    obtain ⟨rfl, rfl⟩ := ha
    exact ⟨by omega, fun m hm => by cases hm; exact Nat.le_refl _⟩
  case numberDone => omega
  case stringEscapeUnicode =>
    obtain ⟨rfl, rfl⟩ := ha
    exact ⟨by omega, fun m hm => by cases hm; omega⟩
  case stringEscapeUnicodeTrail =>
    obtain ⟨rfl, rfl⟩ := ha
    exact ⟨by omega, fun m hm => by cases hm; omega⟩
  all_goals
    obtain ⟨rfl, rfl⟩ := ha
    exact ⟨by omega, fun m hm => by cases hm⟩

end Verif.Json.Next
