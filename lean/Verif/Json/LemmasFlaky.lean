import Verif.Json.SpecFlaky
import Verif.Json.PropsBytes
/-! # Lemmas on streams that panic -/
namespace Verif.Json.Bytes
open Verif.Io (usizeMax)
variable {σ : Type}

def outU : UFlow (Option Token) → Option Out
  | .fault => some .fault
  | .brk _ => some .wait
  | .cont none => some .quiet
  | .cont (some t) => some (.tell t)
  | .unwound => none

/-! ## `map_while` -/

/-- The bytes from `a` up to `n` pass the test. -/
def Passed (p : Nat → UInt8 → Bool) (text : List UInt8) (a n : Nat) : Prop := ∀ i, a ≤ i → i < n → ∃ b, text[i]? = some b ∧ p i b = true

theorem test_loop (p : Nat → UInt8 → Bool) (m : List UInt8) : ∀ (left n : Nat), m.length ≤ n + left → n ≤ m.length →
    ∃ n' u, n ≤ n' ∧ n' ≤ m.length ∧ Passed p m n n' ∧
      ((Io.testLoop (fun (_ : Unit) i b => ((), p i b)) m left n () = (n', u, some true) ∧ ∃ b, m[n']? = some b ∧ p n' b = false)
      ∨ (Io.testLoop (fun (_ : Unit) i b => ((), p i b)) m left n () = (n', u, some false) ∧ n' = m.length)) := by
  intro left
  induction left with
  | zero =>
    intro n hl hn
    have : n = m.length := by omega
    refine ⟨n, (), Nat.le_refl _, hn, fun i h1 h2 => by omega, .inr ⟨?_, this⟩⟩
    unfold Io.testLoop
    rw [if_neg (by omega)]
  | succ left ih =>
    intro n hl hn
    by_cases hlt : n < m.length
    · have hb : m[n]? = some m[n] := List.getElem?_eq_getElem hlt
      by_cases hp : p n m[n] = true
      · obtain ⟨n', u, h1, h2, h3, h4⟩ := ih (n + 1) (by omega) hlt
        refine ⟨n', u, by omega, h2, ?_, ?_⟩
        · intro i hi1 hi2
          by_cases hi : i = n
          · subst hi; exact ⟨_, hb, hp⟩
          · exact h3 i (by omega) hi2
        · have : Io.testLoop (fun (_ : Unit) i b => ((), p i b)) m (left + 1) n () = Io.testLoop (fun (_ : Unit) i b => ((), p i b)) m left (n + 1) () := by
            conv => lhs; unfold Io.testLoop
            rw [if_pos hlt, hb]
            simp only [hp]
          rw [this]; exact h4
      · rw [Bool.not_eq_true] at hp
        refine ⟨n, (), Nat.le_refl _, hn, fun i h1 h2 => by omega, .inl ⟨?_, m[n], hb, hp⟩⟩
        unfold Io.testLoop
        rw [if_pos hlt, hb]
        simp only [hp]
    · refine ⟨n, (), Nat.le_refl _, hn, fun i h1 h2 => by omega, .inr ⟨?_, by omega⟩⟩
      unfold Io.testLoop
      rw [if_neg hlt]

theorem passed_prefix {p : Nat → UInt8 → Bool} {m text : List UInt8} (h : m <+: text) {a n : Nat} (hp : Passed p m a n) : Passed p text a n := by
  intro i h1 h2
  obtain ⟨b, h3, h4⟩ := hp i h1 h2
  obtain ⟨r, rfl⟩ := h
  refine ⟨b, ?_, h4⟩
  rw [List.getElem?_append_left]; · exact h3
  exact (List.getElem?_eq_some_iff.mp h3).1

theorem Passed.trans {p : Nat → UInt8 → Bool} {text : List UInt8} {a b c : Nat} (h : Passed p text a b) (h' : Passed p text b c) : Passed p text a c := by
  intro i h1 h2
  by_cases hi : i < b
  · exact h i h1 hi
  · exact h' i (by omega) h2

/-- What `map_while` comes back with. -/
def WhileEnds (text : List UInt8) (maxV n : Nat) (p : Nat → UInt8 → Bool) : UFlow (List UInt8) → Prop
  | .fault => False
  | .unwound => n ≤ text.length ∧ n < maxV
  | .brk _ => n = text.length ∧ n < maxV
  | .cont m => m <+: text ∧ ((n < maxV ∧ ∃ b, m[n]? = some b ∧ p n b = false) ∨ (n = maxV ∧ n ≤ m.length))

theorem while_ends {R : ReaderU σ} {view : σ → List UInt8} (hR : Flaky R view) (max : Option Nat) (p : Nat → UInt8 → Bool) (text : List UInt8)
    (hm : max.getD usizeMax ≤ usizeMax) : ∀ (fuel : Nat) (st : σ) (n : Nat), view st = text → n ≤ text.length → n < max.getD usizeMax →
      text.length < n + fuel → ∃ st' n' fl, whileLoopU R max p fuel st n = (st', n', fl) ∧ view st' = text ∧ n ≤ n' ∧ Passed p text n n'
        ∧ WhileEnds text (max.getD usizeMax) n' p fl := by
  intro fuel
  induction fuel with
  | zero => intro st n _ h1 _ h2; omega
  | succ fuel ih =>
    intro st n hv h1 h2 h3
    unfold whileLoopU
    simp only []
    rw [if_pos (by omega)]
    have hmap := hR.map st (n + 1) max
    generalize R.map st (n + 1) max = r at hmap
    obtain ⟨st1, fl⟩ := r
    obtain ⟨hv1, hmap⟩ := hmap
    simp only [] at hv1 hmap
    rw [hv] at hv1 hmap
    cases fl with
    | fault => exact hmap.elim
    | unwound => exact ⟨st1, n, .unwound, rfl, hv1, Nat.le_refl _, fun i _ _ => by omega, h1, h2⟩
    | brk e =>
      simp only [] at hmap
      exact ⟨st1, n, .brk e, rfl, hv1, Nat.le_refl _, fun i _ _ => by omega, by omega, h2⟩
    | cont m =>
      obtain ⟨m1, m2⟩ := hmap
      simp only []
      generalize hM : m.take (min m.length (max.getD usizeMax)) = M
      have hMl : M.length = min m.length (max.getD usizeMax) := by rw [← hM, List.length_take]; omega
      have hMp : M <+: text := by rw [← hM]; exact (List.take_prefix _ _).trans m1
      rw [if_pos ⟨by omega, by omega⟩]
      obtain ⟨n', u, t1, t2, t3, t4⟩ := test_loop p M M.length n (by omega) (by omega)
      rcases t4 with ⟨e, hb⟩ | ⟨e, hn⟩
      · rw [e]
        have hlt : n' < M.length := by
          obtain ⟨b, hb, -⟩ := hb
          exact (List.getElem?_eq_some_iff.mp hb).1
        exact ⟨st1, n', .cont M, rfl, hv1, t1, passed_prefix hMp t3, hMp, .inl ⟨by omega, hb⟩⟩
      · rw [e]
        simp only []
        by_cases hx : n' ≥ max.getD usizeMax
        · rw [if_pos hx]
          exact ⟨st1, n', .cont M, rfl, hv1, t1, passed_prefix hMp t3, hMp, .inr ⟨by omega, t2⟩⟩
        · rw [if_neg hx]
          have hle := hMp.length_le
          obtain ⟨st', n2, fl, g1, g2, g3, g4, g5⟩ := ih st1 n' hv1 (by omega) (by omega) (by omega)
          exact ⟨st', n2, fl, g1, g2, by omega, (passed_prefix hMp t3).trans g4, g5⟩

/-- The test goes on where it was left. -/
theorem scan_passed (p : Nat → UInt8 → Bool) (text : List UInt8) (M : Nat) : ∀ (k a n : Nat), n = a + k → Passed p text a n → n ≤ M →
    scanTo p ((text.drop a).take (M - a)) a = scanTo p ((text.drop n).take (M - n)) n := by
  intro k
  induction k with
  | zero => intro a n h _ _; subst h; rfl
  | succ k ih =>
    intro a n h hp hM
    obtain ⟨b, h1, h2⟩ := hp a (Nat.le_refl _) (by omega)
    have hlt := (List.getElem?_eq_some_iff.mp h1).1
    have hg : text[a] = b := (List.getElem?_eq_some_iff.mp h1).2
    rw [← ih (a + 1) n (by omega) (fun i hi => hp i (by omega)) hM, List.drop_eq_getElem_cons hlt, hg,
      show M - a = (M - (a + 1)) + 1 by omega, List.take_succ_cons, scanTo, if_pos h2]

theorem passed_more {p : Nat → UInt8 → Bool} {text : List UInt8} (b : List UInt8) {a n : Nat} (h : Passed p text a n) : Passed p (text ++ b) a n :=
  passed_prefix (List.prefix_append _ _) h

/-! ## One step -/

theorem finishU_out (d : Dec) (r : Option (Dec × Option Token)) : ((finishU d r).1, outU (finishU d r).2) = ((fin d r).1, some (fin d r).2) := by
  unfold finishU fin finish
  match r with
  | none => rfl
  | some (d, none) => rfl
  | some (d, some t) => rfl

theorem step_flaky {R : ReaderU σ} {view : σ → List UInt8} (hR : Flaky R view) (st : σ) (d : Dec) (hw : Wf (view st) d) :
    ∃ st' d' fl, advanceStateU R st d = (st', d', fl) ∧ view st' = view st ∧
      match outU fl with
      | some o => pureStep (view st) d = (d', o)
      | none => d'.done = d.done ∧ ∀ b, (view st ++ b).length ≤ isizeMax → Wf (view st ++ b) d' ∧ pureStep (view st ++ b) d' = pureStep (view st ++ b) d := by
  have hL := hR.size st
  have hu := isize_usize _ hL
  unfold advanceStateU
  cases hq : request d with
  | none => exact ⟨st, d, .fault, rfl, rfl, by show pureStep _ _ = _; unfold pureStep; rw [hq]⟩
  | some q =>
    cases q with
    | map min max =>
      simp only []
      have := hR.map st min max
      generalize R.map st min max = r at this
      obtain ⟨st1, fl⟩ := r
      obtain ⟨hv, this⟩ := this
      simp only [] at hv this
      cases fl with
      | fault => exact this.elim
      | unwound =>
        refine ⟨st1, d, .unwound, rfl, hv, rfl, fun b hb => ⟨?_, rfl⟩⟩
        obtain ⟨-, hw⟩ := hw
        refine ⟨hb, ?_⟩
        have : (view st).length ≤ (view st ++ b).length := by rw [List.length_append]; omega
        revert hw
        cases d.state <;> simp only [] <;> intro hw <;> first | exact hw | exact Nat.le_trans hw this | exact ⟨Nat.le_trans hw.1 this, hw.2⟩
      | brk e =>
        simp only [] at this
        refine ⟨st1, d, .brk e, rfl, hv, ?_⟩
        show pureStep _ _ = _
        unfold pureStep
        rw [hq]
        simp only []
        rw [if_neg (by omega)]
      | cont m =>
        obtain ⟨h1, h2⟩ := this
        refine ⟨st1, (finishU d (handle d m)).1, (finishU d (handle d m)).2, rfl, hv, ?_⟩
        have e := finishU_out d (handle d m)
        rw [Prod.mk.injEq] at e
        rw [e.2]
        show pureStep _ _ = _
        unfold pureStep
        rw [hq]
        simp only []
        rw [if_pos (Nat.le_trans h2 h1.length_le), ← handle_prefix h1 d (request_map hq h2), e.1]
    | mapWhile max p =>
      obtain ⟨w1, w2, w3, w4, w5, w6⟩ := request_while hq hw
      obtain ⟨st', n, fl, e1, e2, e3, e4, e5⟩ := while_ends hR max p (view st) w3 usizeMax st d.idx rfl w1 w2 (by omega)
      simp only []
      rw [e1]
      have hscan : n ≤ max.getD usizeMax → ∀ b, scanTo p (((view st ++ b).drop d.idx).take (max.getD usizeMax - d.idx)) d.idx =
          scanTo p (((view st ++ b).drop n).take (max.getD usizeMax - n)) n := fun hx b =>
        scan_passed p _ _ (n - d.idx) d.idx n (by omega) (passed_more b e4) hx
      cases fl with
      | fault => exact e5.elim
      | unwound =>
        obtain ⟨f1, f2⟩ := e5
        refine ⟨st', { d with idx := n }, .unwound, rfl, e2, rfl, fun b hb => ⟨?_, ?_⟩⟩
        · exact w6 n _ hb e3 (by rw [List.length_append]; omega) f2
        · unfold pureStep
          rw [hq, w5 n e3 f2]
          simp only []
          rw [hscan (by omega) b]
      | brk e =>
        obtain ⟨f1, f2⟩ := e5
        refine ⟨st', { d with idx := n }, .brk e, rfl, e2, ?_⟩
        show pureStep _ _ = _
        unfold pureStep
        rw [hq]
        have := hscan (by omega) []
        rw [List.append_nil] at this
        have hs : scanTo p (((view st).drop n).take (max.getD usizeMax - n)) n = (n, false) := by
          rw [f1, List.drop_length, List.take_nil]; rfl
        simp only []
        rw [this, hs]
        simp only []
        rw [if_neg]
        rintro (h | h)
        · exact Bool.noConfusion h
        · rw [h] at f2; simp only [Option.getD_some] at f2; omega
      | cont m =>
        obtain ⟨f1, f2⟩ := e5
        have hle := f1.length_le
        refine ⟨st', (finishU { d with idx := n } (handle { d with idx := n } m)).1, (finishU { d with idx := n } (handle { d with idx := n } m)).2, rfl, e2, ?_⟩
        have e := finishU_out { d with idx := n } (handle { d with idx := n } m)
        rw [Prod.mk.injEq] at e
        rw [e.2, e.1]
        show pureStep _ _ = _
        have hn : n ≤ max.getD usizeMax := by rcases f2 with ⟨f2, -⟩ | ⟨f2, -⟩ <;> omega
        have hsc := hscan hn []
        rw [List.append_nil] at hsc
        unfold pureStep
        rw [hq]
        simp only []
        rw [hsc]
        rcases f2 with ⟨f2, b, f3, f4⟩ | ⟨f2, f3⟩
        · have hlt := (List.getElem?_eq_some_iff.mp f3).1
          have hg : (view st)[n]? = some b := by rw [← getElem_prefix f1 hlt]; exact f3
          obtain ⟨hl2, hg⟩ := List.getElem?_eq_some_iff.mp hg
          have hs : scanTo p (((view st).drop n).take (max.getD usizeMax - n)) n = (n, true) := by
            rw [List.drop_eq_getElem_cons hl2, hg, show max.getD usizeMax - n = (max.getD usizeMax - n - 1) + 1 by omega, List.take_succ_cons, scanTo]
            simp only [f4, Bool.false_eq_true, if_false]
          rw [hs]
          simp only []
          rw [if_pos (.inl trivial), ← handle_prefix f1 _ (w4 n m e3 (.inl hlt))]
        · have hmx : max = some n := by
            cases max with
            | none => simp only [Option.getD_none] at f2; omega
            | some x => simp only [Option.getD_some] at f2; rw [f2]
          have hs : scanTo p (((view st).drop n).take (max.getD usizeMax - n)) n = (n, false) := by
            rw [← f2, Nat.sub_self, List.take_zero]; rfl
          rw [hs]
          simp only []
          rw [if_pos (.inr hmx), ← handle_prefix f1 _ (w4 n m e3 (.inr ⟨f3, hmx⟩))]

end Verif.Json.Bytes
