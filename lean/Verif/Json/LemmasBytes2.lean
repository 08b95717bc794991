import Verif.Json.LemmasBytes1
/-! # The streaming JSON tokenizer on a text: streams and more text -/
namespace Verif.Json.Bytes
open Verif.Io (usizeMax More SFlow StreamImpl WhileOut scan whileLoop)
variable {σ : Type}

theorem request_map {d : Dec} {min : Nat} {max : Option Nat} (h : request d = some (.map min max)) {m : List UInt8} (hm : min ≤ m.length) : Seen d m := by
  obtain ⟨s, i, dn, acc⟩ := d
  cases s with
  | none => cases h; exact hm
  | numberDone n => cases h; exact hm
  | stringEscape =>
    simp only [request, Option.map_eq_some_iff] at h
    obtain ⟨a, h1, h2⟩ := h
    have := strictAdd_some h1
    cases h2
    show i + 1 ≤ m.length
    omega
  | stringEscapeUnicode s =>
    simp only [request, Option.map_eq_some_iff] at h
    obtain ⟨a, h1, h2⟩ := h
    cases h2
  | stringEscapeUnicodeTrail s l =>
    simp only [request] at h
    split at h
    · rw [Option.map_eq_some_iff] at h
      obtain ⟨a, h1, h2⟩ := h
      cases h2
    · cases h
  | whitespace => cases h
  | item => cases h
  | number n => cases h
  | string s => cases h

theorem strictAdd_le {a b c : Nat} (h : strictAdd a b = some c) : c ≤ usizeMax := by
  unfold strictAdd at h
  split at h
  · rw [← Option.some.inj h]; assumption
  · cases h

theorem request_while {d : Dec} {max : Option Nat} {p : Nat → UInt8 → Bool} (h : request d = some (.mapWhile max p)) {text : List UInt8}
    (hw : Wf text d) : d.idx ≤ text.length ∧ d.idx < max.getD usizeMax ∧ max.getD usizeMax ≤ usizeMax
      ∧ (∀ n m, d.idx ≤ n → (n < m.length ∨ (n ≤ m.length ∧ max = some n)) → Seen { d with idx := n } m)
      ∧ (∀ n, d.idx ≤ n → n < max.getD usizeMax → request { d with idx := n } = some (.mapWhile max p))
      ∧ (∀ n (t : List UInt8), t.length ≤ isizeMax → d.idx ≤ n → n ≤ t.length → n < max.getD usizeMax → Wf t { d with idx := n }) := by
  obtain ⟨s, i, dn, acc⟩ := d
  obtain ⟨hl, hw⟩ := hw
  have hu := isize_usize _ hl
  cases s with
  | none => cases h
  | numberDone n => cases h
  | stringEscape =>
    simp only [request, Option.map_eq_some_iff] at h
    obtain ⟨a, h1, h2⟩ := h
    cases h2
  | stringEscapeUnicode s =>
    simp only [request, Option.map_eq_some_iff] at h
    obtain ⟨a, h1, h2⟩ := h
    have e1 := strictAdd_some h1
    have e2 := strictAdd_le h1
    cases h2
    obtain ⟨w1, w2, w3⟩ := hw
    simp only [] at w1 w2 w3
    refine ⟨w1, by show i < a; omega, e2, ?_, ?_, ?_⟩
    · intro n m hn hm
      simp only [] at hn
      refine ⟨by show s ≤ n; omega, ?_⟩
      show n ≤ m.length
      rcases hm with hm | hm <;> omega
    · intro n _ _
      simp only [request, h1]; rfl
    · intro n t ht hn hn2 hn3
      simp only [Option.getD_some] at hn hn3
      exact ⟨ht, hn2, by show s ≤ n; omega, by show n < s + 4; omega⟩
  | stringEscapeUnicodeTrail s l =>
    simp only [request] at h
    split at h
    · rw [Option.map_eq_some_iff] at h
      obtain ⟨a, h1, h2⟩ := h
      have e1 := strictAdd_some h1
      have e2 := strictAdd_le h1
      cases h2
      obtain ⟨w1, w2, w3⟩ := hw
      simp only [] at w1 w2 w3
      refine ⟨w1, by show i < a; omega, e2, ?_, ?_, ?_⟩
      · intro n m hn hm
        simp only [] at hn
        refine ⟨by show s ≤ n; omega, ?_⟩
        show n ≤ m.length
        rcases hm with hm | hm <;> omega
      · intro n hn _
        simp only [] at hn
        simp only [request, h1]
        rw [if_pos (by omega)]; rfl
      · intro n t ht hn hn2 hn3
        simp only [Option.getD_some] at hn hn3
        exact ⟨ht, hn2, by show s ≤ n; omega, by show n < s + 6; omega⟩
    · cases h
  | whitespace =>
    cases h
    exact ⟨hw, by show i < usizeMax; have : i ≤ text.length := hw; omega, Nat.le_refl _,
      fun n m _ hm => hm.elim id fun hm => (by cases hm.2), fun n _ _ => rfl, fun n t ht _ h2 _ => ⟨ht, h2⟩⟩
  | item =>
    cases h
    exact ⟨hw, by show i < usizeMax; have : i ≤ text.length := hw; omega, Nat.le_refl _,
      fun n m _ hm => hm.elim id fun hm => (by cases hm.2), fun n _ _ => rfl, fun n t ht _ h2 _ => ⟨ht, h2⟩⟩
  | number n =>
    cases h
    exact ⟨hw, by show i < usizeMax; have : i ≤ text.length := hw; omega, Nat.le_refl _,
      fun n m _ hm => hm.elim id fun hm => (by cases hm.2), fun n _ _ => rfl, fun n t ht _ h2 _ => ⟨ht, h2⟩⟩
  | string s =>
    cases h
    exact ⟨hw, by show i < usizeMax; have : i ≤ text.length := hw; omega, Nat.le_refl _,
      fun n m _ hm => hm.elim id fun hm => (by cases hm.2), fun n _ _ => rfl, fun n t ht _ h2 _ => ⟨ht, h2⟩⟩

/-! ## Any stream -/

theorem whileLoop_unit (I : StreamImpl σ) (st : σ) (max : Option Nat) (pred : Unit → Nat → UInt8 → Unit × Bool) : ∀ (fuel n : Nat) (t : Unit),
    whileLoop I st max pred fuel n t = whileLoop (⟨fun _ => I.map st⟩ : StreamImpl Unit) () max pred fuel n t
  | 0, n, t => rfl
  | fuel + 1, n, t => by
    unfold whileLoop
    simp only [whileLoop_unit I st max pred fuel]

theorem step_eq {R : Reader σ} {view : σ → List UInt8} (hR : Faithful R view) (st : σ) (d : Dec) (hw : Wf (view st) d) :
    ((advanceState R st d).1, outOf (advanceState R st d).2) = pureStep (view st) d := by
  have hL := hR.size st
  have hu := isize_usize _ hL
  unfold advanceState pureStep
  cases hq : request d with
  | none => rfl
  | some q =>
    cases q with
    | map min max =>
      simp only []
      have := hR.map st min max
      generalize R.map st min max = r at this
      cases r with
      | fault => exact this.elim
      | brk e =>
        simp only [] at this ⊢
        rw [if_neg (by omega)]; rfl
      | cont m =>
        obtain ⟨h1, h2⟩ := this
        simp only []
        rw [if_pos (Nat.le_trans h2 h1.length_le), handle_prefix h1 d (request_map hq h2)]; rfl
    | mapWhile max p =>
      obtain ⟨w1, w2, w3, w4, w5, w6⟩ := request_while hq hw
      simp only []
      have hs : Io.Streams (⟨fun _ => R.map st⟩ : StreamImpl Unit) (view st) := by
        intro _ min max
        have := hR.map st min max
        show match R.map st min max with | .cont m => _ | .brk _ => True | .fault => False
        generalize R.map st min max = r at this
        cases r with
        | fault => exact this
        | brk e => trivial
        | cont m => exact this
      have ht := Io.whileLoop_spec _ (view st) hs () max w3 (fun (_ : Unit) i b => ((), p i b)) usizeMax d.idx () (by omega) w1 w2
      have hb := Io.whileLoop_brk R.toStreamImpl st max (fun (_ : Unit) i b => ((), p i b)) usizeMax d.idx ()
      rw [← whileLoop_unit R.toStreamImpl st] at ht
      show _ = (if (scanTo p (((view st).drop d.idx).take (max.getD usizeMax - d.idx)) d.idx).2 = true ∨ _ then _ else _)
      generalize hr : whileLoop R.toStreamImpl st max (fun (_ : Unit) i b => ((), p i b)) usizeMax d.idx () = r at ht hb
      have hr' : Io.readMapWhile R.toStreamImpl st d.idx max (fun (_ : Unit) i b => ((), p i b)) () usizeMax = r := hr
      rw [hr']
      obtain ⟨n, u, fl⟩ := r
      cases fl with
      | fault => exact ht.elim
      | brk e =>
        obtain ⟨h1, h2, h3, h4⟩ := ht
        simp only [] at h1 h2 h3 h4
        have hm := hR.map st (n + 1) max
        rw [hb n u e rfl] at hm
        simp only [] at hm
        rw [scan_eq] at h4
        have hn : n = (view st).length := by omega
        rw [List.take_of_length_le (by simp only [List.length_drop]; omega)] at h4 ⊢
        simp only [Prod.mk.injEq] at h4
        obtain ⟨h4, -, h5⟩ := h4
        rw [h4, h5]
        simp only []
        rw [if_neg]; · rfl
        rintro (h | h)
        · exact Bool.noConfusion h
        · rw [h] at h3; exact Nat.lt_irrefl _ h3
      | cont m =>
        obtain ⟨h1, h2, h3, h4⟩ := ht
        simp only [] at h1 h2 h3 h4
        rw [scan_eq] at h4
        rcases h4 with ⟨h4, h5⟩ | ⟨h4, h6, h5⟩
        · simp only [Prod.mk.injEq] at h5
          obtain ⟨h5, -, h6⟩ := h5
          rw [h5, h6]
          simp only []
          rw [if_pos (.inl trivial), handle_prefix h1 _ (w4 n m h3 (.inl h4))]; rfl
        · simp only [Prod.mk.injEq] at h5
          obtain ⟨h5, -, h7⟩ := h5
          have hle := h1.length_le
          have hmx : max = some n := by
            cases max with
            | none => simp only [Option.getD_none] at h6; omega
            | some x => simp only [Option.getD_some] at h4; rw [h4]
          rw [h5, h7]
          simp only []
          rw [← h4, if_pos (.inr hmx), handle_prefix h1 _ (w4 n m h3 (.inr ⟨by omega, hmx⟩))]; rfl

/-! ## More text -/

theorem take_drop_append {text b : List UInt8} {i : Nat} (h : i ≤ text.length) : (text ++ b).drop i = text.drop i ++ b :=
  List.drop_append_of_le_length h

theorem scanTo_take_append (p : Nat → UInt8 → Bool) (v b : List UInt8) (k n : Nat) :
    scanTo p ((v ++ b).take k) n =
      if (scanTo p (v.take k) n).2 = true ∨ k ≤ v.length then scanTo p (v.take k) n else scanTo p (b.take (k - v.length)) (n + v.length) := by
  rw [List.take_append, scanTo_append]
  by_cases h : (scanTo p (v.take k) n).2 = true
  · rw [if_pos h, if_pos (.inl h)]
  · rw [if_neg h]
    by_cases hk : k ≤ v.length
    · rw [if_pos (.inr hk), show k - v.length = 0 by omega, List.take_zero]
      have := scanTo_bounds p (v.take k) n
      simp only [scanTo]
      rw [if_neg h] at this
      refine Prod.ext this.2.symm ?_
      simp only [Bool.not_eq_true] at h
      exact h.symm
    · rw [if_neg (fun h' => h'.elim h hk), List.length_take, Nat.min_eq_right (by omega)]

theorem pureStep_more {text b : List UInt8} {d d' : Dec} {o : Out} (hw : Wf text d) (h : pureStep text d = (d', o))
    (hb : (text ++ b).length ≤ isizeMax) :
    (o ≠ .wait → pureStep (text ++ b) d = (d', o))
    ∧ (o = .wait → pureStep (text ++ b) d = pureStep (text ++ b) d' ∧ d'.done = d.done ∧ Wf (text ++ b) d') := by
  have hla : (text ++ b).length = text.length + b.length := List.length_append
  have hu := isize_usize _ hb
  unfold pureStep at h ⊢
  cases hq : request d with
  | none =>
    rw [hq] at h
    simp only [Prod.mk.injEq] at h ⊢
    obtain ⟨rfl, rfl⟩ := h
    exact ⟨fun _ => ⟨rfl, rfl⟩, fun h => by cases h⟩
  | some q =>
    rw [hq] at h
    cases q with
    | map min max =>
      simp only [] at h ⊢
      by_cases hm : min ≤ text.length
      · rw [if_pos hm] at h
        rw [if_pos (by omega), ← handle_prefix (List.prefix_append _ _) d (request_map hq hm)]
        refine ⟨fun _ => h, fun ho => ?_⟩
        subst ho
        unfold fin at h
        generalize handle d text = x at h
        rcases x with - | ⟨d1, - | t⟩ <;> simp [finish, outOf] at h
      · rw [if_neg hm] at h
        simp only [Prod.mk.injEq] at h
        obtain ⟨rfl, rfl⟩ := h
        refine ⟨fun h => (h rfl).elim, fun _ => ⟨by simp [hq], rfl, ?_⟩⟩
        obtain ⟨hw1, hw2⟩ := hw
        refine ⟨hb, ?_⟩
        split at hw2
        · exact hw2
        · exact ⟨by omega, hw2.2⟩
        · exact ⟨by omega, hw2.2⟩
        · exact (by omega : d.idx ≤ (text ++ b).length)
    | mapWhile max p =>
      obtain ⟨w1, w2, w3, w4, w5, w6⟩ := request_while hq hw
      simp only [] at h ⊢
      rw [take_drop_append w1, scanTo_take_append]
      have hbd := scanTo_bounds p ((text.drop d.idx).take (max.getD usizeMax - d.idx)) d.idx
      generalize hr : scanTo p ((text.drop d.idx).take (max.getD usizeMax - d.idx)) d.idx = r at h hbd ⊢
      obtain ⟨n, f⟩ := r
      simp only [List.length_take, List.length_drop] at h hbd ⊢
      by_cases hc : f = true ∨ max = some n
      · rw [if_pos hc] at h
        have hk : f = true ∨ max.getD usizeMax - d.idx ≤ text.length - d.idx := by
          cases hc with
          | inl hf => exact .inl hf
          | inr hx =>
            by_cases hf : f = true
            · exact .inl hf
            · rw [if_neg hf] at hbd
              rw [hx] at hbd ⊢
              simp only [Option.getD_some] at hbd ⊢
              right; omega
        rw [if_pos hk]
        simp only []
        rw [if_pos hc]
        have hseen : Seen { d with idx := n } text := by
          refine w4 n text hbd.1 ?_
          cases hf : f with
          | true => rw [hf, if_pos rfl] at hbd; left; omega
          | false =>
            rw [hf] at hbd hc
            simp only [Bool.false_eq_true, if_false, false_or] at hbd hc
            right; exact ⟨by omega, hc⟩
        rw [← handle_prefix (List.prefix_append _ _) _ hseen]
        refine ⟨fun _ => h, fun ho => ?_⟩
        subst ho
        unfold fin at h
        generalize handle { d with idx := n } text = x at h
        rcases x with - | ⟨d1, - | t⟩ <;> simp [finish, outOf] at h
      · rw [if_neg hc] at h
        have hf : f = false := by cases f; rfl; exact (hc (.inl rfl)).elim
        subst hf
        simp only [Bool.false_eq_true, if_false, false_or] at hbd hc ⊢
        simp only [Prod.mk.injEq] at h
        obtain ⟨rfl, rfl⟩ := h
        refine ⟨fun h => (h rfl).elim, fun _ => ⟨?_, rfl, ?_⟩⟩
        · have hlt : text.length < max.getD usizeMax := by
            cases hmx : max with
            | none => simp only [Option.getD_none]; omega
            | some x =>
              simp only [Option.getD_some]
              have : x ≠ n := fun h => hc (by rw [hmx, h])
              rw [hmx] at hbd; simp only [Option.getD_some] at hbd
              rw [hmx] at w2; simp only [Option.getD_some] at w2
              omega
          have hn : n = text.length := by omega
          rw [if_neg (show ¬ (max.getD usizeMax - d.idx ≤ text.length - d.idx) by omega), w5 n (by omega) (by omega)]
          simp only []
          rw [hn, List.drop_left, show d.idx + (text.length - d.idx) = text.length by omega,
            show max.getD usizeMax - d.idx - (text.length - d.idx) = max.getD usizeMax - text.length by omega]
        · have hlt : n < max.getD usizeMax := by
            cases hmx : max with
            | none => rw [hmx] at hbd; simp only [Option.getD_none] at hbd ⊢; omega
            | some x =>
              simp only [Option.getD_some]
              have : x ≠ n := fun h => hc (by rw [hmx, h])
              rw [hmx] at hbd; simp only [Option.getD_some] at hbd
              rw [hmx] at w2; simp only [Option.getD_some] at w2
              omega
          exact w6 n _ hb (by omega) (by omega) hlt

end Verif.Json.Bytes
