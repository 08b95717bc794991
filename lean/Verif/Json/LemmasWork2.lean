import Verif.Json.LemmasWork
/-! # The work of the streaming JSON tokenizer: helper lemmas, all steps -/
namespace Verif.Json.Work
open Verif.Io (usizeMax More SFlow StreamImpl WhileOut scan whileLoop testLoop)
open Verif.Json.Bytes (Reader Dec State Wf Wfc Seen isizeMax Faithful)
variable {σ : Type}

/-! ## The meter changes nothing -/

theorem testLoop_same (p : Nat → UInt8 → Bool) (map : List UInt8) : ∀ (left n t : Nat),
    (testLoop (fun (n : Nat) i b => (n + 1, p i b)) map left n t).1 = (testLoop (fun (_ : Unit) i b => ((), p i b)) map left n ()).1
    ∧ (testLoop (fun (n : Nat) i b => (n + 1, p i b)) map left n t).2.2 = (testLoop (fun (_ : Unit) i b => ((), p i b)) map left n ()).2.2
  | left, n, t => by
    rw [testLoop.eq_def, testLoop.eq_def (fun (_ : Unit) i b => ((), p i b))]
    by_cases h : n < map.length
    · simp only [if_pos h]
      cases left with
      | zero => exact ⟨rfl, rfl⟩
      | succ left =>
        cases map[n]? with
        | none => exact ⟨rfl, rfl⟩
        | some b =>
          simp only []
          cases p n b with
          | false => exact ⟨rfl, rfl⟩
          | true => exact testLoop_same p map left (n + 1) (t + 1)
    · simp only [if_neg h]; exact ⟨trivial, trivial⟩

theorem whileLoop_same (I : StreamImpl σ) (st : σ) (max : Option Nat) (p : Nat → UInt8 → Bool) : ∀ (fuel n t : Nat),
    (whileLoop I st max (fun (n : Nat) i b => (n + 1, p i b)) fuel n t).n = (whileLoop I st max (fun (_ : Unit) i b => ((), p i b)) fuel n ()).n
    ∧ (whileLoop I st max (fun (n : Nat) i b => (n + 1, p i b)) fuel n t).flow = (whileLoop I st max (fun (_ : Unit) i b => ((), p i b)) fuel n ()).flow
  | 0, n, t => ⟨rfl, rfl⟩
  | fuel + 1, n, t => by
    unfold whileLoop
    simp only []
    by_cases h : n + 1 ≤ usizeMax
    · simp only [if_pos h]
      cases I.map st (n + 1) max with
      | fault => exact ⟨rfl, rfl⟩
      | brk e => exact ⟨rfl, rfl⟩
      | cont map =>
        simp only []
        generalize map.take (min map.length (max.getD usizeMax)) = map
        by_cases h2 : map.length ≥ n + 1 ∧ map.length ≤ max.getD usizeMax
        · simp only [if_pos h2]
          obtain ⟨e1, e2⟩ := testLoop_same p map map.length n t
          generalize testLoop (fun (n : Nat) i b => (n + 1, p i b)) map map.length n t = r1 at e1 e2
          generalize testLoop (fun (_ : Unit) i b => ((), p i b)) map map.length n () = r2 at e1 e2
          obtain ⟨n1, t1, f1⟩ := r1
          obtain ⟨n2, t2, f2⟩ := r2
          simp only at e1 e2
          subst e1 e2
          rcases f1 with - | (- | -)
          · exact ⟨rfl, rfl⟩
          · simp only []
            by_cases h3 : n1 ≥ max.getD usizeMax
            · simp only [if_pos h3]; exact ⟨trivial, trivial⟩
            · simp only [if_neg h3]; exact whileLoop_same I st max p fuel n1 t1
          · exact ⟨rfl, rfl⟩
        · simp only [if_neg h2]; exact ⟨trivial, trivial⟩
    · simp only [if_neg h]; exact ⟨trivial, trivial⟩

theorem finish_same (G : Growth) (d : Dec) (m : Meter) (r : Option (Dec × Option Bytes.Token)) :
    ((finish G d m r).1, (finish G d m r).2.2) = Bytes.finish d r := by
  cases r <;> rfl

theorem advanceState_same (G : Growth) (R : Reader σ) (st : σ) (d : Dec) (m : Meter) :
    ((advanceState G R st d m).1, (advanceState G R st d m).2.2) = Bytes.advanceState R st d := by
  unfold advanceState Bytes.advanceState
  cases Bytes.request d with
  | none => rfl
  | some q =>
    cases q with
    | map min max =>
      simp only []
      cases R.map st min max with
      | fault => rfl
      | brk e => rfl
      | cont map => exact finish_same G d m _
    | mapWhile max p =>
      simp only [Io.readMapWhile]
      obtain ⟨e1, e2⟩ := whileLoop_same R.toStreamImpl st max p usizeMax d.idx m.tests
      rw [e1, e2]
      cases (whileLoop R.toStreamImpl st max (fun (_ : Unit) i b => ((), p i b)) usizeMax d.idx ()).flow with
      | fault => rfl
      | brk e => rfl
      | cont map => exact finish_same G _ _ _

theorem advanceInner_same (G : Growth) (R : Reader σ) (st : σ) (d : Dec) (m : Meter) :
    ((advanceInner G R st d m).1, (advanceInner G R st d m).2.1, (advanceInner G R st d m).2.2.2) = Bytes.advanceInner R st d := by
  unfold advanceInner Bytes.advanceInner clearDone Bytes.clearDone
  cases d.done with
  | none => exact congrArg (Prod.mk st) (advanceState_same G R st d m)
  | some n =>
    simp only []
    cases R.advance st n with
    | none => rfl
    | some st' => exact congrArg (Prod.mk st') (advanceState_same G R st' _ _)

theorem advance_same (G : Growth) (R : Reader σ) : ∀ (fuel : Nat) (st : σ) (d : Dec) (m : Meter),
    ((advance G R fuel st d m).1, (advance G R fuel st d m).2.1, (advance G R fuel st d m).2.2.2) = Bytes.advance R fuel st d
  | 0, st, d, m => rfl
  | fuel + 1, st, d, m => by
    have h := advanceInner_same G R st d { m with rounds := m.rounds + 1 }
    unfold advance Bytes.advance
    rw [← h]
    generalize advanceInner G R st d { m with rounds := m.rounds + 1 } = r
    obtain ⟨st', d', m', fl⟩ := r
    rcases fl with (- | t) | e | -
    · exact advance_same G R fuel st' d' m'
    · rfl
    · rfl
    · rfl

/-! ## Counting tests -/

theorem whileLoop_any {τ : Type} (I : StreamImpl σ) (st : σ) (max : Option Nat) (pred : τ → Nat → UInt8 → τ × Bool) : ∀ (fuel n : Nat) (t : τ),
    whileLoop I st max pred fuel n t = whileLoop (⟨fun _ => I.map st⟩ : StreamImpl Unit) () max pred fuel n t
  | 0, n, t => rfl
  | fuel + 1, n, t => by
    unfold whileLoop
    simp only [whileLoop_any I st max pred fuel]

theorem scan_count (p : Nat → UInt8 → Bool) : ∀ (l : List UInt8) (n t : Nat),
    (scan (fun (n : Nat) i b => (n + 1, p i b)) l n t).2.1
      = t + ((scan (fun (n : Nat) i b => (n + 1, p i b)) l n t).1 - n) + (if (scan (fun (n : Nat) i b => (n + 1, p i b)) l n t).2.2 then 1 else 0)
    ∧ n ≤ (scan (fun (n : Nat) i b => (n + 1, p i b)) l n t).1
  | [], n, t => by simp [scan]
  | b :: l, n, t => by
    cases h : p n b with
    | false => simp [scan, h]
    | true =>
      have ih := scan_count p l (n + 1) (t + 1)
      simp only [scan, h]
      omega

/-! ## The invariant -/

/-- `c` bytes of the text belong to earlier tokens; `pend` is 1 within a call of `pop`. -/
structure Inv (text : List UInt8) (c : Nat) (toks : List Bytes.Token) (d : Dec) (m : Meter) (pend : Nat) : Prop where
  wf : Wfc text d
  round : m.rounds + pend ≤ m.calls + c + front d
  enough : d.accStr.length ≤ m.cap
  cap : m.cap ≤ max 4096 (2 * d.accStr.length)
  rest : ∃ U u e K, unescaped toks = U + u ∧ e ≤ u * front d ∧ u ≤ controls (text.take (front d)) ∧ m.copied = K + d.accStr.length
    ∧ 2 * K ≤ (3 + 2 * U) * c ∧ U ≤ c ∧ Tally d c m.tests e

theorem front_le {text : List UInt8} {d : Dec} (h : Wfc text d) : front d ≤ text.length := by
  unfold Wfc at h
  unfold front
  cases hd : d.done with
  | some n => rw [hd] at h; exact h.1
  | none =>
    rw [hd] at h
    obtain ⟨-, h⟩ := h
    simp only []
    cases hs : d.state <;> rw [hs] at h <;> simp only at h ⊢ <;> omega

theorem finish_inv {text map : List UInt8} {c : Nat} {toks : List Bytes.Token} {d d0 : Dec} {m m0 : Meter} (G : Growth) (hl : text.length ≤ isizeMax)
    (hm : map <+: text) (hn : d.done = none) (hseen : Seen d map) (hacc : d.accStr = d0.accStr) (hf : front d0 ≤ front d)
    (hm0 : m.rounds = m0.rounds + 1 ∧ m.calls = m0.calls ∧ m.copied = m0.copied ∧ m.cap = m0.cap)
    (hi : Inv text c toks d0 m0 1) (hp : ∀ e, Tally d0 c m0.tests e → Pre d c m.tests e) :
    match finish G d m (Bytes.handle d map) with
    | (d', m', .cont none) => Inv text c toks d' m' 1
    | (d', m', .cont (some t)) => Inv text c (toks ++ [t]) d' m' 0
    | (d', m', .brk _) => Inv text c toks d' m' 0
    | (_, _, .fault) => True := by
  cases hh : Bytes.handle d map with
  | none => trivial
  | some r =>
    obtain ⟨d', t⟩ := r
    obtain ⟨-, h2, h3, h4, U, u, e, K, g1, g2, g3, g4, g5, g7, g6⟩ := hi
    have hmv := moved_handle hl hm hn hseen (hp e g6) hh
    obtain ⟨w, a, f, q, ta⟩ := hmv
    rw [hacc] at a
    obtain ⟨m1, m2, m3, m4⟩ := hm0
    have hcap : d'.accStr.length ≤ G.grow m.cap d'.accStr.length ∧ G.grow m.cap d'.accStr.length ≤ max 4096 (2 * d'.accStr.length) := by
      by_cases hc : d'.accStr.length ≤ m.cap
      · rw [G.keeps _ _ hc]; omega
      · have := G.modest m.cap d'.accStr.length (by omega); omega
    have hcop : m.copied + (d'.accStr.length - d.accStr.length) = K + d'.accStr.length := by rw [hacc]; omega
    have mono : ∀ x, x * front d0 ≤ x * front d' := fun x => Nat.mul_le_mul_left x (by omega)
    have ctl : ∀ a b : Nat, a ≤ b → controls (text.take a) ≤ controls (text.take b) := by
      intro a b hab
      unfold controls
      exact List.Sublist.countP_le (List.IsPrefix.sublist (List.take_prefix_take_left (l := text) hab))
    have ht : ∃ u' e', unescaped (toks ++ t.toList) = U + u' ∧ e' ≤ u' * front d' ∧ u' ≤ controls (text.take (front d')) ∧ Tally d' c m.tests e' := by
      unfold unescaped
      rw [List.countP_append]
      have hc1 := ctl _ _ hf
      have hc2 := ctl _ _ f
      have hu : unescaped toks = toks.countP isUnescaped := rfl
      rcases ta with ⟨t1, t2⟩ | ⟨t1, k, t2, t3, t4⟩
      · refine ⟨u, e, ?_, Nat.le_trans g2 (mono u), by omega, t2⟩
        rw [← hu, g1]
        cases t with
        | none => rfl
        | some tk =>
          simp only [Option.any_some] at t1
          simp [t1]
      · refine ⟨u + 1, e + k, ?_, ?_, by omega, t2⟩
        · rw [← hu, g1]
          cases t with
          | none => cases t1
          | some tk =>
            simp only [Option.any_some] at t1
            simp [t1]; omega
        · have := mono u
          rw [Nat.add_mul, Nat.one_mul]; omega
    obtain ⟨u', e', x1, x2, x3, x4⟩ := ht
    cases t with
    | none =>
      have := q rfl
      simp only [Option.toList_none, List.append_nil] at x1
      exact ⟨w, by show m.rounds + 1 ≤ m.calls + c + front d'; omega, hcap.1, hcap.2, U, u', e', K, x1, x2, x3, hcop, g5, g7, x4⟩
    | some tk =>
      exact ⟨w, by show m.rounds + 0 ≤ m.calls + c + front d'; omega, hcap.1, hcap.2, U, u', e', K, x1, x2, x3, hcop, g5, g7, x4⟩

theorem pre_idle {d : Dec} {c tests e : Nat} (hn : d.done = none) (hs : ∀ max p, Bytes.request d ≠ some (.mapWhile max p))
    (hq : Bytes.request d ≠ none) (h : Tally d c tests e) : Pre d c tests e := by
  unfold Tally at h
  rw [hn] at h
  unfold Pre
  cases hst : d.state <;> rw [hst] at h <;> simp only at h ⊢
  case none => exact h
  case numberDone => exact h
  case stringEscape => exact h
  all_goals
    exfalso
    cases hr : Bytes.request d with
    | none => exact hq hr
    | some r =>
      cases r with
      | mapWhile max p => exact hs max p hr
      | map a b =>
        unfold Bytes.request at hr
        rw [hst] at hr
        simp only [] at hr
        first
          | cases hr
          | (rw [Option.map_eq_some_iff] at hr; obtain ⟨_, _, hr⟩ := hr; cases hr)
          | (split at hr
             · rw [Option.map_eq_some_iff] at hr; obtain ⟨_, _, hr⟩ := hr; cases hr
             · cases hr)

/-- Some bytes were tested. -/
theorem tally_scan {d : Dec} {max : Option Nat} {p : Nat → UInt8 → Bool} (hq : Bytes.request d = some (.mapWhile max p)) (hn : d.done = none)
    {c tests e n : Nat} (h : Tally d c tests e) (hi : d.idx ≤ n) :
    Tally { d with idx := n } c (tests + (n - d.idx)) e ∧ front d ≤ front { d with idx := n } := by
  unfold Tally at h ⊢
  unfold front
  rw [hn] at h ⊢
  unfold Bytes.request at hq
  cases hs : d.state <;> rw [hs] at h hq <;> simp only at h hq ⊢
  case none => cases hq
  case numberDone => cases hq
  case stringEscape =>
    rw [Option.map_eq_some_iff] at hq
    obtain ⟨_, _, hq⟩ := hq
    cases hq
  all_goals
    refine ⟨?_, by omega⟩
    repeat' apply And.intro
  all_goals first | exact h.2.2 | omega

theorem pre_scan {text : List UInt8} {d : Dec} {max : Option Nat} {p : Nat → UInt8 → Bool} (hq : Bytes.request d = some (.mapWhile max p)) (hn : d.done = none)
    (hw : Wf text d) {c tests e n : Nat} (h : Tally d c tests e) (hi : d.idx ≤ n) {f : Bool} (hf : if f then n < max.getD usizeMax else max = some n) :
    Pre { d with idx := n } c (tests + (n - d.idx) + (if f then 1 else 0)) e := by
  have hw := hw.2
  unfold Tally at h
  unfold Pre
  rw [hn] at h
  unfold Bytes.request at hq
  cases hs : d.state <;> rw [hs] at h hq hw <;> simp only at h hq hw ⊢
  case none => cases hq
  case numberDone => cases hq
  case stringEscape =>
    rw [Option.map_eq_some_iff] at hq
    obtain ⟨_, _, hq⟩ := hq
    cases hq
  case stringEscapeUnicode s =>
    rw [Option.map_eq_some_iff] at hq
    obtain ⟨mx, hmx, hq⟩ := hq
    have := Bytes.strictAdd_some hmx
    cases hq
    obtain ⟨h1, h2, h3⟩ := h
    cases f <;> simp only [if_true, Bool.false_eq_true, if_false, Option.getD_some, Option.some.injEq] at hf ⊢
    · exact ⟨h1, by omega, by omega, fun _ => by omega, h3⟩
    · exact ⟨h1, by omega, by omega, fun _ => by omega, h3⟩
  case stringEscapeUnicodeTrail s l =>
    split at hq
    · rw [Option.map_eq_some_iff] at hq
      obtain ⟨mx, hmx, hq⟩ := hq
      have := Bytes.strictAdd_some hmx
      cases hq
      obtain ⟨h1, h2, h3⟩ := h
      cases f <;> simp only [if_true, Bool.false_eq_true, if_false, Option.getD_some, Option.some.injEq] at hf ⊢
      · exact ⟨h1, by omega, by omega, fun _ => by omega, h3⟩
      · exact ⟨h1, by omega, by omega, fun _ => by omega, h3⟩
    · cases hq
  all_goals
    cases hq
    cases f <;> simp only [if_true, Bool.false_eq_true, if_false, reduceCtorEq] at hf ⊢
    repeat' apply And.intro
  all_goals first | exact h.2.2 | exact h.2.2.2 | omega

theorem state_inv {R : Reader σ} {view : σ → List UInt8} (hR : Faithful R view) (G : Growth) {st : σ} {c : Nat} {toks : List Bytes.Token} {d : Dec}
    {m : Meter} (hn : d.done = none) (hi : Inv (view st) c toks d m 1) :
    match advanceState G R st d { m with rounds := m.rounds + 1 } with
    | (d', m', .cont none) => Inv (view st) c toks d' m' 1
    | (d', m', .cont (some t)) => Inv (view st) c (toks ++ [t]) d' m' 0
    | (d', m', .brk _) => Inv (view st) c toks d' m' 0
    | (_, _, .fault) => True := by
  have hl := hR.size st
  have hu := Bytes.isize_usize _ hl
  have hw := hi.wf
  unfold Wfc at hw
  rw [hn] at hw
  unfold advanceState
  cases hq : Bytes.request d with
  | none => trivial
  | some q =>
    cases q with
    | map min max =>
      simp only []
      have := hR.map st min max
      generalize R.map st min max = r at this
      cases r with
      | fault => trivial
      | brk e =>
        obtain ⟨h1, h2, h3, h4, h5⟩ := hi
        exact ⟨h1, by show m.rounds + 1 + 0 ≤ m.calls + c + front d; omega, h3, h4, h5⟩
      | cont map =>
        exact finish_inv G hl this.1 hn (Bytes.request_map hq this.2) rfl (Nat.le_refl _) ⟨rfl, rfl, rfl, rfl⟩ hi
          fun e he => pre_idle hn (fun max p hx => (by rw [hq] at hx; cases hx)) (by rw [hq]; exact fun h => by cases h) he
    | mapWhile max p =>
      obtain ⟨w1, w2, w3, w4, w5, w6⟩ := Bytes.request_while hq hw
      simp only []
      have hs : Io.Streams (⟨fun _ => R.map st⟩ : StreamImpl Unit) (view st) := by
        intro _ min max
        have := hR.map st min max
        show match R.map st min max with | .cont m => _ | .brk _ => True | .fault => False
        generalize R.map st min max = r at this
        cases r with
        | fault => exact this
        | brk e => trivial
        | cont m => exact this
      have ht := Io.whileLoop_spec _ (view st) hs () max w3 (fun (n : Nat) i b => (n + 1, p i b)) usizeMax d.idx m.tests (by omega) w1 w2
      rw [← whileLoop_any R.toStreamImpl st] at ht
      have hcnt : ∀ l, _ := fun l => scan_count p l d.idx m.tests
      generalize hr : whileLoop R.toStreamImpl st max (fun (n : Nat) i b => (n + 1, p i b)) usizeMax d.idx m.tests = r at ht
      have hr' : Io.readMapWhile R.toStreamImpl st d.idx max (fun (n : Nat) i b => (n + 1, p i b)) m.tests usizeMax = r := hr
      rw [hr']
      obtain ⟨n, u, fl⟩ := r
      cases fl with
      | fault => trivial
      | brk e =>
        obtain ⟨h1, h2, h3, h4⟩ := ht
        simp only [] at h1 h2 h3 h4
        have hk := hcnt ((view st).drop d.idx |>.take (n - d.idx))
        rw [h4] at hk
        simp only [Bool.false_eq_true, if_false, Nat.add_zero] at hk
        obtain ⟨g1, g2, g3, g4, U, x, e, K, k1, k2, k3, k4, k5, k7, k6⟩ := hi
        obtain ⟨t1, t2⟩ := tally_scan hq hn k6 h1
        have hwf : Wfc (view st) { d with idx := n } := by
          unfold Wfc
          rw [show ({ d with idx := n } : Dec).done = none from hn]
          exact w6 n _ hl h1 h2 h3
        refine ⟨hwf, by show m.rounds + 1 + 0 ≤ m.calls + c + front { d with idx := n }; omega, g3, g4, U, x, e, K, k1, Nat.le_trans k2 (Nat.mul_le_mul_left x t2), ?_, k4, k5, k7, ?_⟩
        · exact Nat.le_trans k3 (List.Sublist.countP_le (List.IsPrefix.sublist (List.take_prefix_take_left (l := view st) t2)))
        · show Tally _ c u e
          rw [hk.1]; exact t1
      | cont map =>
        obtain ⟨h1, h2, h3, h4⟩ := ht
        simp only [] at h1 h2 h3 h4
        have hk := hcnt ((view st).drop d.idx |>.take (max.getD usizeMax - d.idx))
        have hle := h1.length_le
        rcases h4 with ⟨h4, h5⟩ | ⟨h4, h6, h5⟩
        · rw [h5] at hk
          simp only [] at hk
          refine finish_inv (d0 := d) (m0 := m) G hl h1 hn (w4 n map h3 (.inl h4)) rfl ?_ ⟨rfl, rfl, rfl, rfl⟩ hi fun e he => ?_
          · obtain ⟨g1, g2, g3, g4, U, x, e, K, k1, k2, k3, k4, k5, k7, k6⟩ := hi
            exact (tally_scan hq hn k6 h3).2
          · show Pre _ c u e
            rw [hk.1]
            exact pre_scan (f := true) hq hn hw he h3 (by show n < _; omega)
        · rw [h5] at hk
          simp only [] at hk
          have hmx : max = some n := by
            cases max with
            | none => simp only [Option.getD_none] at h6; omega
            | some x => simp only [Option.getD_some] at h4; rw [h4]
          refine finish_inv (d0 := d) (m0 := m) G hl h1 hn (w4 n map h3 (.inr ⟨by omega, hmx⟩)) rfl ?_ ⟨rfl, rfl, rfl, rfl⟩ hi fun e he => ?_
          · obtain ⟨g1, g2, g3, g4, U, x, e, K, k1, k2, k3, k4, k5, k7, k6⟩ := hi
            exact (tally_scan hq hn k6 h3).2
          · show Pre _ c u e
            rw [hk.1, ← h4]
            exact pre_scan (f := false) hq hn hw he h3 (by exact hmx)

theorem clear_inv {text : List UInt8} {c n : Nat} {toks : List Bytes.Token} {d : Dec} {m : Meter} (hd : d.done = some n) (hi : Inv text c toks d m 1) :
    Inv (text.drop n) (c + n) toks { d with done := none, state := .none, accStr := [] } { m with cap := shrunk m.cap 0 4096 } 1 := by
  obtain ⟨g1, g2, g3, g4, U, x, e, K, k1, k2, k3, k4, k5, k7, k6⟩ := hi
  unfold Wfc at g1
  unfold front at g2 k2
  unfold Tally at k6
  rw [hd] at g1 g2 k2 k6
  simp only at g1 g2 k2 k6
  refine ⟨⟨by rw [List.length_drop]; omega, trivial⟩, by show m.rounds + 1 ≤ m.calls + (c + n) + 0; omega, Nat.zero_le _, ?_,
    U + x, 0, 0, m.copied, k1, Nat.zero_le _, Nat.zero_le _, rfl, ?_, ?_, by show m.tests ≤ 2 * (c + n); omega, rfl⟩
  · show shrunk m.cap 0 4096 ≤ _
    unfold shrunk
    split <;> omega
  · obtain ⟨-, -, k8⟩ := k6
    simp only [Nat.add_mul, Nat.mul_add, Nat.mul_assoc] at k5 ⊢
    omega
  · have : controls (text.take (front d)) ≤ (text.take (front d)).length := List.countP_le_length
    rw [List.length_take] at this
    have hf : front d = n := by unfold front; rw [hd]
    omega

theorem advance_inv {R : Reader σ} {view : σ → List UInt8} (hR : Faithful R view) (G : Growth) {toks : List Bytes.Token} : ∀ (fuel : Nat) (st : σ) (d : Dec)
    (m : Meter) (c : Nat), Inv (view st) c toks d m 1 →
    match advance G R fuel st d m with
    | (st', d', m', .cont t) => ∃ c', c' + (view st').length = c + (view st).length ∧ Inv (view st') c' (toks ++ [t]) d' m' 0
    | (st', d', m', .brk _) => ∃ c', c' + (view st').length = c + (view st).length ∧ Inv (view st') c' toks d' m' 0
    | (_, _, _, .fault) => True
  | 0, st, d, m, c, hi => trivial
  | fuel + 1, st, d, m, c, hi => by
    have key : ∀ (st1 : σ) (d1 : Dec) (m1 : Meter) (c1 : Nat), c1 + (view st1).length = c + (view st).length → d1.done = none →
        Inv (view st1) c1 toks d1 m1 1 → advanceInner G R st d { m with rounds := m.rounds + 1 }
          = (st1, advanceState G R st1 d1 { m1 with rounds := m1.rounds + 1 }) →
        match advance G R (fuel + 1) st d m with
        | (st', d', m', .cont t) => ∃ c', c' + (view st').length = c + (view st).length ∧ Inv (view st') c' (toks ++ [t]) d' m' 0
        | (st', d', m', .brk _) => ∃ c', c' + (view st').length = c + (view st).length ∧ Inv (view st') c' toks d' m' 0
        | (_, _, _, .fault) => True := by
      intro st1 d1 m1 c1 hc hn hi1 he
      have hs := state_inv hR G hn hi1
      unfold advance
      rw [he]
      generalize advanceState G R st1 d1 { m1 with rounds := m1.rounds + 1 } = r at hs
      obtain ⟨d', m', fl⟩ := r
      rcases fl with (- | t) | e | -
      · have := advance_inv hR G fuel st1 d' m' c1 hs
        simp only []
        generalize advance G R fuel st1 d' m' = r at this
        obtain ⟨st2, d2, m2, fl⟩ := r
        cases fl with
        | cont t => obtain ⟨c', h1, h2⟩ := this; exact ⟨c', by omega, h2⟩
        | brk e => obtain ⟨c', h1, h2⟩ := this; exact ⟨c', by omega, h2⟩
        | fault => trivial
      · exact ⟨c1, hc, hs⟩
      · exact ⟨c1, hc, hs⟩
      · trivial
    cases hd : d.done with
    | none =>
      refine key st d m c rfl hd hi ?_
      unfold advanceInner clearDone
      rw [hd]
    | some n =>
      have hw := hi.wf
      unfold Wfc at hw
      rw [hd] at hw
      obtain ⟨st', ha, hv⟩ := hR.advance st n hw.1
      refine key st' { d with done := none, state := .none, accStr := [] } { m with cap := shrunk m.cap 0 4096 } (c + n) ?_ rfl ?_ ?_
      · rw [hv, List.length_drop]
        have := hw.1
        omega
      · rw [hv]; exact clear_inv hd hi
      · unfold advanceInner clearDone
        simp only [hd, ha, Option.map_some]

theorem life_inv {R : Reader σ} {view : σ → List UInt8} (hR : Faithful R view) {G : Growth} {fed : List UInt8} {toks : List Bytes.Token} {w : Bool} {st : σ}
    {d : Dec} {m : Meter} (h : Life G R view fed toks w st d m) : ∃ c, c + (view st).length = fed.length ∧ Inv (view st) c toks d m 0 := by
  induction h with
  | start st =>
    exact ⟨0, Nat.zero_add _, ⟨hR.size st, trivial⟩, Nat.zero_le _, Nat.zero_le _, Nat.zero_le _, 0, 0, 0, 0, rfl, Nat.zero_le _, Nat.zero_le _, rfl,
      Nat.zero_le _, Nat.zero_le _, Nat.zero_le _, rfl⟩
  | @arrive fed toks w st st' d m b h hb ih =>
    obtain ⟨c, hc, hi⟩ := ih
    refine ⟨c, by rw [hb, List.length_append, List.length_append]; omega, ?_⟩
    have hsz := hR.size st'
    rw [hb] at hsz ⊢
    have hf := front_le hi.wf
    obtain ⟨g1, g2, g3, g4, U, x, e, K, k1, k2, k3, k4, k5, k7, k6⟩ := hi
    refine ⟨?_, g2, g3, g4, U, x, e, K, k1, k2, by rw [List.take_append_of_le_length hf]; exact k3, k4, k5, k7, k6⟩
    rw [List.length_append] at hsz
    unfold Wfc Wf at g1 ⊢
    rw [List.length_append]
    split at g1 <;> rename_i hd
    · refine ⟨hsz, ?_⟩
      obtain ⟨-, g1⟩ := g1
      split at g1
      · trivial
      · exact ⟨by omega, g1.2⟩
      · exact ⟨by omega, g1.2⟩
      · exact (by omega : d.idx ≤ (view st).length + b.length)
    · exact ⟨by omega, by omega⟩
  | @token fed toks w st st' d d' m m' t h hp ih =>
    obtain ⟨c, hc, hi⟩ := ih
    have := advance_inv hR G (4 * usizeMax) st d { m with calls := m.calls + 1 } c
      ⟨hi.wf, by show m.rounds + 1 ≤ m.calls + 1 + c + front d; have := hi.round; omega, hi.enough, hi.cap, hi.rest⟩
    rw [← pop, hp] at this
    obtain ⟨c', h1, h2⟩ := this
    exact ⟨c', by omega, h2⟩
  | @more fed toks w st st' d d' m m' e h hp ih =>
    obtain ⟨c, hc, hi⟩ := ih
    have := advance_inv hR G (4 * usizeMax) st d { m with calls := m.calls + 1 } c
      ⟨hi.wf, by show m.rounds + 1 ≤ m.calls + 1 + c + front d; have := hi.round; omega, hi.enough, hi.cap, hi.rest⟩
    rw [← pop, hp] at this
    obtain ⟨c', h1, h2⟩ := this
    exact ⟨c', by omega, h2⟩

end Verif.Json.Work
