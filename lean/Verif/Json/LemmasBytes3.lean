import Verif.Json.LemmasBytes2
/-! # The streaming JSON tokenizer on a text: reading tokens until there is no more text -/
namespace Verif.Json.Bytes
open Verif.Io (usizeMax More SFlow StreamImpl WhileOut scan whileLoop)
variable {σ : Type}

def clear (text : List UInt8) (d : Dec) : List UInt8 × Dec :=
  match d.done with
  | none => (text, d)
  | some n => (text.drop n, ⟨.none, d.idx, none, []⟩)

def inner (text : List UInt8) (d : Dec) : List UInt8 × Dec × Out := ((clear text d).1, pureStep (clear text d).1 (clear text d).2)

def Wfc (text : List UInt8) (d : Dec) : Prop :=
  match d.done with
  | none => Wf text d
  | some n => n ≤ text.length ∧ text.length ≤ isizeMax

/-- The tokens up to the end of the first lexeme or the end of the text, within a number of rounds, and what is left then. -/
inductive Drain : Nat → List UInt8 → Dec → List Token → List UInt8 → Dec → Prop
  | wait {k : Nat} {text t1 : List UInt8} {d d1 : Dec} (hw : Wfc text d) (h : inner text d = (t1, d1, .wait)) (hn : d.done = none := by rfl) :
      Drain k text d [] t1 d1
  | quiet {k : Nat} {text t1 tf : List UInt8} {d d1 df : Dec} {toks : List Token} (hw : Wfc text d) (h : inner text d = (t1, d1, .quiet))
      (hd : Drain k t1 d1 toks tf df) (hn : d.done = none := by rfl) (hq : d1.done = none := by rfl) : Drain (k + 1) text d toks tf df
  | tell {k : Nat} {text t1 tf : List UInt8} {d d1 df : Dec} {toks : List Token} {t : Token} (hw : Wfc text d)
      (h : inner text d = (t1, d1, .tell t)) (hd : Drain k t1 d1 toks tf df) (hn : d.done = none := by rfl) : Drain (k + 1) text d (t :: toks) tf df
  | stop {k n : Nat} {text : List UInt8} {d : Dec} (hw : Wfc text d) (hd : d.done = some n) : Drain k text d [] (text.drop n) d

theorem Drain.mono {k : Nat} {text tf : List UInt8} {d df : Dec} {toks : List Token} (h : Drain k text d toks tf df) :
    ∀ {k' : Nat}, k ≤ k' → Drain k' text d toks tf df := by
  induction h with
  | wait hw h hn => intro k' _; exact .wait hw h hn
  | quiet hw h hd hn hq ih =>
    intro k' hk
    obtain ⟨j, rfl⟩ : ∃ j, k' = j + 1 := ⟨k' - 1, by omega⟩
    exact .quiet hw h (ih (by omega)) hn hq
  | tell hw h hd hn ih =>
    intro k' hk
    obtain ⟨j, rfl⟩ : ∃ j, k' = j + 1 := ⟨k' - 1, by omega⟩
    exact .tell hw h (ih (by omega)) hn
  | stop hw hd => intro k' _; exact .stop hw hd

theorem Drain.wf {k : Nat} {text tf : List UInt8} {d df : Dec} {toks : List Token} (h : Drain k text d toks tf df) : Wfc text d := by
  cases h <;> assumption

theorem Drain.skip {k : Nat} {text text' tf : List UInt8} {d d' df : Dec} {toks : List Token} (h : Drain k text d toks tf df)
    (hw : Wfc text' d') (he : inner text' d' = inner text d) (hn : d'.done = none) (hn' : d.done = none) : Drain k text' d' toks tf df := by
  cases h with
  | wait _ h => exact .wait hw (he.trans h) hn
  | quiet _ h hd _ hq => exact .quiet hw (he.trans h) hd hn hq
  | tell _ h hd => exact .tell hw (he.trans h) hd hn
  | stop _ hd => rw [hn'] at hd; cases hd

theorem Drain.unique {k : Nat} {text tf : List UInt8} {d df : Dec} {toks : List Token} (h : Drain k text d toks tf df) :
    ∀ {k' : Nat} {tf' : List UInt8} {df' : Dec} {toks' : List Token}, Drain k' text d toks' tf' df' → toks' = toks ∧ tf' = tf ∧ df' = df := by
  induction h with
  | wait hw h hn =>
    intro k' tf' df' toks' h'
    cases h' with
    | wait _ h2 => rw [h] at h2; cases h2; exact ⟨rfl, rfl, rfl⟩
    | quiet _ h2 _ => rw [h] at h2; cases h2
    | tell _ h2 _ => rw [h] at h2; cases h2
    | stop _ h2 => rw [hn] at h2; cases h2
  | quiet hw h hd hn hq ih =>
    intro k' tf' df' toks' h'
    cases h' with
    | wait _ h2 => rw [h] at h2; cases h2
    | quiet _ h2 hd2 => rw [h] at h2; cases h2; exact ih hd2
    | tell _ h2 _ => rw [h] at h2; cases h2
    | stop _ h2 => rw [hn] at h2; cases h2
  | tell hw h hd hn ih =>
    intro k' tf' df' toks' h'
    cases h' with
    | wait _ h2 => rw [h] at h2; cases h2
    | quiet _ h2 _ => rw [h] at h2; cases h2
    | tell _ h2 hd2 =>
      rw [h] at h2; cases h2
      obtain ⟨rfl, rfl, rfl⟩ := ih hd2
      exact ⟨rfl, rfl, rfl⟩
    | stop _ h2 => rw [hn] at h2; cases h2
  | stop hw hd =>
    intro k' tf' df' toks' h'
    cases h' with
    | wait _ _ hn => rw [hn] at hd; cases hd
    | quiet _ _ _ hn => rw [hn] at hd; cases hd
    | tell _ _ _ hn => rw [hn] at hd; cases hd
    | stop _ h2 => rw [hd] at h2; cases h2; exact ⟨rfl, rfl, rfl⟩

theorem inner_eq {R : Reader σ} {view : σ → List UInt8} (hR : Faithful R view) (st : σ) (d : Dec) (hw : Wfc (view st) d) :
    ∃ st' d' fl, advanceInner R st d = (st', d', fl) ∧ (view st', d', outOf fl) = inner (view st) d := by
  obtain ⟨s, i, dn, acc⟩ := d
  cases dn with
  | none =>
    refine ⟨st, _, _, rfl, ?_⟩
    have := step_eq hR st _ hw
    exact congrArg (Prod.mk (view st)) this
  | some n =>
    obtain ⟨h1, h2⟩ := hw
    obtain ⟨st', ha, hv⟩ := hR.advance st n h1
    have hw' : Wf (view st') ⟨.none, i, none, []⟩ := ⟨hR.size st', trivial⟩
    refine ⟨st', (advanceState R st' ⟨.none, i, none, []⟩).1, (advanceState R st' ⟨.none, i, none, []⟩).2, ?_, ?_⟩
    · show advanceInner R st ⟨s, i, some n, acc⟩ = (st', advanceState R st' ⟨.none, i, none, []⟩)
      unfold advanceInner clearDone
      simp only []
      rw [ha]; rfl
    · have := step_eq hR st' _ hw'
      show (view st', _) = ((view st).drop n, pureStep ((view st).drop n) _)
      rw [← hv]
      exact congrArg (Prod.mk (view st')) this

theorem inner_more {text b t1 : List UInt8} {d d1 : Dec} {o : Out} (hw : Wfc text d) (h : inner text d = (t1, d1, o))
    (hb : (text ++ b).length ≤ isizeMax) :
    (o ≠ .wait → inner (text ++ b) d = (t1 ++ b, d1, o))
    ∧ (o = .wait → inner (text ++ b) d = inner (t1 ++ b) d1 ∧ Wfc (t1 ++ b) d1) := by
  have key : ∀ (text : List UInt8) (d : Dec), d.done = none → Wf text d → (text ++ b).length ≤ isizeMax → pureStep text d = (d1, o) →
      (o ≠ .wait → pureStep (text ++ b) d = (d1, o)) ∧ (o = .wait → (text ++ b, pureStep (text ++ b) d) = inner (text ++ b) d1 ∧ Wfc (text ++ b) d1) := by
    intro text d hd hw hb h
    obtain ⟨h1, h2⟩ := pureStep_more hw h hb
    refine ⟨h1, fun ho => ?_⟩
    obtain ⟨h3, h4, h5⟩ := h2 ho
    rw [hd] at h4
    refine ⟨?_, ?_⟩
    · unfold inner clear
      rw [h4, h3]
    · unfold Wfc
      rw [h4]; exact h5
  obtain ⟨s, i, dn, acc⟩ := d
  cases dn with
  | none =>
    have he : (text, pureStep text ⟨s, i, none, acc⟩) = (t1, d1, o) := h
    rw [Prod.mk.injEq] at he
    obtain ⟨rfl, he⟩ := he
    obtain ⟨h1, h2⟩ := key _ _ rfl hw hb he
    refine ⟨fun ho => ?_, fun ho => h2 ho⟩
    show (_, pureStep (text ++ b) ⟨s, i, none, acc⟩) = _
    rw [h1 ho]; rfl
  | some n =>
    obtain ⟨hn, hl⟩ := hw
    have he : (text.drop n, pureStep (text.drop n) ⟨.none, i, none, []⟩) = (t1, d1, o) := h
    rw [Prod.mk.injEq] at he
    obtain ⟨rfl, he⟩ := he
    have hdr : (text ++ b).drop n = text.drop n ++ b := List.drop_append_of_le_length hn
    have hb' : (text.drop n ++ b).length ≤ isizeMax := by
      rw [← hdr, List.length_drop]; omega
    obtain ⟨h1, h2⟩ := key (text.drop n) ⟨.none, i, none, []⟩ rfl ⟨by rw [List.length_drop]; omega, trivial⟩ hb' he
    constructor
    · intro ho
      show ((text ++ b).drop n, pureStep ((text ++ b).drop n) ⟨.none, i, none, []⟩) = _
      rw [hdr, h1 ho]
    · intro ho
      show ((text ++ b).drop n, pureStep ((text ++ b).drop n) ⟨.none, i, none, []⟩) = _ ∧ _
      rw [hdr]; exact h2 ho

theorem drain_quiet {k : Nat} {text t1 tf : List UInt8} {d d1 df : Dec} {toks : List Token} (h : inner text d = (t1, d1, .quiet))
    (hn : d.done = none) (hd : Drain k text d toks tf df) : Drain k t1 d1 toks tf df := by
  cases hd with
  | wait _ h2 => rw [h] at h2; cases h2
  | quiet _ h2 hd2 => rw [h] at h2; cases h2; exact hd2.mono (by omega)
  | tell _ h2 _ => rw [h] at h2; cases h2
  | stop _ h2 => rw [hn] at h2; cases h2

theorem drain_tell {k : Nat} {text t1 tf : List UInt8} {d d1 df : Dec} {toks : List Token} {t : Token} (h : inner text d = (t1, d1, .tell t))
    (hn : d.done = none) (hd : Drain k text d toks tf df) : ∃ r, toks = t :: r ∧ Drain k t1 d1 r tf df := by
  cases hd with
  | wait _ h2 => rw [h] at h2; cases h2
  | quiet _ h2 _ => rw [h] at h2; cases h2
  | tell _ h2 hd2 => rw [h] at h2; cases h2; exact ⟨_, rfl, hd2.mono (by omega)⟩
  | stop _ h2 => rw [hn] at h2; cases h2

theorem inner_text {text t1 : List UInt8} {d d1 : Dec} {o : Out} (hn : d.done = none) (h : inner text d = (t1, d1, o)) : t1 = text := by
  unfold inner clear at h
  rw [hn, Prod.mk.injEq] at h
  exact h.1.symm

theorem wait_done {text t1 : List UInt8} {d d1 : Dec} (hw : Wfc text d) (hn : d.done = none) (h : inner text d = (t1, d1, .wait)) : d1.done = none := by
  unfold Wfc at hw
  rw [hn] at hw
  unfold inner clear at h
  rw [hn] at h
  rw [Prod.mk.injEq] at h
  obtain ⟨-, h2⟩ := pureStep_more (b := []) hw h.2 (by rw [List.append_nil]; exact hw.1)
  rw [(h2 rfl).2.1]; exact hn

/-- `pop` within a lexeme on any stream, compared to the text with more text after it. -/
theorem advance_spec {R : Reader σ} {view : σ → List UInt8} (hR : Faithful R view) {k : Nat} {text tf : List UInt8} {d df : Dec} {toks : List Token}
    (h : Drain k text d toks tf df) : d.done = none → ∀ (fuel : Nat) (st : σ), view st = text → k < fuel →
      ∃ st' d' fl, advance R fuel st d = (st', d', fl) ∧ view st' = text ∧
      match fl with
      | .fault => False
      | .brk _ => toks = [] ∧ tf = text ∧ d' = df ∧ d'.done = none ∧ ∀ b, (text ++ b).length ≤ isizeMax → ∀ k2 toks2 tf2 df2,
          Drain k2 (text ++ b) d toks2 tf2 df2 → Drain k2 (text ++ b) d' toks2 tf2 df2
      | .cont t => ∃ r, toks = t :: r ∧ ∀ b, (text ++ b).length ≤ isizeMax → ∀ k2 toks2 tf2 df2,
          Drain k2 (text ++ b) d toks2 tf2 df2 → ∃ r2, toks2 = t :: r2 ∧ Drain k2 (text ++ b) d' r2 tf2 df2 := by
  induction h with
  | @wait k text t1 d d1 hw h hn =>
    rintro - fuel st rfl hk
    obtain ⟨f, rfl⟩ : ∃ f, fuel = f + 1 := ⟨fuel - 1, by omega⟩
    obtain ⟨st', d', fl, ha, he⟩ := inner_eq hR st d hw
    rw [h, Prod.mk.injEq, Prod.mk.injEq] at he
    obtain ⟨e1, rfl, e3⟩ := he
    have et := inner_text hn h
    have hn1 := wait_done hw hn h
    subst et
    rcases fl with (- | t) | e | -
    · cases e3
    · cases e3
    · refine ⟨st', d', .brk e, by simp only [advance, ha], e1, rfl, rfl, rfl, hn1, ?_⟩
      intro b hb k2 toks2 tf2 df2 hd2
      obtain ⟨-, h2⟩ := inner_more hw h hb
      obtain ⟨h3, h4⟩ := h2 rfl
      exact hd2.skip h4 h3.symm hn1 hn
    · cases e3
  | @quiet k text t1 tf d d1 df toks hw h hd hn hq ih =>
    rintro - fuel st rfl hk
    obtain ⟨f, rfl⟩ : ∃ f, fuel = f + 1 := ⟨fuel - 1, by omega⟩
    obtain ⟨st1, d', fl, ha, he⟩ := inner_eq hR st d hw
    rw [h, Prod.mk.injEq, Prod.mk.injEq] at he
    obtain ⟨e1, rfl, e3⟩ := he
    have et := inner_text hn h
    subst et
    rcases fl with (- | t) | e | -
    · obtain ⟨st', d2, fl, ha2, hv, hm⟩ := ih hq f st1 e1 (by omega)
      refine ⟨st', d2, fl, by simp only [advance, ha]; exact ha2, hv, ?_⟩
      have hmore : ∀ b, (view st ++ b).length ≤ isizeMax → ∀ k2 toks2 tf2 df2, Drain k2 (view st ++ b) d toks2 tf2 df2 →
          Drain k2 (view st ++ b) d' toks2 tf2 df2 := by
        intro b hb k2 toks2 tf2 df2 hd2
        obtain ⟨h2, -⟩ := inner_more hw h hb
        exact drain_quiet (h2 (by simp)) hn hd2
      cases fl with
      | fault => exact hm
      | brk e =>
        obtain ⟨m1, m2, m3, m5, m4⟩ := hm
        exact ⟨m1, m2, m3, m5, fun b hb k2 toks2 tf2 df2 hd2 => m4 b hb k2 toks2 tf2 df2 (hmore b hb k2 toks2 tf2 df2 hd2)⟩
      | cont t =>
        obtain ⟨r, m1, m4⟩ := hm
        exact ⟨r, m1, fun b hb k2 toks2 tf2 df2 hd2 => m4 b hb k2 toks2 tf2 df2 (hmore b hb k2 toks2 tf2 df2 hd2)⟩
    · cases e3
    · cases e3
    · cases e3
  | @tell k text t1 tf d d1 df toks t hw h hd hn ih =>
    rintro - fuel st rfl hk
    obtain ⟨f, rfl⟩ : ∃ f, fuel = f + 1 := ⟨fuel - 1, by omega⟩
    obtain ⟨st1, d', fl, ha, he⟩ := inner_eq hR st d hw
    rw [h, Prod.mk.injEq, Prod.mk.injEq] at he
    obtain ⟨e1, rfl, e3⟩ := he
    have et := inner_text hn h
    subst et
    rcases fl with (- | t') | e | -
    · cases e3
    · cases e3
      refine ⟨st1, d', .cont t, by simp only [advance, ha], e1, toks, rfl, ?_⟩
      intro b hb k2 toks2 tf2 df2 hd2
      obtain ⟨h2, -⟩ := inner_more hw h hb
      exact drain_tell (h2 (by simp)) hn hd2
    · cases e3
    · cases e3
  | stop hw hd => intro hn; rw [hn] at hd; cases hd

end Verif.Json.Bytes
