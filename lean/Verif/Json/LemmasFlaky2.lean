import Verif.Json.LemmasFlaky
import Verif.Json.PropsDecode
/-! # Histories on streams that panic -/
namespace Verif.Json.Bytes
open Verif.Io (usizeMax)
variable {σ : Type}

theorem innerU_none {R : ReaderU σ} {st : σ} {d : Dec} (h : d.done = none) : advanceInnerU R st d = advanceStateU R st d := by
  unfold advanceInnerU clearDoneU
  rw [h]

/-- What follows on a text is the same for both states. -/
def Same (text : List UInt8) (d d' : Dec) : Prop := ∀ b, (text ++ b).length ≤ isizeMax → ∀ k toks tf df,
  Drain k (text ++ b) d toks tf df → Drain k (text ++ b) d' toks tf df

/-- `pop` within a lexeme, cf. `advance_spec`. -/
theorem advance_flaky {R : ReaderU σ} {view : σ → List UInt8} (hR : Flaky R view) {k : Nat} {text tf : List UInt8} {d df : Dec} {toks : List Token}
    (h : Drain k text d toks tf df) : d.done = none → ∀ (fuel : Nat) (st : σ), view st = text → k < fuel →
      ∃ st' d' fl, advanceU R fuel st d = (st', d', fl) ∧ view st' = text ∧
      match fl with
      | .fault => False
      | .unwound => d'.done = none ∧ Same text d d'
      | .brk _ => toks = [] ∧ tf = text ∧ d' = df ∧ d'.done = none ∧ Same text d d'
      | .cont t => ∃ r, toks = t :: r ∧ ∀ b, (text ++ b).length ≤ isizeMax → ∀ k2 toks2 tf2 df2,
          Drain k2 (text ++ b) d toks2 tf2 df2 → ∃ r2, toks2 = t :: r2 ∧ Drain k2 (text ++ b) d' r2 tf2 df2 := by
  have quit : ∀ (text : List UInt8) (d d' : Dec), d.done = none → d'.done = d.done →
      (∀ b, (text ++ b).length ≤ isizeMax → Wf (text ++ b) d' ∧ pureStep (text ++ b) d' = pureStep (text ++ b) d) → d'.done = none ∧ Same text d d' := by
    intro text d d' hn hd hs
    have hn' := hd.trans hn
    refine ⟨hn', fun b hb k toks tf df hdr => ?_⟩
    obtain ⟨h1, h2⟩ := hs b hb
    refine hdr.skip (by unfold Wfc; rw [hn']; exact h1) ?_ hn' hn
    rw [inner_none hn, inner_none hn', h2]
  have step : ∀ (st : σ) (d : Dec), Wfc (view st) d → d.done = none → ∃ st' d' fl, advanceInnerU R st d = (st', d', fl) ∧ view st' = view st ∧
      match outU fl with
      | some o => inner (view st) d = (view st, d', o)
      | none => d'.done = none ∧ Same (view st) d d' := by
    intro st d hw hn
    unfold Wfc at hw
    rw [hn] at hw
    obtain ⟨st', d', fl, e1, e2, e3⟩ := step_flaky hR st d hw
    refine ⟨st', d', fl, by rw [innerU_none hn, e1], e2, ?_⟩
    cases ho : outU fl with
    | none =>
      rw [ho] at e3
      exact quit _ d d' hn e3.1 e3.2
    | some o =>
      rw [ho] at e3
      simp only [] at e3 ⊢
      rw [inner_none hn, e3]
  induction h with
  | @wait k text t1 d d1 hw h hn =>
    rintro - fuel st rfl hk
    obtain ⟨f, rfl⟩ : ∃ f, fuel = f + 1 := ⟨fuel - 1, by omega⟩
    obtain ⟨st', d', fl, ha, hv, he⟩ := step st d hw hn
    have et := inner_text hn h
    have hn1 := wait_done hw hn h
    subst et
    rcases fl with (- | t) | e | - | -
    · simp only [outU] at he; rw [h] at he; cases he
    · simp only [outU] at he; rw [h] at he; cases he
    · simp only [outU] at he
      rw [h] at he
      cases he
      refine ⟨st', d1, .brk e, by simp only [advanceU, ha], hv, rfl, rfl, rfl, hn1, ?_⟩
      intro b hb k2 toks2 tf2 df2 hd2
      obtain ⟨-, h2⟩ := inner_more hw h hb
      obtain ⟨h3, h4⟩ := h2 rfl
      exact hd2.skip h4 h3.symm hn1 hn
    · simp only [outU] at he; rw [h] at he; cases he
    · exact ⟨st', d', .unwound, by simp only [advanceU, ha], hv, he⟩
  | @quiet k text t1 tf d d1 df toks hw h hd hn hq ih =>
    rintro - fuel st rfl hk
    obtain ⟨f, rfl⟩ : ∃ f, fuel = f + 1 := ⟨fuel - 1, by omega⟩
    obtain ⟨st1, d', fl, ha, hv1, he⟩ := step st d hw hn
    have et := inner_text hn h
    subst et
    rcases fl with (- | t) | e | - | -
    · simp only [outU] at he
      rw [h] at he
      cases he
      obtain ⟨st', d2, fl, ha2, hv, hm⟩ := ih hq f st1 hv1 (by omega)
      refine ⟨st', d2, fl, by simp only [advanceU, ha]; exact ha2, hv, ?_⟩
      have hmore : Same (view st) d d1 := by
        intro b hb k2 toks2 tf2 df2 hd2
        obtain ⟨h2, -⟩ := inner_more hw h hb
        exact drain_quiet (h2 (by simp)) hn hd2
      cases fl with
      | fault => exact hm
      | unwound => exact ⟨hm.1, fun b hb k2 toks2 tf2 df2 hd2 => hm.2 b hb k2 toks2 tf2 df2 (hmore b hb k2 toks2 tf2 df2 hd2)⟩
      | brk e =>
        obtain ⟨m1, m2, m3, m5, m4⟩ := hm
        exact ⟨m1, m2, m3, m5, fun b hb k2 toks2 tf2 df2 hd2 => m4 b hb k2 toks2 tf2 df2 (hmore b hb k2 toks2 tf2 df2 hd2)⟩
      | cont t =>
        obtain ⟨r, m1, m4⟩ := hm
        exact ⟨r, m1, fun b hb k2 toks2 tf2 df2 hd2 => m4 b hb k2 toks2 tf2 df2 (hmore b hb k2 toks2 tf2 df2 hd2)⟩
    · simp only [outU] at he; rw [h] at he; cases he
    · simp only [outU] at he; rw [h] at he; cases he
    · simp only [outU] at he; rw [h] at he; cases he
    · exact ⟨st1, d', .unwound, by simp only [advanceU, ha], hv1, he⟩
  | @tell k text t1 tf d d1 df toks t hw h hd hn ih =>
    rintro - fuel st rfl hk
    obtain ⟨f, rfl⟩ : ∃ f, fuel = f + 1 := ⟨fuel - 1, by omega⟩
    obtain ⟨st1, d', fl, ha, hv1, he⟩ := step st d hw hn
    have et := inner_text hn h
    subst et
    rcases fl with (- | t') | e | - | -
    · simp only [outU] at he; rw [h] at he; cases he
    · simp only [outU] at he
      rw [h] at he
      cases he
      refine ⟨st1, d1, .cont t, by simp only [advanceU, ha], hv1, toks, rfl, ?_⟩
      intro b hb k2 toks2 tf2 df2 hd2
      obtain ⟨h2, -⟩ := inner_more hw h hb
      exact drain_tell (h2 (by simp)) hn hd2
    · simp only [outU] at he; rw [h] at he; cases he
    · simp only [outU] at he; rw [h] at he; cases he
    · exact ⟨st1, d', .unwound, by simp only [advanceU, ha], hv1, he⟩
  | stop hw hd => intro hn; rw [hn] at hd; cases hd

/-- What is known of a tokenizer does not depend on the stream. -/
theorem known_slice {view : σ → List UInt8} {fed : List UInt8} {toks : List Token} {w : Bool} {st : σ} {d : Dec} (hl : (view st).length ≤ isizeMax) :
    Known view fed toks w st d ↔ Known (fun x : { l : List UInt8 // l.length ≤ isizeMax } => x.1) fed toks w ⟨view st, hl⟩ d := Iff.rfl

theorem known_view {σ' : Type} {view : σ → List UInt8} {view' : σ' → List UInt8} {fed : List UInt8} {toks : List Token} {w : Bool} {st : σ} {st' : σ'} {d : Dec}
    (hv : view' st' = view st) (h : Known view fed toks w st d) : Known view' fed toks w st' d := by
  unfold Known at h ⊢
  rw [hv]; exact h

/-- After a lexeme the next one starts. -/
theorem known_dropped {view : σ → List UInt8} (hz : ∀ st, (view st).length ≤ isizeMax) {fed : List UInt8} {toks : List Token} {w : Bool} {st : σ} {d : Dec}
    (h : Known view fed toks w st d) {n : Nat} (hn : d.done = some n) : n ≤ (view st).length ∧
      ∀ st1, view st1 = (view st).drop n → Known view fed toks false st1 (start d.idx) := by
  obtain ⟨st1, hc, hk⟩ := known_clear slices_faithful ((known_slice (hz st)).mp h) hn
  unfold clearDone at hc
  rw [hn] at hc
  simp only [Option.map_eq_some_iff] at hc
  obtain ⟨a, ha, hb⟩ := hc
  have ha : (if h : n ≤ (view st).length then some _ else none) = some a := ha
  split at ha
  · rename_i hle
    cases ha
    cases hb
    exact ⟨hle, fun st1 hv => known_view (view' := view) hv hk⟩
  · cases ha

theorem popU_clear {R : ReaderU σ} {st st1 : σ} {d d1 : Dec} (h : clearDoneU R st d = (st1, d1, false)) (h1 : d1.done = none) : popU R st d = popU R st1 d1 := by
  have hi : advanceInnerU R st d = advanceInnerU R st1 d1 := by
    rw [innerU_none h1]
    unfold advanceInnerU
    rw [h]
  unfold popU
  obtain ⟨f, hf⟩ : ∃ f, 4 * usizeMax = f + 1 := ⟨4 * usizeMax - 1, by have := isizeMax_lt; omega⟩
  rw [hf]
  unfold advanceU
  rw [hi]

theorem popU_unwound {R : ReaderU σ} {st st1 : σ} {d d1 : Dec} (h : clearDoneU R st d = (st1, d1, true)) : popU R st d = (st1, d1, .unwound) := by
  unfold popU
  obtain ⟨f, hf⟩ : ∃ f, 4 * usizeMax = f + 1 := ⟨4 * usizeMax - 1, by have := isizeMax_lt; omega⟩
  rw [hf]
  unfold advanceU advanceInnerU
  rw [h]

/-- `pop` after a history. -/
theorem known_popU {R : ReaderU σ} {view : σ → List UInt8} (hR : Flaky R view) {fed : List UInt8} {toks : List Token} {w : Bool} {st : σ} {d : Dec}
    (h : Known view fed toks w st d) : ∃ st' d' fl, popU R st d = (st', d', fl) ∧
      match fl with
      | .fault => False
      | .unwound => (Dropped (view st) (view st') d ∧ Known view fed toks false st' d') ∨ (Kept (view st) (view st') d ∧ d' = start d.idx)
      | .brk _ => Known view fed toks true st' d'
      | .cont t => Known view fed (toks ++ [t]) false st' d' := by
  have main : ∀ {w : Bool} {st : σ} {d : Dec}, Known view fed toks w st d → d.done = none → ∃ st' d' fl, popU R st d = (st', d', fl) ∧
      match fl with
      | .fault => False
      | .unwound => view st' = view st ∧ Known view fed toks false st' d'
      | .brk _ => Known view fed toks true st' d'
      | .cont t => Known view fed (toks ++ [t]) false st' d' := by
    intro w st d h hn
    obtain ⟨ls, c, toks', i, h1, h2, h3, h4, -⟩ := h
    obtain ⟨all, tf, df, hd, hcase⟩ := first_drain (view st) (hR.size st) i
    obtain ⟨r, e1, e2⟩ := h4 [] (by rw [List.append_nil]; exact hR.size st) _ all tf df (by rwa [List.append_nil])
    rw [List.append_nil] at e2
    have := isizeMax_lt
    have := hR.size st
    obtain ⟨st', d', fl, ha, hv, hm⟩ := advance_flaky hR e2 hn (4 * usizeMax) st rfl (by omega)
    refine ⟨st', d', fl, ha, ?_⟩
    have loc : Same (view st) d d' → Loc (view st') i toks' d' := by
      intro hs b hb k all tf df hd
      rw [hv] at hb hd ⊢
      obtain ⟨r, f1, f2⟩ := h4 b hb k all tf df hd
      exact ⟨r, f1, hs b hb k r tf df f2⟩
    cases fl with
    | fault => exact hm
    | unwound => exact ⟨hv, ls, c, toks', i, by rw [h1, hv], h2, by rw [hv]; exact h3, loc hm.2, fun hc => Bool.noConfusion hc⟩
    | brk e =>
      obtain ⟨m1, m2, m3, m4, m5⟩ := hm
      refine ⟨ls, c, toks', i, by rw [h1, hv], h2, by rw [hv]; exact h3, loc m5, ?_⟩
      intro _
      rcases hcase with ⟨x, v, -, -, -, -, g⟩ | ⟨t, g1, g2, g3, -, g5⟩
      · rw [m3] at m4; exact (g m4).elim
      · refine ⟨t, g2, by rw [hv, g1], ?_, by rw [m3]; exact g5⟩
        rw [← g3, e1, m1, List.append_nil]
    | cont t =>
      obtain ⟨r1, m1, m5⟩ := hm
      refine ⟨ls, c, toks' ++ [t], i, by rw [h1, hv], by rw [h2, List.append_assoc], by rw [hv]; exact h3, ?_, fun hc => Bool.noConfusion hc⟩
      intro b hb k all tf df hd
      rw [hv] at hb hd ⊢
      obtain ⟨r, f1, f2⟩ := h4 b hb k all tf df hd
      obtain ⟨r2, f3, f4⟩ := m5 b hb k r tf df f2
      exact ⟨r2, by rw [f1, f3, List.append_assoc]; rfl, f4⟩
  cases hn : d.done with
  | none =>
    obtain ⟨st', d', fl, hp, hm⟩ := main h hn
    refine ⟨st', d', fl, hp, ?_⟩
    cases fl with
    | unwound => exact .inl ⟨by unfold Dropped; rw [hn]; exact hm.1, hm.2⟩
    | fault => exact hm
    | brk e => exact hm
    | cont t => exact hm
  | some n =>
    obtain ⟨hle, hk⟩ := known_dropped hR.size h hn
    have hadv := hR.advance st n hle
    have hcl : clearDoneU R st d = ((R.advance st n).1, start d.idx, (R.advance st n).2) := by
      unfold clearDoneU
      rw [hn]; rfl
    have drop : ∀ v, v = (view st).drop n → Dropped (view st) v d := fun v hv => by unfold Dropped; rw [hn]; exact hv
    cases hr : (R.advance st n).2 with
    | true =>
      rw [hr] at hcl
      refine ⟨_, _, _, popU_unwound hcl, ?_⟩
      rcases hadv with hv | ⟨-, hv⟩
      · exact .inl ⟨drop _ hv, hk _ hv⟩
      · exact .inr ⟨⟨by rw [hn]; simp, hv⟩, rfl⟩
    | false =>
      rw [hr] at hcl
      have hv : view (R.advance st n).1 = (view st).drop n := by
        rcases hadv with hv | ⟨h1, -⟩
        · exact hv
        · rw [hr] at h1; cases h1
      obtain ⟨st', d', fl, hp, hm⟩ := main (hk _ hv) rfl
      refine ⟨st', d', fl, by rw [popU_clear hcl rfl, hp], ?_⟩
      cases fl with
      | unwound => exact .inl ⟨drop _ (hm.1.trans hv), hm.2⟩
      | fault => exact hm
      | brk e => exact hm
      | cont t => exact hm

theorem known_start (view : σ → List UInt8) (st : σ) (i : Nat) : Known view (view st) [] false st (start i) :=
  ⟨[], [], [], i, rfl, rfl, fun _ _ _ h => h, fun _ _ _ all _ _ hd => ⟨all, rfl, hd⟩, fun hc => Bool.noConfusion hc⟩

theorem known_arrive {view : σ → List UInt8} {fed : List UInt8} {toks : List Token} {w : Bool} {st st' : σ} {d : Dec} (b : List UInt8)
    (h : Known view fed toks w st d) (hb : view st' = view st ++ b) : Known view (fed ++ b) toks false st' d := by
  obtain ⟨ls, c, toks', i, h1, h2, h3, h4, -⟩ := h
  refine ⟨ls, c, toks', i, by rw [h1, hb, List.append_assoc], h2, ?_, ?_, fun hc => Bool.noConfusion hc⟩
  · intro b' ls' t hc
    rw [hb, List.append_assoc] at hc ⊢
    exact h3 (b ++ b') ls' t hc
  · intro b' hl k all tf df hd
    rw [hb, List.append_assoc] at hl hd ⊢
    exact h4 (b ++ b') hl k all tf df hd

theorem lexeme_pos {x : Lexeme} {v : List UInt8} (h : x.fits v) : 0 < x.bytes.length := by
  cases x with
  | space bs => exact List.length_pos_iff.mpr h.1
  | mark b t => exact Nat.one_pos
  | word bs =>
    obtain ⟨⟨b, l, rfl, -⟩, -⟩ := h
    exact Nat.succ_pos _
  | number n =>
    obtain ⟨⟨h, -⟩, -⟩ := h
    show 0 < (n.signs ++ n.digits ++ _ ++ _).length
    simp only [List.length_append]
    rcases h with h | h
    · have := List.length_pos_iff.mpr h; omega
    · have := List.length_pos_iff.mpr h; omega
  | string ps => exact Nat.succ_pos _

/-- The lexeme that was reported is not empty. -/
theorem done_pos {view : σ → List UInt8} (hz : ∀ st, (view st).length ≤ isizeMax) {fed : List UInt8} {toks : List Token} {w : Bool} {st : σ} {d : Dec}
    (h : Known view fed toks w st d) {n : Nat} (hn : d.done = some n) : (view st).drop n ≠ view st := by
  obtain ⟨ls, c, toks', i, h1, h2, h3, h4, -⟩ := h
  obtain ⟨all, tf, df, hd, hcase⟩ := first_drain (view st) (hz st) i
  obtain ⟨r, e1, e2⟩ := h4 [] (by rw [List.append_nil]; exact hz st) _ all tf df (by rwa [List.append_nil])
  rw [List.append_nil] at e2
  obtain ⟨rfl, rfl, rfl, hw⟩ := drain_done hn e2
  rcases hcase with ⟨x, v, g1, g2, g3, g4, -⟩ | ⟨t, -, -, -, -, g⟩
  · rw [g4, g1]
    intro he
    have := congrArg List.length he
    rw [List.length_append] at this
    have hx : 0 < x.bytes.length := lexeme_pos g2
    omega
  · have := rests_done g
    rw [hn] at this; cases this

theorem historyU_known {R : ReaderU σ} {view : σ → List UInt8} (hR : Flaky R view) {fed : List UInt8} {toks : List Token} {w : Bool} {st : σ} {d : Dec}
    (h : HistoryU R view fed toks w st d) : Known view fed toks w st d := by
  induction h with
  | start st => exact known_start view st 0
  | arrive b h hb ih => exact known_arrive b ih hb
  | token h hp ih =>
    obtain ⟨st1, d1, fl, ha, hm⟩ := known_popU hR ih
    rw [hp] at ha
    cases ha
    exact hm
  | more h hp ih =>
    obtain ⟨st1, d1, fl, ha, hm⟩ := known_popU hR ih
    rw [hp] at ha
    cases ha
    exact hm
  | @unwound fed toks w st st' d d' h hp hv ih =>
    obtain ⟨st1, d1, fl, ha, hm⟩ := known_popU hR ih
    rw [hp] at ha
    cases ha
    rcases hm with ⟨-, hm⟩ | ⟨⟨hk, he⟩, -⟩
    · exact hm
    · cases hn : d.done with
      | none => exact (hk hn).elim
      | some n =>
        unfold Dropped at hv
        rw [hn] at hv
        exact (done_pos hR.size ih hn (hv.symm.trans he)).elim
  | @again fed toks w st st' d d' h hp hv ih =>
    obtain ⟨st1, d1, fl, ha, hm⟩ := known_popU hR ih
    rw [hp] at ha
    cases ha
    rcases hm with ⟨hd, hm⟩ | ⟨-, rfl⟩
    · cases hn : d.done with
      | none => exact (hv.1 hn).elim
      | some n =>
        unfold Dropped at hd
        rw [hn] at hd
        exact (done_pos hR.size ih hn (hd.symm.trans hv.2)).elim
    · exact known_start view st' _

/-- The view after a panic is the one after `clear_done`. -/
theorem unwound_view {R : ReaderU σ} {view : σ → List UInt8} (hR : Flaky R view) {fed : List UInt8} {toks : List Token} {w : Bool} {st st' : σ} {d d' : Dec} {n : Nat}
    (h : Known view fed toks w st d) (hn : d.done = some n) (hp : popU R st d = (st', d', .unwound)) : view st' = view (R.advance st n).1 := by
  obtain ⟨hle, hk⟩ := known_dropped hR.size h hn
  have hadv := hR.advance st n hle
  have hcl : clearDoneU R st d = ((R.advance st n).1, start d.idx, (R.advance st n).2) := by
    unfold clearDoneU
    rw [hn]; rfl
  cases hr : (R.advance st n).2 with
  | true =>
    rw [hr] at hcl
    rw [popU_unwound hcl] at hp
    cases hp; rfl
  | false =>
    rw [hr] at hcl
    have hv : view (R.advance st n).1 = (view st).drop n := by
      rcases hadv with hv | ⟨h1, -⟩
      · exact hv
      · rw [hr] at h1; cases h1
    rw [popU_clear hcl rfl] at hp
    obtain ⟨st2, d2, fl, hp2, hm⟩ := known_popU hR (hk _ hv)
    rw [hp] at hp2
    cases hp2
    rcases hm with ⟨hm, -⟩ | ⟨hm, -⟩
    · exact hm
    · exact hm.2

theorem kept_discards {R : ReaderU σ} {view : σ → List UInt8} (hR : Flaky R view) (hD : Discards R view) {fed : List UInt8} {toks : List Token} {w : Bool} {st st' : σ}
    {d d' : Dec} {n : Nat} (h : Known view fed toks w st d) (hn : d.done = some n) (hp : popU R st d = (st', d', .unwound)) (hv : view st' = view st) : False := by
  have h1 := unwound_view hR h hn hp
  obtain ⟨hle, -⟩ := known_dropped hR.size h hn
  rw [hD st n hle, hv] at h1
  exact done_pos hR.size h hn h1.symm

end Verif.Json.Bytes

namespace Verif.Json.Decode
open Verif.Io (usizeMax)
open Verif.Json.Bytes (ReaderU UFlow Flaky Discards Token Lexeme Tail Cut source tokens slices slices_faithful)
open Verif.Json.Stream (Item)
variable {σ : Type}

/-- What is known of a decoder, cf. `Known`. -/
def KnownU (view : σ → List UInt8) (fed : List UInt8) (is : List Item) (w : Bool) (st : σ) (d : Dec) : Prop :=
  ∃ toks, Bytes.Known view fed toks w st d.tokenizer ∧ Stream.Dec.new.run (toks.map kind) = (d.inner, is)

theorem unreadU {view : σ → List UInt8} {fed : List UInt8} {toks : List Token} {w : Bool} {st : σ} {d : Bytes.Dec}
    (h : Bytes.Known view fed toks w st d) : fed.length ≤ (toks.flatMap source).length + (view st).length := by
  obtain ⟨ls, c, toks', i, h1, h2, h3, -⟩ := h
  obtain ⟨ls1, t1, hc1⟩ := Bytes.cut_total (view st)
  have hc2 := h3 [] ls1 t1 (by rwa [List.append_nil])
  rw [List.append_nil] at hc2
  have e1 := congrArg List.length (Bytes.cut_source hc1)
  have e2 := congrArg List.length (Bytes.cut_source hc2)
  have ht : tokens (ls ++ ls1) t1 = ls.flatMap Lexeme.tokens ++ tokens ls1 t1 := by simp [tokens]
  rw [ht, List.flatMap_append] at e2
  rw [h2, List.flatMap_append, h1]
  simp only [List.length_append] at e1 e2 ⊢
  omega

theorem knownU_tokens {view : σ → List UInt8} (hz : ∀ st, (view st).length ≤ Bytes.isizeMax) {fed : List UInt8} {toks : List Token} {w : Bool} {st : σ} {d : Bytes.Dec}
    (h : Bytes.Known view fed toks w st d) {ls : List Lexeme} {t : Tail} (hc : Cut fed ls t) :
    toks <+: tokens ls t ∧ (w = true → toks = tokens ls t ∧ view st = t.bytes ∧ Bytes.Rests t d) :=
  Bytes.known_tokens slices_faithful ((Bytes.known_slice (hz st)).mp h) hc

/-- The loop of `advance`. -/
theorem advance_tokensU {R : ReaderU σ} {view : σ → List UInt8} (hR : Flaky R view) (hD : Discards R view) {fed : List UInt8} :
    ∀ (fuel : Nat) (toks : List Token) (w : Bool) (st : σ)
    (d : Dec), Bytes.Known view fed toks w st d.tokenizer → fed.length < (toks.flatMap source).length + fuel →
    ∃ st' d' fl more, advanceU R fuel st d = (st', d', fl) ∧
      match fl with
      | .fault => False
      | .unwound => Bytes.Known view fed (toks ++ more) false st' d'.tokenizer ∧ d.inner.run (more.map kind) = (d'.inner, [])
      | .brk _ => Bytes.Known view fed (toks ++ more) true st' d'.tokenizer ∧ d.inner.run (more.map kind) = (d'.inner, [])
      | .cont i => Bytes.Known view fed (toks ++ more) false st' d'.tokenizer ∧ d.inner.run (more.map kind) = (d'.inner, [i]) := by
  intro fuel
  induction fuel with
  | zero =>
    intro toks w st d h hf
    obtain ⟨ls, t, hc⟩ := Bytes.cut_total fed
    obtain ⟨r, hr⟩ := (knownU_tokens hR.size h hc).1
    have := congrArg List.length (Bytes.cut_source hc)
    rw [← hr, List.flatMap_append] at this
    simp only [List.length_append] at this
    omega
  | succ fuel ih =>
    intro toks w st d h hf
    obtain ⟨st1, t1, fl1, hp, hm1⟩ := Bytes.known_popU hR h
    cases fl1 with
    | fault => exact hm1.elim
    | unwound =>
      refine ⟨st1, { d with tokenizer := t1 }, .unwound, [], by simp [advanceU, advanceInnerU, hp], ?_, rfl⟩
      rw [List.append_nil]
      rcases hm1 with ⟨-, hm1⟩ | ⟨⟨hn, hv⟩, -⟩
      · exact hm1
      · -- a stream that discards keeps nothing
        cases hd : d.tokenizer.done with
        | none => exact (hn hd).elim
        | some n =>
          exact (Bytes.kept_discards hR hD h hd hp hv).elim
    | brk e =>
      refine ⟨st1, { d with tokenizer := t1 }, .brk e, [], by simp [advanceU, advanceInnerU, hp], ?_, rfl⟩
      rw [List.append_nil]
      exact hm1
    | cont token =>
      match ha : d.inner.advance (kind token) with
      | (i1, some i) =>
        exact ⟨st1, ⟨i1, t1⟩, .cont i, [token], by simp [advanceU, advanceInnerU, hp, ha], hm1, by simp [Stream.Dec.run, ha]⟩
      | (i1, none) =>
        have hs : 0 < (source token).length := by
          obtain ⟨ls, t, hc⟩ := Bytes.cut_total fed
          have hm : token ∈ tokens ls t := (knownU_tokens hR.size hm1 hc).1.subset (by simp)
          have := silent d.inner (kind token) (by rw [ha])
          cases token <;> simp [kind] at this
          · exact List.length_pos_iff.mpr (space_nonempty hc hm)
          · exact Nat.one_pos
          · exact Nat.one_pos
        obtain ⟨st', d', fl, more, e, hm⟩ := ih (toks ++ [token]) false st1 ⟨i1, t1⟩ hm1 (by
          rw [List.flatMap_append, List.length_append, List.flatMap_cons, List.flatMap_nil, List.append_nil]; omega)
        refine ⟨st', d', fl, token :: more, by simpa [advanceU, advanceInnerU, hp, ha] using e, ?_⟩
        cases fl with
        | fault => exact hm
        | unwound => exact ⟨by simpa using hm.1, by simp [Stream.Dec.run, ha, hm.2]⟩
        | brk e => exact ⟨by simpa using hm.1, by simp [Stream.Dec.run, ha, hm.2]⟩
        | cont i => exact ⟨by simpa using hm.1, by simp [Stream.Dec.run, ha, hm.2]⟩

theorem knownU_pop {R : ReaderU σ} {view : σ → List UInt8} (hR : Flaky R view) (hD : Discards R view) {fed : List UInt8} {is : List Item} {w : Bool} {st : σ} {d : Dec}
    (h : KnownU view fed is w st d) : ∃ st' d' fl, popU R st d = (st', d', fl) ∧
      match fl with
      | .fault => False
      | .unwound => KnownU view fed is false st' d'
      | .brk _ => KnownU view fed is true st' d'
      | .cont i => KnownU view fed (is ++ [i]) false st' d' := by
  obtain ⟨toks, h1, h2⟩ := h
  have hl := unreadU h1
  have hz := hR.size st
  obtain ⟨st', d', fl, more, e, hm⟩ := advance_tokensU hR hD usizeMax toks w st d h1 (by
    have : Bytes.isizeMax < usizeMax := by decide
    omega)
  refine ⟨st', d', fl, e, ?_⟩
  have hr : Stream.Dec.new.run ((toks ++ more).map kind) = ((d.inner.run (more.map kind)).1, is ++ (d.inner.run (more.map kind)).2) := by
    rw [List.map_append, Stream.run_append, h2]
  cases fl with
  | fault => exact hm
  | unwound => exact ⟨_, hm.1, by rw [hr, hm.2, List.append_nil]⟩
  | brk e => exact ⟨_, hm.1, by rw [hr, hm.2, List.append_nil]⟩
  | cont i => exact ⟨_, hm.1, by rw [hr, hm.2]⟩

theorem historyU_known {R : ReaderU σ} {view : σ → List UInt8} (hR : Flaky R view) (hD : Discards R view) {fed : List UInt8} {is : List Item} {w : Bool} {st : σ} {d : Dec}
    (h : HistoryU R view fed is w st d) : KnownU view fed is w st d := by
  induction h with
  | start st => exact ⟨[], Bytes.known_start view st 0, rfl⟩
  | arrive b h hb ih =>
    obtain ⟨toks, h1, h2⟩ := ih
    exact ⟨toks, Bytes.known_arrive b h1 hb, h2⟩
  | item h hp ih =>
    obtain ⟨st', d', fl, e, hm⟩ := knownU_pop hR hD ih
    rw [hp] at e; cases e
    exact hm
  | more h hp ih =>
    obtain ⟨st', d', fl, e, hm⟩ := knownU_pop hR hD ih
    rw [hp] at e; cases e
    exact hm
  | unwound h hp ih =>
    obtain ⟨st', d', fl, e, hm⟩ := knownU_pop hR hD ih
    rw [hp] at e; cases e
    exact hm

end Verif.Json.Decode
