import Verif.Json.LemmasFlaky2
/-! # C112: the streaming JSON tokenizer and decoder survive panics of the stream -/
namespace Verif.Json.Bytes
open Verif.Io (usizeMax)
variable {σ : Type}

/-! ## A stream that panics -/

/-- A slice that panics as planned: the plan has an entry for every call. It hands out no more than what is asked for. If `late`, then `advance` discards
before it panics. -/
def planned (late : Bool) : ReaderU ({ l : List UInt8 // l.length ≤ isizeMax } × List Bool) where
  map st min max :=
    match st.2 with
    | true :: plan => ((st.1, plan), .unwound)
    | plan => ((st.1, plan.tail), if min ≤ st.1.1.length then .cont (st.1.1.take min) else .brk ⟨min, max⟩)
  advance st n :=
    let rest : { l : List UInt8 // l.length ≤ isizeMax } := ⟨st.1.1.drop n, by rw [List.length_drop]; have := st.1.2; omega⟩
    match st.2 with
    | true :: plan => ((if late then rest else st.1, plan), true)
    | plan => ((rest, plan.tail), false)

theorem planned_flaky (late : Bool) : Flaky (planned late) (·.1.1) where
  map st min max := by
    obtain ⟨⟨l, hl⟩, plan⟩ := st
    have calm : ∀ plan : List Bool, match (if min ≤ l.length then UFlow.cont (l.take min) else UFlow.brk (⟨min, max⟩ : Io.More)) with
        | .cont m => m <+: l ∧ min ≤ m.length
        | .brk _ => l.length < min
        | .unwound => True
        | .fault => False := by
      intro _
      by_cases h : min ≤ l.length
      · rw [if_pos h]
        exact ⟨List.take_prefix _ _, by rw [List.length_take]; omega⟩
      · rw [if_neg h]; exact Nat.lt_of_not_le h
    match plan with
    | true :: plan => exact ⟨rfl, trivial⟩
    | false :: plan => exact ⟨rfl, calm plan⟩
    | [] => exact ⟨rfl, calm []⟩
  advance st n h := by
    obtain ⟨⟨l, hl⟩, plan⟩ := st
    match plan with
    | true :: plan =>
      cases late with
      | true => exact .inl rfl
      | false => exact .inr ⟨rfl, rfl⟩
    | false :: plan => exact .inl rfl
    | [] => exact .inl rfl
  size st := st.1.2

theorem planned_discards : Discards (planned true) (·.1.1) := by
  intro st n h
  obtain ⟨⟨l, hl⟩, plan⟩ := st
  match plan with
  | true :: plan => rfl
  | false :: plan => rfl
  | [] => rfl

/-- The results of so many calls of `pop`. -/
def pops (R : ReaderU σ) : Nat → σ → Dec → List (UFlow Token)
  | 0, _, _ => []
  | n + 1, st, d =>
    let r := popU R st d
    r.2.2 :: pops R n r.1 r.2.1

/-! ## C112: tokens -/

/-- No panic comes from the tokenizer itself, whatever panics have left behind. -/
theorem flaky_no_fault {R : ReaderU σ} {view : σ → List UInt8} (hR : Flaky R view) {fed : List UInt8} {toks : List Token} {w : Bool} {st : σ} {d : Dec}
    (h : HistoryU R view fed toks w st d) : (popU R st d).2.2 ≠ .fault := by
  obtain ⟨st', d', fl, hp, hm⟩ := known_popU hR (historyU_known hR h)
  rw [hp]
  intro hf
  have hf : fl = .fault := hf
  subst hf
  exact hm

/-- Reported are the tokens of the text, from the first one on, none of them twice. -/
theorem flaky_reports {R : ReaderU σ} {view : σ → List UInt8} (hR : Flaky R view) {fed : List UInt8} {toks : List Token} {w : Bool} {st : σ} {d : Dec}
    (h : HistoryU R view fed toks w st d) {ls : List Lexeme} {t : Tail} (hc : Cut fed ls t) : toks <+: tokens ls t :=
  (Decode.knownU_tokens hR.size (historyU_known hR h) hc).1

/-- Once `pop` asks for more, all tokens of the text were reported, and the stream holds the tail. -/
theorem flaky_reports_all {R : ReaderU σ} {view : σ → List UInt8} (hR : Flaky R view) {fed : List UInt8} {toks : List Token} {st : σ} {d : Dec}
    (h : HistoryU R view fed toks true st d) {ls : List Lexeme} {t : Tail} (hc : Cut fed ls t) : toks = tokens ls t ∧ view st = t.bytes := by
  obtain ⟨h1, h2, -⟩ := (Decode.knownU_tokens hR.size (historyU_known hR h) hc).2 rfl
  exact ⟨h1, h2⟩

/-- `pop` reports the next token, or asks for more if there is none, or panics with the stream. -/
theorem flaky_next {R : ReaderU σ} {view : σ → List UInt8} (hR : Flaky R view) {fed : List UInt8} {toks : List Token} {w : Bool} {st : σ} {d : Dec}
    (h : HistoryU R view fed toks w st d) {ls : List Lexeme} {t : Tail} (hc : Cut fed ls t) :
    match (popU R st d).2.2 with
    | .cont tok => toks ++ [tok] <+: tokens ls t
    | .brk _ => toks = tokens ls t
    | .unwound => True
    | .fault => False := by
  obtain ⟨st', d', fl, hp, hm⟩ := known_popU hR (historyU_known hR h)
  rw [hp]
  cases fl with
  | fault => exact hm
  | unwound => trivial
  | brk e => exact ((Decode.knownU_tokens hR.size hm hc).2 rfl).1
  | cont tok => exact (Decode.knownU_tokens hR.size hm hc).1

/-- After the same text the same tokens were reported as on a stream that does not panic, and the same bytes are left. -/
theorem panics_irrelevant {σ' : Type} {R : ReaderU σ} {view : σ → List UInt8} (hR : Flaky R view) {R' : Reader σ'} {view' : σ' → List UInt8}
    (hR' : Faithful R' view') {fed : List UInt8} {toks toks' : List Token} {st : σ} {st' : σ'} {d d' : Dec}
    (h : HistoryU R view fed toks true st d) (h' : History R' view' fed toks' true st' d') : toks = toks' ∧ view st = view' st' := by
  obtain ⟨ls, t, hc⟩ := cut_total fed
  obtain ⟨h1, h2⟩ := flaky_reports_all hR h hc
  obtain ⟨h3, h4⟩ := pop_reports_all hR' h' hc
  exact ⟨by rw [h1, h3], by rw [h2, h4]⟩

/-- Every panic is one of the two that histories have. If the stream discards before it panics, it is the first: nothing is read twice. -/
theorem unwound_cases {R : ReaderU σ} {view : σ → List UInt8} (hR : Flaky R view) {fed : List UInt8} {toks : List Token} {w : Bool} {st st' : σ} {d d' : Dec}
    (h : HistoryU R view fed toks w st d) (hp : popU R st d = (st', d', .unwound)) :
    (Dropped (view st) (view st') d ∨ Kept (view st) (view st') d) ∧ (Discards R view → Dropped (view st) (view st') d) := by
  have hk := historyU_known hR h
  obtain ⟨st1, d1, fl, ha, hm⟩ := known_popU hR hk
  rw [hp] at ha
  cases ha
  rcases hm with ⟨hm, -⟩ | ⟨hm, -⟩
  · exact ⟨.inl hm, fun _ => hm⟩
  · refine ⟨.inr hm, fun hD => ?_⟩
    cases hn : d.done with
    | none => exact (hm.1 hn).elim
    | some n => exact (kept_discards hR hD hk hn hp hm.2).elim

/-- If `advance` panics without having discarded, then everything that was reported of the last lexeme is reported once more: the stream begins with it,
and is read from there as by a new tokenizer. -/
theorem reported_again {R : ReaderU σ} {view : σ → List UInt8} (hR : Flaky R view) {fed : List UInt8} {toks : List Token} {w : Bool} {st st' : σ} {d d' : Dec}
    (h : HistoryU R view fed toks w st d) (hp : popU R st d = (st', d', .unwound)) (hv : Kept (view st) (view st') d) :
    ∃ (x : Lexeme) (v : List UInt8) (before : List Token), x.fits v ∧ view st' = x.bytes ++ v ∧ toks = before ++ x.tokens
      ∧ ∀ {toks'} {st'' : σ} {d'' : Dec}, HistoryU R view (view st') toks' true st'' d'' → x.tokens <+: toks' := by
  obtain ⟨ls, c, toks', i, h1, h2, h3, h4, -⟩ := historyU_known hR h
  cases hn : d.done with
  | none => exact (hv.1 hn).elim
  | some n =>
    obtain ⟨all, tf, df, hd, hcase⟩ := first_drain (view st) (hR.size st) i
    obtain ⟨r, e1, e2⟩ := h4 [] (by rw [List.append_nil]; exact hR.size st) _ all tf df (by rwa [List.append_nil])
    rw [List.append_nil] at e2
    obtain ⟨rfl, rfl, rfl, hw⟩ := drain_done hn e2
    rcases hcase with ⟨x, v, g1, g2, g3, g4, -⟩ | ⟨t, -, -, -, -, g⟩
    · rw [List.append_nil] at e1
      refine ⟨x, v, ls.flatMap Lexeme.tokens, g2, by rw [hv.2, g1], by rw [h2, ← e1, g3], ?_⟩
      intro toks2 st2 d2 h'
      obtain ⟨ls2, t2, hc2⟩ := cut_total v
      have hc : Cut (view st') (x :: ls2) t2 := by rw [hv.2, g1]; exact .lexeme x g2 hc2
      rw [(flaky_reports_all hR h' hc).1]
      exact ⟨tokens ls2 t2, by simp [tokens]⟩
    · have := rests_done g
      rw [hn] at this; cases this

/-- The code does not do better: with an `advance` that panics first, the only token of a text is reported twice. -/
theorem token_twice : Flaky (planned false) (·.1.1) ∧ (∃ t, Cut [0x5b] [.mark 0x5b .arrayOpen] t ∧ tokens [.mark 0x5b .arrayOpen] t = [.arrayOpen])
    ∧ pops (planned false) 4 (⟨[0x5b], by decide⟩, [false, true]) .new = [.cont .arrayOpen, .unwound, .cont .arrayOpen, .brk ⟨1, some 1⟩] :=
  ⟨planned_flaky false, ⟨.none, .lexeme (v := []) (.mark 0x5b .arrayOpen) rfl (.tail .none trivial), rfl⟩, by decide +kernel⟩

/-! Panics everywhere: while a token is read, when it is discarded, and with data missing. -/

example : pops (planned true) 8 (⟨[0x5b, 0x20, 0x20, 0x5b], by decide⟩, [false, true, false, false, true, false, true]) .new =
    [.cont .arrayOpen, .unwound, .unwound, .cont (.whitespace [0x20, 0x20]), .unwound, .cont .arrayOpen, .brk ⟨1, some 1⟩, .brk ⟨1, some 1⟩] := by decide +kernel

theorem HistoryU.pop_token {R : ReaderU σ} {view : σ → List UInt8} {fed : List UInt8} {toks : List Token} {w : Bool} {st : σ} {d : Dec} {t : Token}
    (h : HistoryU R view fed toks w st d) (hp : (popU R st d).2.2 = .cont t) : HistoryU R view fed (toks ++ [t]) false (popU R st d).1 (popU R st d).2.1 :=
  .token h (by rw [← hp])

theorem HistoryU.pop_unwound {R : ReaderU σ} {view : σ → List UInt8} {fed : List UInt8} {toks : List Token} {w : Bool} {st : σ} {d : Dec}
    (h : HistoryU R view fed toks w st d) (hp : (popU R st d).2.2 = .unwound) (hv : Dropped (view st) (view (popU R st d).1) d) :
    HistoryU R view fed toks false (popU R st d).1 (popU R st d).2.1 := .unwound h (by rw [← hp]) hv

/-- A history: the second `pop` panics when it discards, the third while it reads white space. It meets the hypotheses of `flaky_no_fault`, `flaky_reports` and
`flaky_next`. -/
example : ∃ st d, HistoryU (planned true) (·.1.1) [0x5b, 0x20, 0x20, 0x5b] [.arrayOpen, .whitespace [0x20, 0x20]] false st d := by
  have h0 := HistoryU.start (R := planned true) (view := (·.1.1)) (⟨[0x5b, 0x20, 0x20, 0x5b], by decide⟩, [false, true, false, false, true, false, true])
  have h1 := h0.pop_token (t := .arrayOpen) (by decide +kernel)
  have h2 := h1.pop_unwound (by decide +kernel) (by show _ = _; decide +kernel)
  have h3 := h2.pop_unwound (by decide +kernel) (by show _ = _; decide +kernel)
  have h4 := h3.pop_token (t := .whitespace [0x20, 0x20]) (by decide +kernel)
  exact ⟨_, _, h4⟩

/-- A history in which a token is kept, cf. `reported_again`. -/
example : ∃ st d, HistoryU (planned false) (·.1.1) [0x5b] [.arrayOpen] false st d ∧ (popU (planned false) st d).2.2 = .unwound
    ∧ Kept st.1.1 (popU (planned false) st d).1.1.1 d := by
  have h0 := HistoryU.start (R := planned false) (view := (·.1.1)) (⟨[0x5b], by decide⟩, [false, true])
  have h1 := h0.pop_token (t := .arrayOpen) (by decide +kernel)
  exact ⟨_, _, h1, by decide +kernel, ⟨by decide +kernel, by decide +kernel⟩⟩

/-- A history in which completing panics, cf. `complete_retried`. Before that, it meets the hypotheses of `flaky_reports_all` and `panics_irrelevant`. -/
example : ∃ st d, HistoryU (planned true) (·.1.1) [0x22, 0x61] [] true st d ∧ (completeU (planned true) st d).2.2 = .unwound
    ∧ Dropped st.1.1 (completeU (planned true) st d).1.1.1 d
    ∧ (complete slices ⟨st.1.1, st.1.2⟩ d).map (·.2.2) = some (some (.error .stringIncomplete)) := by
  have h0 := HistoryU.start (R := planned true) (view := (·.1.1)) (⟨[0x22, 0x61], by decide⟩, [false, false, false, true])
  have h1 := HistoryU.more (e := ⟨3, none⟩) (st' := (popU (planned true) (⟨[0x22, 0x61], by decide⟩, [false, false, false, true]) .new).1)
    (d' := (popU (planned true) (⟨[0x22, 0x61], by decide⟩, [false, false, false, true]) .new).2.1) h0 (by decide +kernel)
  exact ⟨_, _, h1, by decide +kernel, by show _ = _; decide +kernel, by decide +kernel⟩

/-- A panic of the stream within `complete` loses nothing either: completing what it leaves behind gives what completing would have given. -/
theorem complete_retried {R : ReaderU σ} {view : σ → List UInt8} (hR : Flaky R view) {fed : List UInt8} {toks : List Token} {w : Bool} {st st' : σ} {d d' : Dec}
    (h : HistoryU R view fed toks w st d) (hp : completeU R st d = (st', d', .unwound)) (hv : Dropped (view st) (view st') d) :
    complete slices ⟨view st', hR.size st'⟩ d' = complete slices ⟨view st, hR.size st⟩ d := by
  have hk := historyU_known hR h
  -- what is left behind is what `clear_done` makes of the state
  have hd' : d' = (clearDoneU R st d).2.1 := by
    unfold completeU at hp
    rcases hc : clearDoneU R st d with ⟨st1, d1, b⟩
    rw [hc] at hp
    cases b with
    | true => cases hp; rfl
    | false =>
      simp only [] at hp
      split at hp
      · rcases hm : R.map st1 1 none with ⟨st2, fl⟩
        rw [hm] at hp
        cases fl with
        | unwound => cases hp; rfl
        | fault => cases hp
        | brk e => cases hp
        | cont m => cases hp
      · rcases hm : R.map st1 d1.idx none with ⟨st2, fl⟩
        rw [hm] at hp
        cases fl with
        | unwound => cases hp; rfl
        | fault => cases hp
        | brk e => cases hp
        | cont m =>
          simp only [] at hp
          split at hp <;> cases hp
  cases hn : d.done with
  | none =>
    have e : (⟨view st', hR.size st'⟩ : { l : List UInt8 // l.length ≤ isizeMax }) = ⟨view st, hR.size st⟩ := by
      unfold Dropped at hv
      rw [hn] at hv
      exact Subtype.ext hv
    have : d' = d := by
      rw [hd']
      unfold clearDoneU
      rw [hn]
    rw [e, this]
  | some n =>
    have : d' = start d.idx := by
      rw [hd']
      unfold clearDoneU
      rw [hn]; rfl
    unfold Dropped at hv
    rw [hn] at hv
    have hv : view st' = (view st).drop n := hv
    obtain ⟨hle, -⟩ := known_dropped hR.size hk hn
    have hcl : clearDone slices ⟨view st, hR.size st⟩ d = some (⟨view st', hR.size st'⟩, start d.idx) := by
      unfold clearDone
      rw [hn]
      show (if h : n ≤ (view st).length then _ else none).map _ = _
      rw [dif_pos hle]
      simp only [Option.map_some, Option.some.injEq, Prod.mk.injEq]
      exact ⟨Subtype.ext hv.symm, rfl⟩
    have hcl' : clearDone slices ⟨view st', hR.size st'⟩ (start d.idx) = some (⟨view st', hR.size st'⟩, start d.idx) := rfl
    rw [this]
    unfold complete
    rw [hcl, hcl']

end Verif.Json.Bytes

namespace Verif.Json.Decode
open Verif.Json.Bytes (Reader ReaderU Flaky Faithful Discards Lexeme Tail Cut)
open Verif.Json.Stream (Item)
variable {σ : Type}

/-! ## C112: items -/

/-- No panic comes from the decoder itself. -/
theorem flaky_no_fault {R : ReaderU σ} {view : σ → List UInt8} (hR : Flaky R view) (hD : Discards R view) {fed : List UInt8} {is : List Item} {w : Bool} {st : σ} {d : Dec}
    (h : HistoryU R view fed is w st d) : (popU R st d).2.2 ≠ .fault := by
  obtain ⟨st', d', fl, hp, hm⟩ := knownU_pop hR hD (historyU_known hR hD h)
  rw [hp]
  intro hf
  have hf : fl = .fault := hf
  subst hf
  exact hm

/-- Reported are the items of the text, from the first one on. -/
theorem flaky_reports {R : ReaderU σ} {view : σ → List UInt8} (hR : Flaky R view) (hD : Discards R view) {fed : List UInt8} {is : List Item} {w : Bool} {st : σ} {d : Dec}
    (h : HistoryU R view fed is w st d) {ls : List Lexeme} {t : Tail} (hc : Cut fed ls t) : is <+: items ls t := by
  obtain ⟨toks, h1, h2⟩ := historyU_known hR hD h
  have := items_prefix (knownU_tokens hR.size h1 hc).1
  rw [h2] at this
  exact this

/-- Once `pop` asks for more, all items of the text were reported, and the stream holds the tail. -/
theorem flaky_reports_all {R : ReaderU σ} {view : σ → List UInt8} (hR : Flaky R view) (hD : Discards R view) {fed : List UInt8} {is : List Item} {st : σ} {d : Dec}
    (h : HistoryU R view fed is true st d) {ls : List Lexeme} {t : Tail} (hc : Cut fed ls t) : is = items ls t ∧ view st = t.bytes := by
  obtain ⟨toks, h1, h2⟩ := historyU_known hR hD h
  obtain ⟨e1, e2, -⟩ := (knownU_tokens hR.size h1 hc).2 rfl
  refine ⟨?_, e2⟩
  unfold items kinds
  rw [← e1, h2]

/-- `pop` reports the next item, or asks for more if there is none, or panics with the stream. -/
theorem flaky_next {R : ReaderU σ} {view : σ → List UInt8} (hR : Flaky R view) (hD : Discards R view) {fed : List UInt8} {is : List Item} {w : Bool} {st : σ} {d : Dec}
    (h : HistoryU R view fed is w st d) {ls : List Lexeme} {t : Tail} (hc : Cut fed ls t) :
    match (popU R st d).2.2 with
    | .cont i => is ++ [i] <+: items ls t
    | .brk _ => is = items ls t
    | .unwound => True
    | .fault => False := by
  rcases hp : popU R st d with ⟨st', d', fl⟩
  cases fl with
  | fault => exact flaky_no_fault hR hD h (by rw [hp])
  | unwound => trivial
  | brk e => exact (flaky_reports_all hR hD (.more h hp) hc).1
  | cont i => exact flaky_reports hR hD (.item h hp) hc

/-! The decoder reads the white space and the bracket in one call, and panics in between. -/

def pops (R : ReaderU σ) : Nat → σ → Dec → List (Bytes.UFlow Item)
  | 0, _, _ => []
  | n + 1, st, d =>
    let r := popU R st d
    r.2.2 :: pops R n r.1 r.2.1

example : pops (Bytes.planned true) 6 (⟨[0x5b, 0x20, 0x20, 0x5b], by decide⟩, [false, true, false, false, true, false, false, true]) .new =
    [.cont .arrayOpen, .unwound, .unwound, .unwound, .cont .arrayOpen, .brk ⟨1, some 1⟩] := by decide +kernel

/-- A history of the decoder with panics. -/
example : ∃ st d, HistoryU (Bytes.planned true) (·.1.1) [0x5b, 0x20, 0x20, 0x5b] [.arrayOpen] false st d ∧ (popU (Bytes.planned true) st d).2.2 = .cont .arrayOpen := by
  have unwind : ∀ {fed is w st d}, HistoryU (Bytes.planned true) (·.1.1) fed is w st d → (popU (Bytes.planned true) st d).2.2 = .unwound →
      HistoryU (Bytes.planned true) (·.1.1) fed is false (popU (Bytes.planned true) st d).1 (popU (Bytes.planned true) st d).2.1 :=
    fun h hp => .unwound h (by rw [← hp])
  have h0 := HistoryU.start (R := Bytes.planned true) (view := (·.1.1)) (⟨[0x5b, 0x20, 0x20, 0x5b], by decide⟩, [false, true, false, false, true, false, false, true])
  have h1 := HistoryU.item (i := .arrayOpen) (st' := (popU (Bytes.planned true) (⟨[0x5b, 0x20, 0x20, 0x5b], by decide⟩, [false, true, false, false, true, false, false, true]) .new).1)
    (d' := (popU (Bytes.planned true) (⟨[0x5b, 0x20, 0x20, 0x5b], by decide⟩, [false, true, false, false, true, false, false, true]) .new).2.1) h0 (by decide +kernel)
  have h2 := unwind h1 (by decide +kernel)
  have h3 := unwind h2 (by decide +kernel)
  have h4 := unwind h3 (by decide +kernel)
  exact ⟨_, _, h4, by decide +kernel⟩

/-- After the same text the same items were reported as on a stream that does not panic, and the same bytes are left. -/
theorem panics_irrelevant {σ' : Type} {R : ReaderU σ} {view : σ → List UInt8} (hR : Flaky R view) (hD : Discards R view) {R' : Reader σ'} {view' : σ' → List UInt8}
    (hR' : Faithful R' view') {fed : List UInt8} {is is' : List Item} {st : σ} {st' : σ'} {d d' : Dec}
    (h : HistoryU R view fed is true st d) (h' : History R' view' fed is' true st' d') : is = is' ∧ view st = view' st' := by
  obtain ⟨ls, t, hc⟩ := Bytes.cut_total fed
  obtain ⟨h1, h2⟩ := flaky_reports_all hR hD h hc
  obtain ⟨h3, h4⟩ := pop_reports_all hR' h' hc
  exact ⟨by rw [h1, h3], by rw [h2, h4]⟩

end Verif.Json.Decode
