import Verif.Dbus.SpecCost
import Verif.Dbus.LemmasFlag
import Verif.Io.Spec
/-! # Lemmas: what decoders do to a reader that counts -/
namespace Verif.Dbus
open Verif.Io
variable {σ : Type} {I : ReadImpl σ} {data : List UInt8}

/-! ## The same results -/

/-- What a mapped slice gives. -/
def gave (len : Nat) : Flow (List UInt8) → Nat
  | .cont m => min m.length len
  | _ => 0

theorem count_read {s s' : σ} {t : Tally} {idx len : Nat} {f : Flow (List UInt8)} (h : I.map s idx len = (s', f)) :
    (countReads I).map (s, t) idx len = ((s', { t with calls := t.calls + 1, bytes := t.bytes + gave len f }), f) := by
  simp only [countReads, h]
  cases f <;> rfl

def plainOut (r : ReadOut (σ × Tally)) : ReadOut σ := ⟨r.st.1, r.idx, r.out, r.flow⟩
def plainStep (s : DStep (σ × Tally)) : DStep σ := s.map fun x => (x.1, x.2.1.1, x.2.2)

theorem plain_loop : ∀ (fuel : Nat) (s : σ) (t : Tally) (idx len : Nat) (out : List UInt8),
    plainOut (readLoop (countReads I) fuel (s, t) idx len out) = readLoop I fuel s idx len out := by
  intro fuel
  induction fuel with
  | zero => intro s t idx len out; unfold readLoop; split <;> rfl
  | succ fuel ih =>
    intro s t idx len out
    unfold readLoop
    split
    · cases h : I.map s idx len with
      | mk st f =>
        simp only [count_read h]
        cases f with
        | cont m =>
          simp only []
          split
          · split
            · exact ih _ _ _ _ _
            · rfl
          · rfl
        | brk e => rfl
        | fault => rfl
    · rfl

theorem plain_read (st : σ × Tally) (idx len : Nat) : plainOut (read (countReads I) st idx len) = read I st.1 idx len :=
  plain_loop _ _ _ _ _ _

theorem plain_io (d : Dec) (r : ReadOut (σ × Tally)) (r' : ReadOut σ) (h : plainOut r = r')
    (k : (σ × Tally) → Nat → List UInt8 → DStep (σ × Tally)) (k' : σ → Nat → List UInt8 → DStep σ)
    (hk : ∀ st idx out, plainStep (k st idx out) = k' st.1 idx out) : plainStep (d.io r k) = d.io r' k' := by
  subst h
  unfold Dec.io
  cases hf : r.flow with
  | cont u => simp only [plainOut, hf]; exact hk _ _ _
  | brk x => simp only [plainOut, hf]; rfl
  | fault => simp only [plainOut, hf]; rfl

theorem plain_align (d : Dec) (st : σ × Tally) (idx exp : Nat) (k : Nat → DStep (σ × Tally)) (k' : Nat → DStep σ)
    (hk : ∀ idx, plainStep (k idx) = k' idx) : plainStep (d.align st idx exp k) = d.align st.1 idx exp k' := by
  unfold Dec.align
  cases shl1 exp with
  | none => rfl
  | some m =>
    simp only []
    cases checkedNextMultipleOf idx m with
    | none => rfl
    | some v => exact hk v

theorem plain_expect (d : Dec) (st : σ × Tally) (el : Element) (k : DStep (σ × Tally)) (k' : DStep σ) (hk : plainStep k = k') :
    plainStep (d.expect st el k) = d.expect st.1 el k' := by
  unfold Dec.expect
  cases d.cursor.element with
  | none => rfl
  | some x =>
    simp only []
    split
    · rfl
    · exact hk

theorem plain_advance (d : Dec) (st : σ × Tally) (idx : Nat) (a : Ans) : plainStep (d.advance st idx a) = d.advance st.1 idx a := by
  unfold Dec.advance
  cases d.cursor.move_step <;> rfl

theorem plain_text (d : Dec) (st : σ × Tally) (idx len : Nat) : plainStep (d.text (countReads I) st idx len) = d.text I st.1 idx len := by
  refine plain_io _ _ _ (plain_read _ _ _) _ _ fun st idx out => ?_
  split
  · split
    · exact plain_advance _ _ _ _
    · rfl
  · rfl

theorem plain_pop (d : Dec) (st : σ × Tally) (l : Level) (c : Option Cursor) (s : List (Element × Level × Option Cursor)) :
    plainStep (d.pop st l c s) = d.pop st.1 l c s := by
  unfold Dec.pop
  split
  · rfl
  · rename_i c' _
    cases c'.move_step <;> rfl

theorem plain_close (d : Dec) (st : σ × Tally) : plainStep (d.close st) = d.close st.1 := by
  unfold Dec.close
  split
  · rfl
  · rfl
  · split
    · rfl
    · split <;> first | exact plain_pop _ _ _ _ _ | rfl

theorem plain_commit (d : Dec) (st : σ × Tally) : plainStep (d.commit st) = d.commit st.1 := by
  unfold Dec.commit
  split
  · rfl
  · split
    · rfl
    · split <;> rfl

theorem plain_array (d : Dec) (st : σ × Tally) : plainStep (d.array (countReads I) st) = d.array I st.1 := by
  refine plain_expect _ _ _ _ _ ?_
  cases d.cursor.down with
  | none => rfl
  | some x =>
    cases x with
    | none => rfl
    | some el =>
      refine plain_align _ _ _ _ _ _ fun _ => plain_io _ _ _ (plain_read _ _ _) _ _ fun st' _ out =>
        plain_align _ st' _ _ _ _ fun _ => ?_
      cases d.cursor.move_down <;> rfl

mutual
theorem plain_run : ∀ (x : Ask) (d : Dec) (st : σ × Tally), plainStep (Ask.run (countReads I) x d st) = Ask.run I x d st.1
  | .u16, _, _ => plain_expect _ _ _ _ _ <| plain_align _ _ _ _ _ _ fun _ => plain_io _ _ _ (plain_read _ _ _) _ _ fun _ _ _ =>
      plain_advance _ _ _ _
  | .string, _, _ => plain_expect _ _ _ _ _ <| plain_align _ _ _ _ _ _ fun _ => plain_io _ _ _ (plain_read _ _ _) _ _ fun _ _ _ =>
      plain_text _ _ _ _
  | .signature, _, _ => plain_expect _ _ _ _ _ <| plain_align _ _ _ _ _ _ fun _ => plain_io _ _ _ (plain_read _ _ _) _ _ fun _ _ _ =>
      plain_text _ _ _ _
  | .array, _, _ => plain_array _ _
  | .close, _, _ => plain_close _ _
  | .commit, _, _ => plain_commit _ _
  | .more, _, _ => rfl
  | .sub s l, d, st => by
    rw [Ask.run.eq_def, Ask.run.eq_def]
    simp only []
    split
    · rfl
    · rfl
    · rename_i x hx
      rw [← plain_runs l x st]
      cases Ask.runs (countReads I) l x st <;> rfl
theorem plain_runs : ∀ (l : List Ask) (d : Dec) (st : σ × Tally),
    (Ask.runs (countReads I) l d st).map (fun x => (x.1, x.2.1.1, x.2.2)) = Ask.runs I l d st.1
  | [], _, _ => rfl
  | x :: l, d, st => by
    simp only [Ask.runs]
    rw [← plain_run x d st]
    cases h : Ask.run (countReads I) x d st with
    | none => rfl
    | some y =>
      obtain ⟨d', st', a⟩ := y
      simp only [plainStep, Option.map_some]
      rw [← plain_runs l d' st']
      cases Ask.runs (countReads I) l d' st' <;> rfl
end

/-! ## What reads cost -/

/-- What a read did since `a`: at most `n` bytes were copied, all of them from the data, with a call for each of them at most, and one
that did not yield a byte if it was not completed. -/
structure Took (a : Tally) (idx n L : Nat) (r : ReadOut (σ × Tally)) : Prop where
  mono : a.bytes ≤ r.st.2.bytes
  within : r.st.2.bytes = a.bytes ∨ idx + r.st.2.bytes ≤ L + a.bytes
  calls : r.st.2.calls + a.bytes ≤ a.calls + r.st.2.bytes + if r.flow = .cont () then 0 else 1
  idx : r.flow = .cont () → r.idx = idx + n
  full : r.flow = .cont () → r.st.2.bytes = a.bytes + n

theorem took_loop (hI : Linear I data) : ∀ (fuel : Nat) (s : σ) (t : Tally) (idx len : Nat) (out : List UInt8),
    Took t idx len data.length (readLoop (countReads I) fuel (s, t) idx len out) := by
  intro fuel
  induction fuel with
  | zero =>
    intro s t idx len out
    unfold readLoop
    split
    · exact ⟨Nat.le_refl _, .inl rfl, by simp, by simp, by simp⟩
    · have : len = 0 := by omega
      subst this
      exact ⟨Nat.le_refl _, .inl rfl, by simp, by simp, by simp⟩
  | succ fuel ih =>
    intro s t idx len out
    unfold readLoop
    split
    · rename_i hlen
      have hm := hI.map s idx len hlen
      cases h : I.map s idx len with
      | mk st f =>
        simp only [count_read h]
        rw [h] at hm
        cases f with
        | cont m =>
          obtain ⟨hm0, hm⟩ := hm
          have hml : idx + m.length ≤ data.length := by
            have h1 := hm.length_le
            rw [List.length_drop] at h1
            have h2 := List.length_pos_iff.mpr hm0
            omega
          simp only [gave]
          have hpos := List.length_pos_iff.mpr hm0
          rw [if_pos hpos]
          split
          · obtain ⟨h1, h2, h3, h4, h5⟩ := ih st { t with calls := t.calls + 1, bytes := t.bytes + min m.length len }
              (idx + min m.length len) (len - min m.length len) (out ++ m.take (min m.length len))
            simp only [] at h1 h2 h3 h4 h5
            exact ⟨by omega, by omega, by omega, fun hf => by have := h4 hf; omega, fun hf => by have := h5 hf; omega⟩
          · refine ⟨by simp only []; omega, by simp only []; omega, by simp only []; omega, fun hf => (by cases hf), fun hf => (by cases hf)⟩
        | brk e => exact ⟨Nat.le_refl _, .inl rfl, by simp; omega, by simp, by simp⟩
        | fault => exact hm.elim
    · have : len = 0 := by omega
      subst this
      exact ⟨Nat.le_refl _, .inl rfl, by simp, by simp, by simp⟩

theorem took (hI : Linear I data) (st : σ × Tally) (idx len : Nat) : Took st.2 idx len data.length (read (countReads I) st idx len) :=
  took_loop hI _ _ _ _ _ _

/-- What a call did since `a`, if it began at `idx`. -/
def Cost (a : Tally) (idx L : Nat) (s : DStep (σ × Tally)) : Prop :=
  ∀ d st r, s = some (d, st, r) → a.bytes ≤ st.2.bytes ∧ (st.2.bytes = a.bytes ∨ idx + st.2.bytes ≤ L + a.bytes)
    ∧ st.2.calls + a.bytes ≤ a.calls + st.2.bytes + 1 ∧ (r.fine = true → idx + st.2.bytes ≤ d.level.idx + a.bytes)

variable {d : Dec} {a : Tally} {L : Nat}

theorem cost_brk {st : σ × Tally} {idx : Nat} {e : Option DErr} : Cost st.2 idx L (some (d, st, .brk e)) := by
  intro d' st' r h
  cases h
  exact ⟨Nat.le_refl _, .inl rfl, by omega, fun hf => (by cases hf)⟩

theorem cost_none {idx : Nat} : Cost a idx L (none : DStep (σ × Tally)) := fun _ _ _ h => by cases h

theorem cost_some {st : σ × Tally} {idx : Nat} {r : Ans} (h : idx ≤ d.level.idx) : Cost st.2 idx L (some (d, st, r)) := by
  intro d' st' r h
  cases h
  exact ⟨Nat.le_refl _, .inl rfl, by omega, fun hf => by omega⟩

theorem cost_io {idx n : Nat} {r : ReadOut (σ × Tally)} {k : (σ × Tally) → Nat → List UInt8 → DStep (σ × Tally)}
    (hr : Took a idx n L r) (hk : Cost r.st.2 (idx + n) L (k r.st (idx + n) r.out)) : Cost a idx L (d.io r k) := by
  intro d' st' o h
  unfold Dec.io at h
  obtain ⟨h1, h2, h3, h4, h5⟩ := hr
  cases hf : r.flow with
  | cont u =>
    rw [hf] at h
    rw [hf, if_pos rfl] at h3
    rw [h4 hf] at h
    have h5 := h5 hf
    obtain ⟨k1, k2, k3, k4⟩ := hk _ _ _ h
    exact ⟨by omega, by omega, by omega, fun ho => by have := k4 ho; omega⟩
  | brk x =>
    rw [hf] at h
    rw [hf, if_neg (by simp)] at h3
    cases h
    exact ⟨h1, h2, h3, fun ho => (by cases ho)⟩
  | fault => rw [hf] at h; cases h

theorem cost_down {idx idx' : Nat} {s : DStep (σ × Tally)} (h : Cost a idx' L s) (hi : idx ≤ idx') : Cost a idx L s := by
  intro d st r hs
  obtain ⟨h1, h2, h3, h4⟩ := h _ _ _ hs
  exact ⟨h1, by omega, h3, fun ho => by have := h4 ho; omega⟩

theorem cost_align {st : σ × Tally} {idx exp : Nat} {k : Nat → DStep (σ × Tally)} (hk : ∀ v, idx ≤ v → Cost st.2 v L (k v)) :
    Cost st.2 idx L (d.align st idx exp k) := by
  unfold Dec.align
  split
  · exact cost_none
  · split
    · exact cost_brk
    · rename_i v hv
      have hle : idx ≤ v := by
        unfold checkedNextMultipleOf at hv
        split at hv
        · cases hv; exact Nat.le_refl _
        · split at hv
          · cases hv; exact Nat.le_add_right _ _
          · cases hv
      exact cost_down (hk v hle) hle

theorem cost_expect {st : σ × Tally} {idx : Nat} {el : Element} {k : DStep (σ × Tally)} (hk : Cost st.2 idx L k) :
    Cost st.2 idx L (d.expect st el k) := by
  unfold Dec.expect
  split
  · exact cost_none
  · split
    · exact cost_brk
    · exact hk

theorem cost_advance {st : σ × Tally} {idx idx' : Nat} {x : Ans} (h : idx ≤ idx') : Cost st.2 idx L (d.advance st idx' x) := by
  unfold Dec.advance
  split
  · exact cost_none
  · exact cost_some h

theorem cost_text (hI : Linear I data) (st : σ × Tally) (idx len : Nat) : Cost st.2 idx data.length (d.text (countReads I) st idx len) := by
  refine cost_io (took hI _ _ _) ?_
  split
  · split
    · exact cost_advance (Nat.le_succ _)
    · exact cost_none
  · exact cost_brk

theorem cost_u16 (hI : Linear I data) (st : σ × Tally) : Cost st.2 d.level.idx data.length (d.u16 (countReads I) st) :=
  cost_expect <| cost_align fun _ _ => cost_io (took hI _ _ _) (cost_advance (Nat.le_refl _))

theorem cost_str8 (hI : Linear I data) (st : σ × Tally) (el : Element) : Cost st.2 d.level.idx data.length (d.str8 (countReads I) st el) :=
  cost_expect <| cost_align fun _ _ => cost_io (took hI _ _ _) (cost_text hI _ _ _)

theorem cost_str32 (hI : Linear I data) (st : σ × Tally) (el : Element) : Cost st.2 d.level.idx data.length (d.str32 (countReads I) st el) :=
  cost_expect <| cost_align fun _ _ => cost_io (took hI _ _ _) (cost_text hI _ _ _)

theorem cost_array (hI : Linear I data) (st : σ × Tally) : Cost st.2 d.level.idx data.length (d.array (countReads I) st) := by
  refine cost_expect ?_
  split
  · exact cost_none
  · exact cost_none
  · refine cost_align fun _ _ => cost_io (took hI _ _ _) (cost_align fun _ _ => ?_)
    split
    · exact cost_none
    · exact cost_some (Nat.le_refl _)

theorem cost_pop {st : σ × Tally} {l : Level} {c : Option Cursor} {s : List (Element × Level × Option Cursor)} :
    Cost st.2 d.level.idx L (d.pop st l c s) := by
  unfold Dec.pop
  split
  · exact cost_none
  · split
    · exact cost_none
    · exact cost_some (Nat.le_refl _)

theorem cost_close {st : σ × Tally} : Cost st.2 d.level.idx L (d.close st) := by
  unfold Dec.close
  split
  · exact cost_none
  · exact cost_brk
  · split
    · exact cost_brk
    · split <;> first | exact cost_pop | exact cost_none

theorem cost_commit {st : σ × Tally} : Cost st.2 d.level.idx L (d.commit st) := by
  unfold Dec.commit
  split
  · exact cost_none
  · split
    · exact cost_brk
    · split
      · exact cost_some (Nat.le_refl _)
      · exact cost_some (Nat.le_refl _)

mutual
theorem ask_cost (hI : Linear I data) : ∀ (x : Ask) (d d' : Dec) (st st' : σ × Tally) (r : Ans),
    Ask.run (countReads I) x d st = some (d', st', r) →
    st'.2.bytes ≤ st.2.bytes + x.count * data.length ∧ st'.2.calls + st.2.bytes ≤ st.2.calls + st'.2.bytes + x.count
  | .u16, d, d', st, st', r, h => by have := cost_u16 hI _ _ _ _ h; simp only [Ask.count]; omega
  | .string, d, d', st, st', r, h => by have := cost_str32 hI _ _ _ _ _ h; simp only [Ask.count]; omega
  | .signature, d, d', st, st', r, h => by have := cost_str8 hI _ _ _ _ _ h; simp only [Ask.count]; omega
  | .array, d, d', st, st', r, h => by have := cost_array hI _ _ _ _ h; simp only [Ask.count]; omega
  | .close, d, d', st, st', r, h => by have := cost_close (L := data.length) _ _ _ h; simp only [Ask.count]; omega
  | .commit, d, d', st, st', r, h => by have := cost_commit (L := data.length) _ _ _ h; simp only [Ask.count]; omega
  | .more, d, d', st, st', r, h => by cases h; simp only [Ask.count]; omega
  | .sub s l, d, d', st, st', r, h => by
    rw [Ask.run.eq_def] at h
    simp only [Ask.count, Nat.add_mul]
    simp only [] at h
    split at h
    · cases h
    · cases h; omega
    · split at h
      · cases h
      · rename_i hr
        have := asks_cost hI l _ _ _ _ _ hr
        cases h
        omega
theorem asks_cost (hI : Linear I data) : ∀ (l : List Ask) (d d' : Dec) (st st' : σ × Tally) (rs : List Ans),
    Ask.runs (countReads I) l d st = some (d', st', rs) →
    st'.2.bytes ≤ st.2.bytes + Ask.counts l * data.length ∧ st'.2.calls + st.2.bytes ≤ st.2.calls + st'.2.bytes + Ask.counts l
  | [], d, d', st, st', rs, h => by cases h; simp [Ask.counts]
  | x :: l, d, d', st, st', rs, h => by
    simp only [Ask.runs] at h
    simp only [Ask.counts, Nat.add_mul]
    split at h
    · cases h
    · rename_i h1
      have := ask_cost hI x _ _ _ _ _ h1
      split at h
      · cases h
      · rename_i h2
        have := asks_cost hI l _ _ _ _ _ h2
        cases h
        omega
end

/-! ## Every byte is copied once, unless a call is refused -/

/-- What a call did that was refused `R` times, itself or within. -/
structure Pays (R L : Nat) (d d' : Dec) (st st' : σ × Tally) : Prop where
  moves : d.level.idx + st'.2.bytes ≤ d'.level.idx + st.2.bytes + R * L
  within : st'.2.bytes ≤ st.2.bytes + R * L ∨ d.level.idx + st'.2.bytes ≤ L + st.2.bytes + R * L

theorem pays_cost {s : DStep (σ × Tally)} {st st' : σ × Tally} {d' : Dec} {r : Ans} (h : Cost st.2 d.level.idx L s)
    (hs : s = some (d', st', r)) (hr : r.fine = true ∨ d'.level.idx = d.level.idx ∧ r.refusals = 1) : Pays r.refusals L d d' st st' := by
  obtain ⟨h1, h2, -, h4⟩ := h _ _ _ hs
  rcases hr with hr | ⟨hr, h1⟩
  · have := h4 hr
    exact ⟨by omega, by omega⟩
  · rw [h1]
    exact ⟨by omega, by omega⟩

/-- A refused call leaves the decoder where it is, and no call other than a commit hands anything to the parent. -/
def Stays (d : Dec) (s : DStep (σ × Tally)) : Prop := ∀ d' st r, s = some (d', st, r) →
  (r.fine = true ∨ d'.level.idx = d.level.idx ∧ r.refusals = 1) ∧ d'.handed = d.handed ∧ d'.link = d.link

theorem stays_brk {st : σ × Tally} {e : Option DErr} : Stays d (some (d, st, .brk e)) := by
  intro d' st' r h
  cases h
  exact ⟨.inr ⟨rfl, rfl⟩, rfl, rfl⟩

theorem stays_none : Stays d (none : DStep (σ × Tally)) := fun _ _ _ h => by cases h

theorem stays_some {d' : Dec} {st : σ × Tally} {r : Ans} (h : r.fine = true) (h1 : d'.handed = d.handed) (h2 : d'.link = d.link) :
    Stays d (some (d', st, r)) := by
  intro d' st' r h
  cases h
  exact ⟨.inl ‹_›, h1, h2⟩

theorem stays_io {r : ReadOut (σ × Tally)} {k : (σ × Tally) → Nat → List UInt8 → DStep (σ × Tally)} (hk : ∀ st i o, Stays d (k st i o)) :
    Stays d (d.io r k) := by
  unfold Dec.io
  split
  · exact hk _ _ _
  · exact stays_brk
  · exact stays_none

theorem stays_align {st : σ × Tally} {idx exp : Nat} {k : Nat → DStep (σ × Tally)} (hk : ∀ i, Stays d (k i)) : Stays d (d.align st idx exp k) := by
  unfold Dec.align
  split
  · exact stays_none
  · split
    · exact stays_brk
    · exact hk _

theorem stays_expect {st : σ × Tally} {el : Element} {k : DStep (σ × Tally)} (hk : Stays d k) : Stays d (d.expect st el k) := by
  unfold Dec.expect
  split
  · exact stays_none
  · split
    · exact stays_brk
    · exact hk

theorem stays_advance {st : σ × Tally} {idx : Nat} {x : Ans} (hx : x.fine = true) : Stays d (d.advance st idx x) := by
  unfold Dec.advance
  split
  · exact stays_none
  · exact stays_some hx rfl rfl

theorem stays_text {st : σ × Tally} {idx len : Nat} : Stays d (d.text (countReads I) st idx len) := by
  refine stays_io fun _ _ _ => ?_
  split
  · split
    · exact stays_advance rfl
    · exact stays_none
  · exact stays_brk

theorem stays_array {st : σ × Tally} : Stays d (d.array (countReads I) st) := by
  refine stays_expect ?_
  split
  · exact stays_none
  · exact stays_none
  · refine stays_align fun _ => stays_io fun _ _ _ => stays_align fun _ => ?_
    split
    · exact stays_none
    · exact stays_some rfl rfl rfl

theorem stays_pop {st : σ × Tally} {l : Level} {c : Option Cursor} {s : List (Element × Level × Option Cursor)} : Stays d (d.pop st l c s) := by
  unfold Dec.pop
  split
  · exact stays_none
  · split
    · exact stays_none
    · exact stays_some rfl rfl rfl

theorem stays_close {st : σ × Tally} : Stays d (d.close st) := by
  unfold Dec.close
  split
  · exact stays_none
  · exact stays_brk
  · split
    · exact stays_brk
    · split <;> first | exact stays_pop | exact stays_none

/-- What a commit does. -/
theorem commit_eq {st st' : σ × Tally} {d' : Dec} {r : Ans} (h : d.commit st = some (d', st', r)) :
    st' = st ∧ d'.level = d.level ∧ (d.link = none → d'.link = none) ∧ ((r.refusals = 1 ∧ d'.handed = d.handed)
      ∨ (r.refusals = 0 ∧ (d.link.isSome = true → d'.handed = some d.level.idx))) := by
  unfold Dec.commit at h
  split at h
  · cases h
  · split at h
    · cases h; exact ⟨rfl, rfl, id, .inl ⟨rfl, rfl⟩⟩
    · split at h
      · cases h; exact ⟨rfl, rfl, fun _ => rfl, .inr ⟨rfl, fun _ => rfl⟩⟩
      · rename_i hl
        cases h; exact ⟨rfl, rfl, id, .inr ⟨rfl, fun hs => absurd hs hl⟩⟩

/-- What complete decoding with a sub-decoder did: it was handed to the parent, or the commit was refused. -/
structure Paid (R L : Nat) (d d' : Dec) (st st' : σ × Tally) : Prop where
  moves : d.level.idx + st'.2.bytes ≤ d'.level.idx + st.2.bytes + R * L
  ends : (d'.handed = some d'.level.idx ∧ (st'.2.bytes ≤ st.2.bytes + R * L ∨ d.level.idx + st'.2.bytes ≤ L + st.2.bytes + R * L))
    ∨ (d'.handed = d.handed ∧ ∃ Q, R = Q + 1 ∧ (st'.2.bytes ≤ st.2.bytes + Q * L ∨ d.level.idx + st'.2.bytes ≤ L + st.2.bytes + Q * L))

theorem paid_commit {st st' : σ × Tally} {d' : Dec} {r : Ans} (hl : d.link.isSome = true) (h : d.commit st = some (d', st', r)) :
    Paid r.refusals L d d' st st' := by
  obtain ⟨rfl, hd, -, h⟩ := commit_eq h
  refine ⟨by rw [hd]; omega, ?_⟩
  rcases h with ⟨h1, h2⟩ | ⟨h1, h2⟩
  · exact .inr ⟨h2, 0, h1, .inl (Nat.le_add_right _ _)⟩
  · exact .inl ⟨by rw [h2 hl, hd], .inl (Nat.le_add_right _ _)⟩

theorem paid_step {R S : Nat} {d d' d'' : Dec} {st st' st'' : σ × Tally} (h : Pays R L d d' st st') (hh : d'.handed = d.handed)
    (h' : Paid S L d' d'' st' st'') : Paid (R + S) L d d'' st st'' := by
  obtain ⟨h1, h2⟩ := h
  obtain ⟨h3, h4⟩ := h'
  refine ⟨by rw [Nat.add_mul]; omega, ?_⟩
  rcases h4 with ⟨h4, h5⟩ | ⟨h4, Q, hQ, h5⟩
  · exact .inl ⟨h4, by rw [Nat.add_mul]; omega⟩
  · exact .inr ⟨h4.trans hh, R + Q, by omega, by rw [Nat.add_mul]; omega⟩

theorem sub_begin {x : Dec} (h : d.sub = some (some x)) : x.level.idx = d.level.idx ∧ x.handed = none ∧ x.link.isSome = true := by
  unfold Dec.sub at h
  simp only [Option.bind_eq_bind, Option.bind_eq_some_iff] at h
  obtain ⟨st, -, v, -, h⟩ := h
  cases v with
  | none => cases h
  | some v =>
    simp only [Option.bind_eq_some_iff] at h
    obtain ⟨c, -, h⟩ := h
    cases h
    exact ⟨rfl, rfl, rfl⟩

theorem with_begin {x : Dec} {s : Option Sig} (h : (match s with | none => d.sub | some s => d.subWith s) = some (some x)) :
    x.level.idx = d.level.idx ∧ x.handed = none ∧ x.link.isSome = true := by
  cases s with
  | none => exact sub_begin h
  | some s =>
    simp only [Dec.subWith, Option.bind_eq_bind, Option.bind_eq_some_iff] at h
    obtain ⟨v, -, h⟩ := h
    cases v with
    | none => cases h
    | some v =>
      simp only [Option.bind_eq_some_iff] at h
      obtain ⟨b, -, h⟩ := h
      cases b with
      | false => cases h
      | true => exact sub_begin h

theorem pays_merge {R : Nat} {x x' : Dec} {st st' : σ × Tally} {step : Option Nat} (hi : x.level.idx = d.level.idx) (hh : x.handed = none)
    (h : Paid R L x x' st st') : Pays R L d (d.merge x' step) st st' := by
  obtain ⟨h1, h2⟩ := h
  unfold Dec.merge
  rcases h2 with ⟨h2, h3⟩ | ⟨h2, Q, hQ, h3⟩
  · rw [h2]
    exact ⟨by simp only []; omega, by omega⟩
  · rw [h2, hh]
    subst hQ
    exact ⟨by simp only []; rw [Nat.add_mul]; omega, by rw [Nat.add_mul]; omega⟩

theorem merge_keeps {x : Dec} {step : Option Nat} : (d.merge x step).handed = d.handed ∧ (d.merge x step).link = d.link := by
  unfold Dec.merge
  split <;> exact ⟨rfl, rfl⟩

theorem pays_both {s : DStep (σ × Tally)} {st st' : σ × Tally} {d' : Dec} {r : Ans} (h : Cost st.2 d.level.idx L s) (hs : Stays d s)
    (hr : s = some (d', st', r)) : Pays r.refusals L d d' st st' ∧ d'.handed = d.handed ∧ d'.link = d.link :=
  ⟨pays_cost h hr (hs _ _ _ hr).1, (hs _ _ _ hr).2⟩

mutual
theorem ask_pays (hI : Linear I data) : ∀ (x : Ask) (d d' : Dec) (st st' : σ × Tally) (r : Ans),
    Ask.run (countReads I) x d st = some (d', st', r) → x.tidy = true → x ≠ .commit →
    Pays r.refusals data.length d d' st st' ∧ d'.handed = d.handed ∧ d'.link = d.link
  | .u16, d, d', st, st', r, h, _, _ => pays_both (cost_u16 hI _)
      (stays_expect <| stays_align fun _ => stays_io fun _ _ _ => stays_advance rfl) h
  | .string, d, d', st, st', r, h, _, _ => pays_both (cost_str32 hI _ _)
      (stays_expect <| stays_align fun _ => stays_io fun _ _ _ => stays_text) h
  | .signature, d, d', st, st', r, h, _, _ => pays_both (cost_str8 hI _ _)
      (stays_expect <| stays_align fun _ => stays_io fun _ _ _ => stays_text) h
  | .array, d, d', st, st', r, h, _, _ => pays_both (cost_array hI _) stays_array h
  | .close, d, d', st, st', r, h, _, _ => pays_both cost_close stays_close h
  | .commit, d, d', st, st', r, h, _, hn => absurd rfl hn
  | .more, d, d', st, st', r, h, _, _ => by cases h; exact ⟨⟨by omega, by omega⟩, rfl, rfl⟩
  | .sub s l, d, d', st, st', r, h, ht, _ => by
    rw [Ask.run.eq_def] at h
    simp only [] at h
    split at h
    · cases h
    · cases h; exact ⟨⟨by omega, by omega⟩, rfl, rfl⟩
    · rename_i x hx
      split at h
      · cases h
      · rename_i hr
        cases h
        obtain ⟨hi, hh, hl⟩ := with_begin hx
        exact ⟨pays_merge hi hh (asks_paid hI l _ _ _ _ _ hr ht hl), merge_keeps⟩
theorem asks_paid (hI : Linear I data) : ∀ (l : List Ask) (d d' : Dec) (st st' : σ × Tally) (rs : List Ans),
    Ask.runs (countReads I) l d st = some (d', st', rs) → Ask.complete l = true → d.link.isSome = true →
    Paid (Ans.refused rs) data.length d d' st st'
  | [], d, d', st, st', rs, h, ht, hl => by cases ht
  | x :: l, d, d', st, st', rs, h, ht, hl => by
    simp only [Ask.runs] at h
    split at h
    · cases h
    · rename_i d1 st1 r h1
      split at h
      · cases h
      · rename_i h2
        cases h
        rw [Ask.complete.eq_def] at ht
        split at ht
        · cases ht
        · rename_i heq
          cases heq
          cases h2
          exact paid_commit hl h1
        · cases ht
        · rename_i hx heq
          cases heq
          simp only [Bool.and_eq_true] at ht
          have hc : x ≠ .commit := fun hc => hx hc
          obtain ⟨p, hh, hk⟩ := ask_pays hI x _ _ _ _ _ h1 ht.1 hc
          exact paid_step p hh (asks_paid hI l _ _ _ _ _ h2 ht.2 (by rw [hk]; exact hl))
end

/-- Decoders that are not sub-decoders may commit at any time. -/
theorem asks_pays (hI : Linear I data) : ∀ (l : List Ask) (d d' : Dec) (st st' : σ × Tally) (rs : List Ans),
    Ask.runs (countReads I) l d st = some (d', st', rs) → (∀ x ∈ l, x.tidy = true) →
    Pays (Ans.refused rs) data.length d d' st st'
  | [], d, d', st, st', rs, h, _ => by cases h; exact ⟨by omega, by omega⟩
  | x :: l, d, d', st, st', rs, h, ht => by
    simp only [Ask.runs] at h
    split at h
    · cases h
    · rename_i d1 st1 r h1
      split at h
      · cases h
      · rename_i h2
        cases h
        have p1 : Pays r.refusals data.length d d1 st st1 := by
          by_cases hc : x = .commit
          · subst hc
            obtain ⟨rfl, hd, -⟩ := commit_eq h1
            exact ⟨by rw [hd]; omega, by omega⟩
          · exact (ask_pays hI x _ _ _ _ _ h1 (ht x (List.mem_cons_self ..)) hc).1
        obtain ⟨h3, h4⟩ := p1
        obtain ⟨h5, h6⟩ := asks_pays hI l _ _ _ _ _ h2 fun y hy => ht y (List.mem_cons_of_mem _ hy)
        simp only [Ans.refused]
        exact ⟨by rw [Nat.add_mul]; omega, by rw [Nat.add_mul]; omega⟩

end Verif.Dbus
