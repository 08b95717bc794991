import Verif.Dbus.ModelPanic
import Verif.Dbus.SpecPanic
/-! # Lemmas: panics of writers and readers are like their refusals -/
namespace Verif.Dbus
open Verif.Io

variable {σ : Type} {I : WriteImpl σ}

/-- Where a panic becomes a refusal. -/
def _root_.Verif.Io.Flow.calm {α : Type} : Flow α → Flow α
  | .fault => .brk none
  | f => f

/-- Unless the calm writer panics, the other one does the same, but may panic where that refuses. -/
structure Like (r r' : WriteOut σ) : Prop where
  out : r'.flow ≠ .fault → r' = ⟨r.w, r.idx, r.flow.calm⟩

theorem Like.here (w : Writer σ) (idx : Nat) (f : Flow Unit) : Like ⟨w, idx, f⟩ ⟨w, idx, f⟩ := by
  refine ⟨fun h => ?_⟩
  cases f with
  | fault => exact absurd rfl h
  | _ => rfl

theorem calm_map (I : WriteImpl σ) (st : σ) (i n : Nat) : (calm I).map st i n = (match (I.map st i n) with
    | (st, .fault) => (st, .brk none)
    | (st, .cont 0) => (st, .brk none)
    | x => x) := rfl

theorem write_like : ∀ (fuel : Nat) (w : Writer σ) (idx : Nat) (data : List UInt8),
    Like (writeLoop I fuel w idx data) (writeLoop (calm I) fuel w idx data) := by
  intro fuel
  induction fuel with
  | zero =>
    intro w idx data
    unfold writeLoop
    split
    · exact Like.here ..
    · exact Like.here ..
  | succ fuel ih =>
    intro w idx data
    unfold writeLoop
    split
    · simp only [calm_map]
      rcases I.map w.st idx data.length with ⟨st, m | x | _⟩
      · cases m with
        | zero => exact ⟨fun _ => by simp [Flow.calm]⟩
        | succ m =>
          simp only [Nat.zero_lt_succ, gt_iff_lt, if_true]
          split
          · exact ih _ _ _
          · exact Like.here ..
      · exact Like.here ..
      · exact ⟨fun _ => rfl⟩
    · exact Like.here ..

theorem fill_like : ∀ (fuel : Nat) (w : Writer σ) (idx len : Nat) (b : UInt8),
    Like (fillLoop I fuel w idx len b) (fillLoop (calm I) fuel w idx len b) := by
  intro fuel
  induction fuel with
  | zero =>
    intro w idx len b
    unfold fillLoop
    split
    · exact Like.here ..
    · exact Like.here ..
  | succ fuel ih =>
    intro w idx len b
    unfold fillLoop
    split
    · simp only [calm_map]
      rcases I.map w.st idx len with ⟨st, m | x | _⟩
      · cases m with
        | zero => exact ⟨fun _ => by simp [Flow.calm]⟩
        | succ m =>
          simp only [Nat.zero_lt_succ, gt_iff_lt, if_true]
          split
          · exact ih _ _ _ _
          · exact Like.here ..
      · exact Like.here ..
      · exact ⟨fun _ => rfl⟩
    · exact Like.here ..

theorem zero_like (w : Writer σ) (idx len : Nat) : Like (zero I w idx len) (zero (calm I) w idx len) := fill_like ..

theorem align_like (w : Writer σ) (idx exp : Nat) : Like (alignExp2 I w idx exp) (alignExp2 (calm I) w idx exp) := by
  unfold alignExp2
  split
  · exact Like.here ..
  · split
    · exact Like.here ..
    · exact zero_like ..

theorem iter_like {ι : Type} (T : Iter ι) : ∀ (fuel : Nat) (w : Writer σ) (idx : Nat) (it : ι),
    Like (writeIterLoop I T fuel w idx it) (writeIterLoop (calm I) T fuel w idx it) := by
  intro fuel
  induction fuel with
  | zero => intro w idx it; exact Like.here ..
  | succ fuel ih =>
    intro w idx it
    unfold writeIterLoop
    split
    · exact Like.here ..
    · split
      · exact Like.here ..
      · exact Like.here ..
    · rename_i n _
      simp only [calm_map]
      rcases I.map w.st idx (n + 1) with ⟨st, m | x | _⟩
      · cases m with
        | zero => exact ⟨fun _ => by simp [Flow.calm]⟩
        | succ m =>
          simp only [Nat.zero_lt_succ, gt_iff_lt, if_true]
          split
          · exact ih _ _ _
          · exact Like.here ..
      · exact Like.here ..
      · exact ⟨fun _ => rfl⟩

theorem writeIter_like {ι : Type} (T : Iter ι) (w : Writer σ) (idx : Nat) (it : ι) :
    Like (writeIter I T w idx it) (writeIter (calm I) T w idx it) := by
  unfold writeIter
  split
  · exact Like.here ..
  · exact iter_like ..

/-! ## Calls -/

/-- Unless the call panics with the calm writer, it leaves the same behind with the other one. -/
structure LikeS (s : StepU σ) (s' : Step σ) : Prop where
  out : ∀ e w r, s' = some (e, w, r) → ∃ r', s = (e, w, r') ∧ r'.calm = r

theorem LikeS.here (e : Enc) (w : Writer σ) {r : DResU} {r' : DRes} (h : r.calm = r') : LikeS (e, w, r) (some (e, w, r')) := by
  refine ⟨fun _ _ _ hs => ?_⟩
  cases hs
  exact ⟨r, rfl, h⟩

theorem LikeS.none (s : StepU σ) : LikeS s none := ⟨fun _ _ _ h => by cases h⟩

theorem LikeS.io {e : Enc} {r r' : WriteOut σ} {k : Writer σ → Nat → StepU σ} {k' : Writer σ → Nat → Step σ} (h : Like r r')
    (hk : ∀ w idx, LikeS (k w idx) (k' w idx)) : LikeS (e.ioU r k) (e.io r' k') := by
  obtain ⟨w, idx, f⟩ := r
  obtain ⟨w', idx', f'⟩ := r'
  cases f' with
  | fault => exact LikeS.none _
  | cont a =>
    have := h.out (by simp)
    cases f <;> cases this
    exact hk _ _
  | brk x =>
    have := h.out (by simp)
    cases f with
    | cont a => cases this
    | brk y => cases this; exact LikeS.here _ _ rfl
    | fault => cases this; exact LikeS.here _ _ rfl

theorem LikeS.expect {e : Enc} {w : Writer σ} {el : Element} {k : StepU σ} {k' : Step σ} (h : LikeS k k') :
    LikeS (e.expectU w el k) (e.expect w el k') := by
  unfold Enc.expectU Enc.expect
  cases e.cursor.element with
  | none => exact LikeS.none _
  | some x =>
    simp only []
    by_cases hx : x ≠ some el
    · rw [if_pos hx, if_pos hx]; exact LikeS.here _ _ rfl
    · rw [if_neg hx, if_neg hx]; exact h

theorem LikeS.advance (e : Enc) (w : Writer σ) (idx : Nat) : LikeS (e.advanceU w idx) (e.advance w idx) := by
  unfold Enc.advanceU Enc.advance
  simp only []
  cases e.cursor.move_step with
  | none => exact LikeS.none _
  | some c => exact LikeS.here _ _ rfl

theorem LikeS.ite {c : Prop} [Decidable c] {a b : StepU σ} {a' b' : Step σ} (ha : LikeS a a') (hb : LikeS b b') :
    LikeS (if c then a else b) (if c then a' else b') := by
  by_cases h : c
  · rw [if_pos h, if_pos h]; exact ha
  · rw [if_neg h, if_neg h]; exact hb

theorem LikeS.fixed (e : Enc) (w : Writer σ) (el : Element) (d : List UInt8) : LikeS (e.fixedU I w el d) (e.fixed (calm I) w el d) :=
  .expect <| .io (align_like ..) fun _ _ => .io (write_like ..) fun _ _ => .advance ..

theorem LikeS.str8 (e : Enc) (w : Writer σ) (el : Element) (d : List UInt8) : LikeS (e.str8U I w el d) (e.str8 (calm I) w el d) :=
  .expect <| .ite (.io (align_like ..) fun _ _ => .io (write_like ..) fun _ _ => .io (write_like ..) fun _ _ => .io (zero_like ..) fun _ _ => .advance ..)
    (.here _ _ rfl)

theorem LikeS.str32 (e : Enc) (w : Writer σ) (el : Element) (d : List UInt8) : LikeS (e.str32U I w el d) (e.str32 (calm I) w el d) :=
  .expect <| .ite (.io (align_like ..) fun _ _ => .io (write_like ..) fun _ _ => .io (write_like ..) fun _ _ => .io (zero_like ..) fun _ _ => .advance ..)
    (.here _ _ rfl)

theorem LikeS.variant (e : Enc) (w : Writer σ) (s : Sig) : LikeS (e.variantU I w s) (e.variant (calm I) w s) := by
  refine .expect ?_
  cases s.len with
  | none => exact LikeS.none _
  | some n =>
    refine .ite (.io (align_like ..) fun _ _ => .io (write_like ..) fun _ _ => ?_) (.here _ _ rfl)
    cases Cursor.new s with
    | none => exact LikeS.none _
    | some c => exact .io (writeIter_like ..) fun _ _ => .io (zero_like ..) fun _ _ => .here _ _ rfl

theorem LikeS.array (e : Enc) (w : Writer σ) : LikeS (e.arrayU I w) (e.array (calm I) w) := by
  refine .expect ?_
  rcases e.cursor.down with _ | _ | el
  · exact LikeS.none _
  · exact LikeS.none _
  · refine .io (align_like ..) fun _ _ => .io (write_like ..) fun _ _ => .io (align_like ..) fun _ _ => ?_
    unfold Enc.enterU
    simp only []
    cases e.cursor.move_down with
    | none => exact LikeS.none _
    | some c => exact LikeS.here _ _ rfl

theorem LikeS.bracket (e : Enc) (w : Writer σ) (el : Element) : LikeS (e.bracketU I w el) (e.bracket (calm I) w el) := by
  refine .expect ?_
  rcases e.cursor.dvarExp with _ | _ | x
  · exact LikeS.none _
  · exact LikeS.none _
  · refine .io (align_like ..) fun _ _ => ?_
    unfold Enc.enterU
    simp only []
    cases e.cursor.move_down with
    | none => exact LikeS.none _
    | some c => exact LikeS.here _ _ rfl

theorem LikeS.pop (e : Enc) (w : Writer σ) (el : Element) (L : Level) (oc : Option Cursor) (S : List (Element × Level × Option Cursor)) :
    LikeS (e.popU w el L oc S) (e.pop w L oc S) := by
  unfold Enc.popU Enc.pop
  cases oc with
  | some c =>
    simp only []
    cases c.move_step with
    | none => exact LikeS.none _
    | some c => exact LikeS.here _ _ rfl
  | none =>
    simp only []
    cases e.cursor.move_up with
    | none => exact LikeS.none _
    | some c =>
      simp only []
      cases c.move_step with
      | none => exact LikeS.none _
      | some c => exact LikeS.here _ _ rfl

theorem LikeS.close (e : Enc) (w : Writer σ) : LikeS (e.closeU I w) (e.close (calm I) w) := by
  unfold Enc.closeU Enc.close
  rcases e.cursor.idx_step with _ | _ | x
  · exact LikeS.none _
  · simp only []
    rcases e.stack with _ | ⟨⟨el, L, oc⟩, S⟩
    · exact LikeS.here _ _ rfl
    · simp only []
      cases el with
      | variant => exact LikeS.pop ..
      | structOpen => exact LikeS.pop ..
      | dictOpen => exact LikeS.pop ..
      | array =>
        simp only []
        cases strictSub e.level.idx e.level.from_ with
        | none => exact LikeS.none _
        | some n => exact .ite (.ite (.io (write_like ..) fun _ _ => .pop ..) (.here _ _ rfl)) (.pop ..)
      | _ => exact LikeS.none _
  · exact LikeS.here _ _ rfl

theorem LikeS.commit {I : WriteImplU σ} (hI : ∀ st n, I.dies st n = false) (e : Enc) (w : Writer σ) :
    LikeS (e.commitU I w) (e.commit (calm I.toWriteImpl) w) := by
  unfold Enc.commitU Enc.commit
  cases e.cursor.idx_step with
  | none => exact LikeS.none _
  | some step =>
    simp only [hI, Bool.false_eq_true, if_false]
    exact .ite (.here _ _ rfl) (.ite (.here _ _ rfl) (.ite (.here _ _ rfl) (.here _ _ rfl)))

theorem likeS_map {s : StepU σ} {s' : Step σ} (h : LikeS s s') {e : Enc} {w : Writer σ} {o : Out}
    (hs : s'.map (fun (e, w, r) => (e, w, Out.res r)) = some (e, w, o)) :
    ∃ o', (s.1, s.2.1, OutU.res s.2.2) = (e, w, o') ∧ o'.calm = o := by
  obtain ⟨⟨e', w', r⟩, h1, h2⟩ := Option.map_eq_some_iff.mp hs
  obtain ⟨r', hr, hc⟩ := h.out _ _ _ h1
  cases h2
  subst hr
  exact ⟨.res r', rfl, by rw [OutU.calm, hc]⟩

mutual
theorem run_like {I : WriteImplU σ} (hI : ∀ st n, I.dies st n = false) : (op : Op) → (e : Enc) → (w : Writer σ) → (e' : Enc) → (w' : Writer σ) → (o : Out) →
    op.run (calm I.toWriteImpl) e w = some (e', w', o) → ∃ o', op.runU I e w = (e', w', o') ∧ o'.calm = o
  | .u16 v, e, w, e', w', o, h => by rw [Op.run] at h; rw [Op.runU]; exact likeS_map (.fixed ..) h
  | .u32 v, e, w, e', w', o, h => by rw [Op.run] at h; rw [Op.runU]; exact likeS_map (.fixed ..) h
  | .u64 v, e, w, e', w', o, h => by rw [Op.run] at h; rw [Op.runU]; exact likeS_map (.fixed ..) h
  | .string s, e, w, e', w', o, h => by rw [Op.run] at h; rw [Op.runU]; exact likeS_map (.str32 ..) h
  | .object s, e, w, e', w', o, h => by rw [Op.run] at h; rw [Op.runU]; exact likeS_map (.str32 ..) h
  | .signature s, e, w, e', w', o, h => by rw [Op.run] at h; rw [Op.runU]; exact likeS_map (.str8 ..) h
  | .variant s, e, w, e', w', o, h => by rw [Op.run] at h; rw [Op.runU]; exact likeS_map (.variant ..) h
  | .array, e, w, e', w', o, h => by rw [Op.run] at h; rw [Op.runU]; exact likeS_map (.array ..) h
  | .structure, e, w, e', w', o, h => by rw [Op.run] at h; rw [Op.runU]; exact likeS_map (.bracket ..) h
  | .dict, e, w, e', w', o, h => by rw [Op.run] at h; rw [Op.runU]; exact likeS_map (.bracket ..) h
  | .close, e, w, e', w', o, h => by rw [Op.run] at h; rw [Op.runU]; exact likeS_map (.close ..) h
  | .commit, e, w, e', w', o, h => by rw [Op.run] at h; rw [Op.runU]; exact likeS_map (.commit hI ..) h
  | .sub s ops, e, w, e', w', o, h => by
    have key : ∀ (x : Option (Option Enc)) (y : Enc × Writer σ × OutU), (match x with
          | none => none
          | some none => some (e, w, Out.res (.brk (some .mismatch)))
          | some (some x) =>
            match Op.runs (calm I.toWriteImpl) ops x w with
            | none => none
            | some (x', w, outs) => some (e.merge x' (x.link.bind id), w, .sub outs)) = some (e', w', o) →
        y = (match x with
          | none => (e, w, OutU.res .panic)
          | some none => (e, w, .res (.brk (some .mismatch)))
          | some (some x) => (e.merge (Op.runsU I ops x w).1 (x.link.bind id), (Op.runsU I ops x w).2.1, .sub (Op.runsU I ops x w).2.2)) →
        ∃ o', y = (e', w', o') ∧ o'.calm = o := by
      rintro x _ h rfl
      rcases x with _ | _ | x
      · cases h
      · cases h
        exact ⟨_, rfl, by rw [OutU.calm]; rfl⟩
      · simp only [] at h
        cases hr : Op.runs (calm I.toWriteImpl) ops x w with
        | none => rw [hr] at h; cases h
        | some y =>
          obtain ⟨x', w1, outs⟩ := y
          rw [hr] at h
          cases h
          obtain ⟨outs', h1, h2⟩ := runs_like hI ops x w x' w' outs hr
          simp only [h1]
          exact ⟨_, rfl, by rw [OutU.calm, h2]⟩
    cases s with
    | none => simp only [Op.run] at h; simp only [Op.runU]; exact key e.sub _ h rfl
    | some s => simp only [Op.run] at h; simp only [Op.runU]; exact key (e.subWith s) _ h rfl
theorem runs_like {I : WriteImplU σ} (hI : ∀ st n, I.dies st n = false) : (ops : List Op) → (e : Enc) → (w : Writer σ) → (e' : Enc) → (w' : Writer σ) →
    (outs : List Out) → Op.runs (calm I.toWriteImpl) ops e w = some (e', w', outs) → ∃ outs', Op.runsU I ops e w = (e', w', outs') ∧ OutU.calms outs' = outs
  | [], e, w, e', w', outs, h => by
    rw [Op.runs] at h
    cases h
    rw [Op.runsU]
    exact ⟨[], rfl, by rw [OutU.calms]⟩
  | op :: ops, e, w, e', w', outs, h => by
    rw [Op.runs] at h
    rw [Op.runsU]
    cases hr : op.run (calm I.toWriteImpl) e w with
    | none => rw [hr] at h; cases h
    | some y =>
      obtain ⟨e1, w1, o⟩ := y
      rw [hr] at h
      simp only [] at h
      obtain ⟨o', h1, h2⟩ := run_like hI op e w e1 w1 o hr
      cases hq : Op.runs (calm I.toWriteImpl) ops e1 w1 with
      | none => rw [hq] at h; cases h
      | some y =>
        obtain ⟨e2, w2, os⟩ := y
        rw [hq] at h
        cases h
        obtain ⟨os', h3, h4⟩ := runs_like hI ops e1 w1 e' w' os hq
        simp only [h1, h3]
        exact ⟨_, rfl, by rw [OutU.calms, h2, h4]⟩
end

/-! ## The decoder -/

variable {J : ReadImpl σ}

structure LikeR (r r' : ReadOut σ) : Prop where
  out : r'.flow ≠ .fault → r' = ⟨r.st, r.idx, r.out, r.flow.calm⟩

theorem LikeR.here (st : σ) (idx : Nat) (out : List UInt8) (f : Flow Unit) : LikeR ⟨st, idx, out, f⟩ ⟨st, idx, out, f⟩ := by
  refine ⟨fun h => ?_⟩
  cases f with
  | fault => exact absurd rfl h
  | _ => rfl

theorem calmR_map (J : ReadImpl σ) (st : σ) (i n : Nat) : (calmR J).map st i n = (match (J.map st i n) with
    | (st, .fault) => (st, .brk none)
    | (st, .cont []) => (st, .brk none)
    | x => x) := rfl

theorem read_like : ∀ (fuel : Nat) (st : σ) (idx len : Nat) (out : List UInt8), LikeR (readLoop J fuel st idx len out) (readLoop (calmR J) fuel st idx len out) := by
  intro fuel
  induction fuel with
  | zero =>
    intro st idx len out
    unfold readLoop
    split
    · exact LikeR.here ..
    · exact LikeR.here ..
  | succ fuel ih =>
    intro st idx len out
    unfold readLoop
    split
    · simp only [calmR_map]
      rcases J.map st idx len with ⟨st, m | x | _⟩
      · cases m with
        | nil => exact ⟨fun _ => by simp [Flow.calm]⟩
        | cons b m =>
          simp only [List.length_cons, Nat.zero_lt_succ, gt_iff_lt, if_true]
          split
          · exact ih _ _ _ _
          · exact LikeR.here ..
      · exact LikeR.here ..
      · exact ⟨fun _ => rfl⟩
    · exact LikeR.here ..

structure LikeD (s : DStepU σ) (s' : DStep σ) : Prop where
  out : ∀ d st a, s' = some (d, st, a) → ∃ a', s = (d, st, a') ∧ a'.calm = a

theorem LikeD.here (d : Dec) (st : σ) {a : AnsU} {a' : Ans} (h : a.calm = a') : LikeD (d, st, a) (some (d, st, a')) := by
  refine ⟨fun _ _ _ hs => ?_⟩
  cases hs
  exact ⟨a, rfl, h⟩

theorem LikeD.none (s : DStepU σ) : LikeD s none := ⟨fun _ _ _ h => by cases h⟩

theorem LikeD.io {d : Dec} {r r' : ReadOut σ} {k : σ → Nat → List UInt8 → DStepU σ} {k' : σ → Nat → List UInt8 → DStep σ} (h : LikeR r r')
    (hk : ∀ st idx out, LikeD (k st idx out) (k' st idx out)) : LikeD (d.ioU r k) (d.io r' k') := by
  obtain ⟨st, idx, out, f⟩ := r
  obtain ⟨st', idx', out', f'⟩ := r'
  cases f' with
  | fault => exact LikeD.none _
  | cont a =>
    have := h.out (by simp)
    cases f <;> cases this
    exact hk _ _ _
  | brk x =>
    have := h.out (by simp)
    cases f with
    | cont a => cases this
    | brk y => cases this; exact LikeD.here _ _ (by rw [AnsU.calm])
    | fault => cases this; exact LikeD.here _ _ (by rw [AnsU.calm]; rfl)

theorem LikeD.ite {c : Prop} [Decidable c] {a b : DStepU σ} {a' b' : DStep σ} (ha : LikeD a a') (hb : LikeD b b') :
    LikeD (if c then a else b) (if c then a' else b') := by
  by_cases h : c
  · rw [if_pos h, if_pos h]; exact ha
  · rw [if_neg h, if_neg h]; exact hb

theorem LikeD.align {d : Dec} {st : σ} {idx exp : Nat} {k : Nat → DStepU σ} {k' : Nat → DStep σ} (hk : ∀ i, LikeD (k i) (k' i)) :
    LikeD (d.alignU st idx exp k) (d.align st idx exp k') := by
  unfold Dec.alignU Dec.align
  cases shl1 exp with
  | none => exact LikeD.none _
  | some m =>
    simp only []
    cases checkedNextMultipleOf idx m with
    | none => exact LikeD.here _ _ (by rw [AnsU.calm])
    | some v => exact hk v

theorem LikeD.expect {d : Dec} {st : σ} {el : Element} {k : DStepU σ} {k' : DStep σ} (h : LikeD k k') : LikeD (d.expectU st el k) (d.expect st el k') := by
  unfold Dec.expectU Dec.expect
  cases d.cursor.element with
  | none => exact LikeD.none _
  | some x => exact .ite (.here _ _ (by rw [AnsU.calm])) h

theorem LikeD.advance (d : Dec) (st : σ) (idx : Nat) {a : AnsU} {a' : Ans} (h : a.calm = a') : LikeD (d.advanceU st idx a) (d.advance st idx a') := by
  unfold Dec.advanceU Dec.advance
  simp only []
  cases d.cursor.move_step with
  | none => exact LikeD.none _
  | some c => exact LikeD.here _ _ h

theorem LikeD.u16 (d : Dec) (st : σ) : LikeD (d.u16U J st) (d.u16 (calmR J) st) :=
  .expect <| .align fun _ => .io (read_like ..) fun _ _ _ => .advance _ _ _ (by rw [AnsU.calm])

theorem LikeD.text (d : Dec) (st : σ) (idx len : Nat) : LikeD (d.textU J st idx len) (d.text (calmR J) st idx len) :=
  .io (read_like ..) fun _ _ _ => .ite (.ite (.advance _ _ _ (by rw [AnsU.calm])) (.none _)) (.here _ _ (by rw [AnsU.calm]))

theorem LikeD.str8 (d : Dec) (st : σ) (el : Element) : LikeD (d.str8U J st el) (d.str8 (calmR J) st el) :=
  .expect <| .align fun _ => .io (read_like ..) fun _ _ _ => .text ..

theorem LikeD.str32 (d : Dec) (st : σ) (el : Element) : LikeD (d.str32U J st el) (d.str32 (calmR J) st el) :=
  .expect <| .align fun _ => .io (read_like ..) fun _ _ _ => .text ..

theorem LikeD.array (d : Dec) (st : σ) : LikeD (d.arrayU J st) (d.array (calmR J) st) := by
  refine .expect ?_
  rcases d.cursor.down with _ | _ | el
  · exact LikeD.none _
  · exact LikeD.none _
  · refine .align fun _ => .io (read_like ..) fun _ _ _ => .align fun _ => ?_
    simp only []
    cases d.cursor.move_down with
    | none => exact LikeD.none _
    | some c => exact LikeD.here _ _ (by rw [AnsU.calm])

theorem LikeD.pop (d : Dec) (st : σ) (el : Element) (L : Level) (oc : Option Cursor) (S : List (Element × Level × Option Cursor)) :
    LikeD (d.popU st el L oc S) (d.pop st L oc S) := by
  unfold Dec.popU Dec.pop
  cases oc with
  | some c =>
    simp only []
    cases c.move_step with
    | none => exact LikeD.none _
    | some c => exact LikeD.here _ _ (by rw [AnsU.calm])
  | none =>
    simp only []
    cases d.cursor.move_up with
    | none => exact LikeD.none _
    | some c =>
      simp only []
      cases c.move_step with
      | none => exact LikeD.none _
      | some c => exact LikeD.here _ _ (by rw [AnsU.calm])

theorem LikeD.close (d : Dec) (st : σ) : LikeD (d.closeU st) (d.close st) := by
  unfold Dec.closeU Dec.close
  rcases d.cursor.idx_step with _ | _ | x
  · exact LikeD.none _
  · simp only []
    rcases d.stack with _ | ⟨⟨el, L, oc⟩, S⟩
    · exact LikeD.here _ _ (by rw [AnsU.calm])
    · simp only []
      cases el with
      | variant => exact LikeD.pop ..
      | structOpen => exact LikeD.pop ..
      | dictOpen => exact LikeD.pop ..
      | array => exact LikeD.pop ..
      | _ => exact LikeD.none _
  · exact LikeD.here _ _ (by rw [AnsU.calm])

theorem LikeD.commit (d : Dec) (st : σ) : LikeD (d.commitU st) (d.commit st) := by
  unfold Dec.commitU Dec.commit
  cases d.cursor.idx_step with
  | none => exact LikeD.none _
  | some step => exact .ite (.here _ _ (by rw [AnsU.calm])) (.ite (.here _ _ (by rw [AnsU.calm])) (.here _ _ (by rw [AnsU.calm])))

mutual
theorem ask_like : (x : Ask) → (d : Dec) → (st : σ) → LikeD (x.runU J d st) (x.run (calmR J) d st)
  | .u16, d, st => by rw [Ask.runU, Ask.run]; exact .u16 ..
  | .string, d, st => by rw [Ask.runU, Ask.run]; exact .str32 ..
  | .signature, d, st => by rw [Ask.runU, Ask.run]; exact .str8 ..
  | .array, d, st => by rw [Ask.runU, Ask.run]; exact .array ..
  | .close, d, st => by rw [Ask.runU, Ask.run]; exact .close ..
  | .commit, d, st => by rw [Ask.runU, Ask.run]; exact .commit ..
  | .more, d, st => by rw [Ask.runU, Ask.run]; exact .here _ _ (by rw [AnsU.calm])
  | .sub s l, d, st => by
    have key : ∀ x : Option (Option Dec), LikeD (match x with
          | none => (d, st, .panic)
          | some none => (d, st, .brk (some .mismatch))
          | some (some x) => (d.merge (Ask.runsU J l x st).1 (x.link.bind id), (Ask.runsU J l x st).2.1, .sub (Ask.runsU J l x st).2.2))
        (match x with
          | none => none
          | some none => some (d, st, .brk (some .mismatch))
          | some (some x) =>
            match Ask.runs (calmR J) l x st with
            | none => none
            | some (x', st, as) => some (d.merge x' (x.link.bind id), st, .sub as)) := by
      intro x
      rcases x with _ | _ | x
      · exact LikeD.none _
      · exact .here _ _ (by rw [AnsU.calm])
      · simp only []
        cases hr : Ask.runs (calmR J) l x st with
        | none => exact LikeD.none _
        | some y =>
          obtain ⟨x', st1, as⟩ := y
          obtain ⟨as', h1, h2⟩ := asks_like l x st x' st1 as hr
          simp only [h1]
          exact .here _ _ (by rw [AnsU.calm, h2])
    cases s with
    | none => simp only [Ask.runU, Ask.run]; exact key d.sub
    | some s => simp only [Ask.runU, Ask.run]; exact key (d.subWith s)
theorem asks_like : (l : List Ask) → (d : Dec) → (st : σ) → (d' : Dec) → (st' : σ) → (as : List Ans) → Ask.runs (calmR J) l d st = some (d', st', as) →
    ∃ as', Ask.runsU J l d st = (d', st', as') ∧ AnsU.calms as' = as
  | [], d, st, d', st', as, h => by
    rw [Ask.runs] at h
    cases h
    rw [Ask.runsU]
    exact ⟨[], rfl, by rw [AnsU.calms]⟩
  | x :: l, d, st, d', st', as, h => by
    rw [Ask.runs] at h
    rw [Ask.runsU]
    cases hr : x.run (calmR J) d st with
    | none => rw [hr] at h; cases h
    | some y =>
      obtain ⟨d1, st1, a⟩ := y
      rw [hr] at h
      simp only [] at h
      obtain ⟨a', h1, h2⟩ := (ask_like x d st).out d1 st1 a hr
      cases hq : Ask.runs (calmR J) l d1 st1 with
      | none => rw [hq] at h; cases h
      | some y =>
        obtain ⟨d2, st2, os⟩ := y
        rw [hq] at h
        cases h
        obtain ⟨os', h3, h4⟩ := asks_like l d1 st1 d' st' os hq
        simp only [h1, h3]
        exact ⟨_, rfl, by rw [AnsU.calms, h2, h4]⟩
end

end Verif.Dbus
