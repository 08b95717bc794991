import Verif.Dbus.PropsPanic
import Verif.Dbus.SpecDie
/-! # Helper lemmas: writers that panic when they are told to commit -/
namespace Verif.Dbus.Die
open Verif.Io
variable {σ : Type}

/-- The writer that does the same but never panics when it is told to commit. -/
def bold (I : WriteImplU σ) : WriteImplU σ := ⟨I.toWriteImpl, fun _ _ => false⟩

/-- Encoders that do not call `commit` of the writer: sub-encoders, and those that have done so. -/
def Safe (e : Enc) : Prop := e.link.isSome = true ∨ e.done = true

structure Stays (e e' : Enc) : Prop where
  link : e'.link = e.link
  done : e'.done = e.done

theorem Stays.refl (e : Enc) : Stays e e := ⟨rfl, rfl⟩

theorem Stays.safe {e e' : Enc} (h : Stays e e') (hs : Safe e) : Safe e' := by
  unfold Safe
  rw [h.link, h.done]
  exact hs

theorem stays_io {e : Enc} {r : WriteOut σ} {k : Writer σ → Nat → StepU σ} (hk : ∀ w i, Stays e (k w i).1) : Stays e (e.ioU r k).1 := by
  unfold Enc.ioU
  split
  · exact hk _ _
  · exact Stays.refl e
  · exact Stays.refl e

theorem stays_expect {e : Enc} {w : Writer σ} {el : Element} {k : StepU σ} (h : Stays e k.1) : Stays e (e.expectU w el k).1 := by
  unfold Enc.expectU
  split
  · exact Stays.refl e
  · split
    · exact Stays.refl e
    · exact h

theorem stays_advance {e : Enc} {w : Writer σ} {idx : Nat} : Stays e (e.advanceU w idx).1 := by
  unfold Enc.advanceU
  simp only []
  split <;> exact ⟨rfl, rfl⟩

theorem stays_fixed (I : WriteImpl σ) (e : Enc) (w : Writer σ) (el : Element) (data : List UInt8) : Stays e (e.fixedU I w el data).1 :=
  stays_expect <| stays_io fun _ _ => stays_io fun _ _ => stays_advance

theorem stays_str8 (I : WriteImpl σ) (e : Enc) (w : Writer σ) (el : Element) (data : List UInt8) : Stays e (e.str8U I w el data).1 := by
  refine stays_expect ?_
  split
  · exact stays_io fun _ _ => stays_io fun _ _ => stays_io fun _ _ => stays_io fun _ _ => stays_advance
  · exact Stays.refl e

theorem stays_str32 (I : WriteImpl σ) (e : Enc) (w : Writer σ) (el : Element) (data : List UInt8) : Stays e (e.str32U I w el data).1 := by
  refine stays_expect ?_
  split
  · exact stays_io fun _ _ => stays_io fun _ _ => stays_io fun _ _ => stays_io fun _ _ => stays_advance
  · exact Stays.refl e

theorem stays_variant (I : WriteImpl σ) (e : Enc) (w : Writer σ) (s : Sig) : Stays e (e.variantU I w s).1 := by
  refine stays_expect ?_
  split
  · exact Stays.refl e
  · split
    · refine stays_io fun _ _ => stays_io fun _ _ => ?_
      split
      · exact Stays.refl e
      · exact stays_io fun _ _ => stays_io fun _ _ => ⟨rfl, rfl⟩
    · exact Stays.refl e

theorem stays_enter {e : Enc} {w : Writer σ} {el : Element} {L : Level} : Stays e (e.enterU w el L).1 := by
  unfold Enc.enterU
  simp only []
  split <;> exact ⟨rfl, rfl⟩

theorem stays_array (I : WriteImpl σ) (e : Enc) (w : Writer σ) : Stays e (e.arrayU I w).1 := by
  refine stays_expect ?_
  split
  · exact Stays.refl e
  · exact Stays.refl e
  · exact stays_io fun _ _ => stays_io fun _ _ => stays_io fun _ _ => stays_enter

theorem stays_bracket (I : WriteImpl σ) (e : Enc) (w : Writer σ) (el : Element) : Stays e (e.bracketU I w el).1 := by
  refine stays_expect ?_
  split
  · exact Stays.refl e
  · exact Stays.refl e
  · exact stays_io fun _ _ => stays_enter

theorem stays_pop {e : Enc} {w : Writer σ} {el : Element} {up : Level} {uc : Option Cursor} {st : List (Element × Level × Option Cursor)} :
    Stays e (e.popU w el up uc st).1 := by
  unfold Enc.popU
  simp only []
  split
  · split <;> exact ⟨rfl, rfl⟩
  · split
    · exact ⟨rfl, rfl⟩
    · split <;> exact ⟨rfl, rfl⟩

theorem stays_close (I : WriteImpl σ) (e : Enc) (w : Writer σ) : Stays e (e.closeU I w).1 := by
  unfold Enc.closeU
  split
  · exact Stays.refl e
  · exact Stays.refl e
  · split
    · exact Stays.refl e
    · split
      · exact stays_pop
      · split
        · exact Stays.refl e
        · split
          · split
            · exact stays_io fun _ _ => stays_pop
            · exact Stays.refl e
          · exact stays_pop
      · exact stays_pop
      · exact stays_pop
      · exact Stays.refl e

theorem safe_commit (I : WriteImplU σ) {e : Enc} (w : Writer σ) (h : Safe e) : e.commitU I w = e.commitU (bold I) w ∧ Safe (e.commitU I w).1 := by
  unfold Enc.commitU
  split
  · exact ⟨rfl, h⟩
  · split
    · exact ⟨rfl, h⟩
    · split
      · exact ⟨rfl, .inr rfl⟩
      · split
        · rename_i h1 h2
          rcases h with h | h
          · exact absurd h h1
          · rw [h] at h2; cases h2
        · exact ⟨rfl, h⟩

theorem sub_safe {p x : Enc} (h : p.sub = some (some x)) : Safe x := by
  unfold Enc.sub at h
  cases h1 : p.cursor.idx_step with
  | none => rw [h1] at h; cases h
  | some st =>
    cases h2 : p.cursor.sigAt with
    | none => rw [h1, h2] at h; cases h
    | some v =>
      cases v with
      | none => rw [h1, h2] at h; cases h
      | some v =>
        rw [h1, h2] at h
        simp only [Option.bind_eq_bind, Option.bind_some] at h
        cases h3 : Cursor.new v with
        | none => rw [h3] at h; cases h
        | some c =>
          rw [h3] at h
          cases h
          exact .inl rfl

theorem subWith_safe {p x : Enc} {s : Sig} (h : p.subWith s = some (some x)) : Safe x := by
  unfold Enc.subWith at h
  cases h2 : p.cursor.sigAt with
  | none => rw [h2] at h; cases h
  | some v =>
    cases v with
    | none => rw [h2] at h; cases h
    | some v =>
      rw [h2] at h
      simp only [Option.bind_eq_bind, Option.bind_some] at h
      cases h3 : s.eq v with
      | none => rw [h3] at h; cases h
      | some b =>
        rw [h3] at h
        cases b with
        | true => exact sub_safe h
        | false => cases h

theorem stays_merge (e x : Enc) (step : Option Nat) : Stays e (e.merge x step) := by
  unfold Enc.merge
  split <;> exact ⟨rfl, rfl⟩

mutual
/-- Only the commit of the outermost encoder calls the writer's. -/
theorem runU_bold (I : WriteImplU σ) : (op : Op) → (e : Enc) → (w : Writer σ) → Safe e ∨ op ≠ .commit →
    op.runU I e w = op.runU (bold I) e w ∧ (Safe e → Safe (op.runU I e w).1)
  | .u16 _, e, w, _ => by rw [Op.runU, Op.runU]; exact ⟨rfl, (stays_fixed ..).safe⟩
  | .u32 _, e, w, _ => by rw [Op.runU, Op.runU]; exact ⟨rfl, (stays_fixed ..).safe⟩
  | .u64 _, e, w, _ => by rw [Op.runU, Op.runU]; exact ⟨rfl, (stays_fixed ..).safe⟩
  | .string _, e, w, _ => by rw [Op.runU, Op.runU]; exact ⟨rfl, (stays_str32 ..).safe⟩
  | .object _, e, w, _ => by rw [Op.runU, Op.runU]; exact ⟨rfl, (stays_str32 ..).safe⟩
  | .signature _, e, w, _ => by rw [Op.runU, Op.runU]; exact ⟨rfl, (stays_str8 ..).safe⟩
  | .variant _, e, w, _ => by rw [Op.runU, Op.runU]; exact ⟨rfl, (stays_variant ..).safe⟩
  | .array, e, w, _ => by rw [Op.runU, Op.runU]; exact ⟨rfl, (stays_array ..).safe⟩
  | .structure, e, w, _ => by rw [Op.runU, Op.runU]; exact ⟨rfl, (stays_bracket ..).safe⟩
  | .dict, e, w, _ => by rw [Op.runU, Op.runU]; exact ⟨rfl, (stays_bracket ..).safe⟩
  | .close, e, w, _ => by rw [Op.runU, Op.runU]; exact ⟨rfl, (stays_close ..).safe⟩
  | .commit, e, w, h => by
    have hs : Safe e := h.resolve_right fun h => h rfl
    obtain ⟨h1, h2⟩ := safe_commit I w hs
    rw [Op.runU, Op.runU]
    refine ⟨?_, fun _ => h2⟩
    simp only [h1]
  | .sub s ops, e, w, _ => by
    have key : ∀ q : Option (Option Enc), (∀ x, q = some (some x) → Safe x) →
        (match q with
          | none => (e, w, OutU.res .panic)
          | some none => (e, w, .res (.brk (some .mismatch)))
          | some (some x) => (e.merge (Op.runsU I ops x w).1 (x.link.bind id), (Op.runsU I ops x w).2.1, .sub (Op.runsU I ops x w).2.2))
        = (match q with
          | none => (e, w, OutU.res .panic)
          | some none => (e, w, .res (.brk (some .mismatch)))
          | some (some x) => (e.merge (Op.runsU (bold I) ops x w).1 (x.link.bind id), (Op.runsU (bold I) ops x w).2.1, .sub (Op.runsU (bold I) ops x w).2.2))
        ∧ (Safe e → Safe (match q with
          | none => (e, w, OutU.res .panic)
          | some none => (e, w, .res (.brk (some .mismatch)))
          | some (some x) => (e.merge (Op.runsU I ops x w).1 (x.link.bind id), (Op.runsU I ops x w).2.1, .sub (Op.runsU I ops x w).2.2)).1) := by
      intro q hq
      rcases q with _ | _ | x
      · exact ⟨rfl, id⟩
      · exact ⟨rfl, id⟩
      · have := (runsU_bold I ops x w (hq x rfl)).1
        refine ⟨?_, (stays_merge _ _ _).safe⟩
        simp only [this]
    cases s with
    | none => simp only [Op.runU]; exact key e.sub fun _ => sub_safe
    | some s => simp only [Op.runU]; exact key (e.subWith s) fun _ => subWith_safe
theorem runsU_bold (I : WriteImplU σ) : (ops : List Op) → (e : Enc) → (w : Writer σ) → Safe e →
    Op.runsU I ops e w = Op.runsU (bold I) ops e w ∧ Safe (Op.runsU I ops e w).1
  | [], e, w, h => by rw [Op.runsU, Op.runsU]; exact ⟨rfl, h⟩
  | op :: ops, e, w, h => by
    obtain ⟨h1, h2⟩ := runU_bold I op e w (.inl h)
    obtain ⟨h3, h4⟩ := runsU_bold I ops _ (op.runU I e w).2.1 (h2 h)
    rw [Op.runsU, Op.runsU]
    refine ⟨?_, h4⟩
    simp only [← h1, h3]
end

/-! ## Histories -/

/-- A full outermost part remains what it is. -/
theorem does_full {R : Nat → Prop} {be : Bool} {pre : Pat} {p : Part} {c : Bool} {op : Op} {o : Out} {b : St} (hn : p.next = none) (hc : p.closes = false)
    (h : Does R be pre ⟨[p], c⟩ op o b) : b.parts = [p] := by
  cases h with
  | value _ _ _ _ _ u qs h => rw [hn] at h; cases h
  | subCommitted _ _ _ _ _ _ _ u q v h => rw [hn] at h; cases h
  | _ => rfl

theorem doesAll_full {R : Nat → Prop} {be : Bool} {pre : Pat} {p : Part} (hn : p.next = none) (hc : p.closes = false) : ∀ {ops : List Op} {outs : List Out} {c : Bool} {b : St},
    DoesAll R be pre ⟨[p], c⟩ ops outs b → b.parts = [p]
  | [], _, c, b, h => by cases h; rfl
  | op :: ops, _, c, b, h => by
    cases h with
    | cons _ _ m _ _ _ _ _ h1 h2 =>
      obtain ⟨mp, mc⟩ := m
      have := does_full hn hc h1
      simp only at this
      subst this
      exact doesAll_full hn hc h2

theorem commit_cases (I : WriteImplU σ) (e : Enc) (w : Writer σ) : e.commitU I w = e.commitU (bold I) w
    ∨ (e.commitU I w = (e, ⟨I.commit w.st e.level.idx, w.mem⟩, .panic)
      ∧ e.commit (calm I.toWriteImpl) w = some ({ e with done := true }, ⟨I.commit w.st e.level.idx, w.mem⟩, .ok) ∧ e.done = false) := by
  unfold Enc.commitU Enc.commit
  cases e.cursor.idx_step with
  | none => exact .inl rfl
  | some step =>
    simp only []
    by_cases h1 : (step.isSome || !e.stack.isEmpty) = true
    · simp only [if_pos h1]; exact .inl trivial
    · simp only [if_neg h1]
      by_cases h2 : e.link.isSome = true
      · simp only [if_pos h2]; exact .inl trivial
      · simp only [if_neg h2]
        by_cases h3 : (!e.done) = true
        · simp only [if_pos h3]
          by_cases h4 : I.dies w.st e.level.idx = true
          · simp only [if_pos h4]; exact .inr ⟨trivial, rfl, by simpa using h3⟩
          · simp only [if_neg h4]; exact .inl rfl
        · simp only [if_neg h3]; exact .inl trivial

variable {I : WriteImplU σ} {be : Bool} {t : Ty}

theorem deaths_other {op : Op} {o : OutU} (h : op ≠ .commit ∨ o ≠ .res .panic) (ops : List Op) (outs : List OutU) :
    deaths (op :: ops) (o :: outs) = deaths ops outs := by
  rw [deaths]
  intro h1 h2
  rcases h with h | h
  · exact h h1
  · exact h h2

theorem runsU_sim (hE : Exact (calm I.toWriteImpl)) : ∀ (ops : List Op) {st : σ} {a : St} {e : Enc} {w : Writer σ}, Op.sanes ops →
    Sim (calm I.toWriteImpl) be [] t st none a e w → ∃ e' w' outs st' b lens, Op.runsU I ops e w = (e', w', outs)
      ∧ DoesAll (Blocked (calm I.toWriteImpl)) be [] a (Op.keeps ops outs) (OutU.keeps outs) b
      ∧ Sim (calm I.toWriteImpl) be [] t st' none b e' w' ∧ Calls (calm I.toWriteImpl) st lens st' ∧ lens.length = deaths ops outs
      ∧ (∀ n ∈ lens, n = (Part.bytes be [] b.parts).length) ∧ (lens ≠ [] → ∃ p, b.parts = [p] ∧ p.full = true)
  | [], st, a, e, w, _, h => ⟨e, w, [], st, a, [], by rw [Op.runsU], by rw [Op.keeps, OutU.keeps]; exact .nil _ _; all_goals nofun, h, .nil, rfl, nofun, fun h => absurd rfl h⟩
  | op :: ops, st, a, e, w, ho, h => by
    obtain ⟨ho1, ho2⟩ := ho
    have calmly : op.runU I e w = op.runU (bold I) e w → ∃ e' w' outs st' b lens, Op.runsU I (op :: ops) e w = (e', w', outs)
        ∧ DoesAll (Blocked (calm I.toWriteImpl)) be [] a (Op.keeps (op :: ops) outs) (OutU.keeps outs) b
        ∧ Sim (calm I.toWriteImpl) be [] t st' none b e' w' ∧ Calls (calm I.toWriteImpl) st lens st' ∧ lens.length = deaths (op :: ops) outs
        ∧ (∀ n ∈ lens, n = (Part.bytes be [] b.parts).length) ∧ (lens ≠ [] → ∃ p, b.parts = [p] ∧ p.full = true) := by
      intro heq
      obtain ⟨e1, w1, o, a1, hr, hd, hs⟩ := run_sim hE op ho1 h
      obtain ⟨o', hu, rfl⟩ := run_like (I := bold I) (fun _ _ => rfl) op e w e1 w1 o hr
      obtain ⟨e', w', outs, st', b, lens, h1, h2, h3, h4, h5, h6, h7⟩ := runsU_sim hE ops ho2 hs
      have hrun : Op.runsU I (op :: ops) e w = (e', w', o' :: outs) := by
        rw [Op.runsU]
        simp only [heq, hu, h1]
      have hdeath : op ≠ .commit ∨ o' ≠ .res .panic := by
        apply Classical.byContradiction
        intro hn
        have ⟨hn1, hn2⟩ : op = .commit ∧ o' = .res .panic := by
          constructor
          · exact Classical.byContradiction fun hc => hn (.inl hc)
          · exact Classical.byContradiction fun hc => hn (.inr hc)
        subst hn1 hn2
        rw [OutU.calm] at hd
        cases hd with
        | valueIo _ _ _ _ _ _ _ _ _ _ _ he => cases he
      refine ⟨e', w', o' :: outs, st', b, lens, hrun, ?_, h3, h4, by rw [deaths_other hdeath]; exact h5, h6, h7⟩
      by_cases hp : o' = .res .panic
      · subst hp
        rw [Op.keeps, OutU.keeps]
        rw [OutU.calm] at hd
        have := does_none hd
        subst this
        exact h2
      · rw [Op.keeps, OutU.keeps]
        · exact .cons _ _ _ _ _ _ _ _ (does_keep _ _ _ _ _ hp hd) h2
        · exact fun h => hp h
        · exact fun h => hp h
    by_cases hop : op = .commit
    · subst hop
      rcases commit_cases I e w with hc | ⟨hc1, hc2, hc3⟩
      · refine calmly ?_
        rw [Op.runU, Op.runU]
        simp only [hc]
      · obtain ⟨e1, w1, o, a1, hr, hd, hs⟩ := run_sim hE .commit ho1 h
        rw [Op.run, hc2] at hr
        cases hr
        have ⟨p, c, ha, hf⟩ : ∃ p c, a = ⟨[p], c⟩ ∧ p.full = true := by
          cases hd with
          | commit _ p c hf => exact ⟨p, c, rfl, hf⟩
          | value _ _ _ _ _ _ _ _ hv => cases hv
          | valueIo _ _ _ _ _ _ _ _ _ hv => cases hv
        subst ha
        have hcf : c = false := by
          cases c with
          | false => rfl
          | true =>
            exfalso
            obtain ⟨_, _, k3, _⟩ := h.old rfl
            rw [hc3] at k3
            cases k3
        subst hcf
        obtain ⟨t', ht⟩ := h.inv.track
        obtain ⟨hn, hcl⟩ := ht.ended_root hf
        have hlog := h.log
        simp only [Bool.false_eq_true, false_and, if_false] at hlog
        have hs' : Sim (calm I.toWriteImpl) be [] t (I.commit w.st e.level.idx) none ⟨[p], false⟩ e ⟨I.commit w.st e.level.idx, w.mem⟩ :=
          ⟨⟨h.inv.order, h.inv.track, h.inv.idx, h.inv.holds, h.inv.max⟩, h.root, by simp; exact .nil, h.new, by simp⟩
        obtain ⟨e', w', outs, st', b, lens, h1, h2, h3, h4, h5, h6, h7⟩ := runsU_sim hE ops ho2 hs'
        have hb := doesAll_full hn hcl h2
        refine ⟨e', w', .res .panic :: outs, st', b, [e.level.idx] ++ lens, ?_, ?_, h3, ?_, ?_, ?_, fun _ => ⟨p, hb, hf⟩⟩
        · rw [Op.runsU, Op.runU]
          simp only [hc1, h1]
        · rw [Op.keeps, OutU.keeps]
          exact h2
        · exact Calls.trans (Calls.commit (I := calm I.toWriteImpl) (l := []) e.level.idx hlog) h4
        · rw [deaths, List.length_append, h5]; simp; omega
        · intro n hn
          rcases List.mem_append.mp hn with hn | hn
          · rw [List.mem_singleton] at hn
            subst hn
            rw [hb]
            exact h.inv.idx
          · exact h6 n hn
    · exact calmly (runU_bold I op e w (.inr hop)).1

theorem keeps_commit : ∀ (ops : List Op) (outs : List OutU), (∃ i : Nat, ops[i]? = some .commit ∧ outs[i]? = some (.res .ok)) →
    ∃ i : Nat, (Op.keeps ops outs)[i]? = some .commit ∧ (OutU.keeps outs)[i]? = some (.res .ok)
  | [], _, ⟨_, h, _⟩ => by simp at h
  | _ :: _, [], ⟨_, _, h⟩ => by simp at h
  | op :: ops, o :: outs, ⟨i, h1, h2⟩ => by
    by_cases hp : o = .res .panic
    · subst hp
      rw [Op.keeps, OutU.keeps]
      cases i with
      | zero => cases h2
      | succ i => exact keeps_commit ops outs ⟨i, h1, h2⟩
    · rw [Op.keeps, OutU.keeps]
      · cases i with
        | zero =>
          cases h1
          cases h2
          exact ⟨0, rfl, rfl⟩
        | succ i =>
          obtain ⟨j, h3, h4⟩ := keeps_commit ops outs ⟨i, h1, h2⟩
          exact ⟨j + 1, h3, h4⟩
      · exact fun h => hp h
      · exact fun h => hp h

theorem sanes_append : ∀ (a b : List Op), Op.sanes (a ++ b) → Op.sanes a ∧ Op.sanes b
  | [], b, h => ⟨trivial, h⟩
  | _ :: a, b, h => ⟨⟨h.1, (sanes_append a b h.2).1⟩, (sanes_append a b h.2).2⟩

theorem survives_die_aux (hI : Tame I.toWriteImpl) (hs : View s t) (be : Bool) (w : Writer σ) (ops : List Op) (ho : Op.sanes ops)
    {e : Enc} (he : Enc.with_ s be = some e) : ∃ (e' : Enc) (w' : Writer σ) (outs : List OutU) (st' : σ) (b : St) (lens : List Nat), Op.runsU I ops e w = (e', w', outs)
      ∧ DoesAll (Blocked (calm I.toWriteImpl)) be [] (St.new t) (Op.keeps ops outs) (OutU.keeps outs) b
      ∧ Sim (calm I.toWriteImpl) be [] t st' none b e' w' ∧ lens.length = deaths ops outs
      ∧ (lens ≠ [] → ∃ p, b.parts = [p] ∧ p.full = true)
      ∧ Calls I.toWriteImpl w.st (List.replicate (deaths ops outs + if b.committed then 1 else 0) (Part.bytes be [] b.parts).length) w'.st := by
  obtain ⟨e₁, he₁, hsim⟩ := start_sim (I := calm I.toWriteImpl) hs be w
  rw [he, Option.some.injEq] at he₁
  subst he₁
  obtain ⟨e', w', outs, st', b, lens, h1, h2, h3, h4, h5, h6, h7⟩ := runsU_sim (tame_exact hI) ops ho hsim
  refine ⟨e', w', outs, st', b, lens, h1, h2, h3, h5, h7, ?_⟩
  have hl : lens = List.replicate (deaths ops outs) (Part.bytes be [] b.parts).length := by
    rw [← h5]; exact List.eq_replicate_iff.mpr ⟨rfl, h6⟩
  have hlog := h3.log
  rw [h3.inv.idx] at hlog
  rw [← List.replicate_append_replicate, ← hl]
  refine calm_calls (h4.trans ?_)
  cases hb : b.committed with
  | true => rw [hb] at hlog; simpa using hlog
  | false => rw [hb] at hlog; simpa using hlog

end Verif.Dbus.Die
