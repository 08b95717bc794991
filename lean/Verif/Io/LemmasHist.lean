import Verif.Io.SpecHist
import Verif.Io.PropsMap
import Verif.Io.LemmasCalls
/-! # Lemmas: histories of writes -/
namespace Verif.Io.Hist
open Verif.Io

variable {σ : Type} {I : WriteImpl σ}

theorem wrote_step {w : Writer σ} {idx : Nat} {data : List UInt8} {r : WriteOut σ} (h : Wrote I w idx data r) :
    (idx ≤ r.idx ∧ r.idx ≤ idx + data.length ∧ (r.flow = .cont () → r.idx = idx + data.length) ∧ r.flow ≠ .fault)
    ∧ ∀ j, r.w.mem j = if idx ≤ j ∧ j < r.idx then data[j - idx]? else w.mem j := by
  cases h with
  | all st _ => exact ⟨⟨by simp, by simp, by simp, by simp⟩, fun j => rfl⟩
  | refused st st' k e hk hm =>
    refine ⟨⟨by simp, by simp; omega, by simp, by simp⟩, fun j => ?_⟩
    simp only [put, List.length_take, Nat.min_eq_left (Nat.le_of_lt hk)]
    split
    · rw [List.getElem?_take_of_lt (by omega)]
    · rfl

theorem step (hE : Exact I) (w : Writer σ) (op : WOp) (hf : op.fine) :
    proper op ((op.run I w).idx, (op.run I w).flow)
    ∧ ∀ j, (op.run I w).w.mem j = if op.start ≤ j ∧ j < (op.run I w).idx then op.data[j - op.start]? else w.mem j := by
  cases op with
  | write idx data => exact wrote_step (write_spec I hE.toGood w idx data)
  | iter idx data => exact wrote_step (writeIter_spec I hE listIter w idx data data (yields_list data))
  | fill idx len b => exact wrote_step (fill_spec I hE.toGood w idx len b)
  | align idx exp =>
    have h := align_spec I hE.toGood w idx exp hf.1 hf.2
    split at h
    · exact wrote_step h
    · refine ⟨?_, fun j => ?_⟩
      · simp only [proper, WOp.run, WOp.start, WOp.data, h]
        exact ⟨Nat.le_refl _, by omega, by simp, by simp⟩
      · simp only [WOp.run, WOp.start, h]
        rw [if_neg (by omega)]
  | commit n =>
    refine ⟨⟨Nat.le_refl _, Nat.le_refl _, fun _ => rfl, by simp [WOp.run]⟩, fun j => ?_⟩
    simp [WOp.run, WOp.start]

theorem step_calls (w : Writer σ) (op : WOp) : Calls I w.st (commits [op]) (op.run I w).w.st := by
  cases op with
  | write idx data => exact write_calls I w idx data
  | iter idx data => exact writeIter_calls I listIter w idx data
  | fill idx len b => exact fillLoop_calls I b len w idx len
  | align idx exp => exact align_calls I w idx exp
  | commit n => exact .commit (l := []) n .nil

theorem commits_cons (op : WOp) (ops : List WOp) : commits (op :: ops) = commits [op] ++ commits ops := by
  cases op <;> rfl

theorem vec_calls {a b : Nat} {l : List Nat} (h : Calls vecWrite a l b) : b = a + l.sum := by
  induction h with
  | nil => simp
  | map idx len _ ih =>
    rw [← ih]
    simp only [vecWrite]
    split <;> rfl
  | commit len _ ih =>
    simp only [vecWrite, ih, List.sum_append, List.sum_cons, List.sum_nil]
    omega

end Verif.Io.Hist
