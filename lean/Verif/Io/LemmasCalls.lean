import Verif.Io.Spec
/-! # Lemmas: the operations of writers only call `map` -/
namespace Verif.Io

variable {σ ι : Type} {I : WriteImpl σ}

theorem Calls.trans {a b c : σ} {l r : List Nat} (h : Calls I a l b) (h' : Calls I b r c) : Calls I a (l ++ r) c := by
  induction h' with
  | nil => simpa using h
  | map idx len _ ih => exact .map idx len ih
  | commit len _ ih => rw [← List.append_assoc]; exact .commit len ih

theorem Calls.one {a : σ} (idx len : Nat) {st : σ} {r : Flow Nat} (h : I.map a idx len = (st, r)) : Calls I a [] st := by
  have := Calls.map (I := I) (a := a) idx len .nil
  rwa [h] at this

theorem writeLoop_calls (I : WriteImpl σ) : ∀ (fuel : Nat) (w : Writer σ) (idx : Nat) (data : List UInt8),
    Calls I w.st [] (writeLoop I fuel w idx data).w.st
  | fuel, w, idx, data => by
    unfold writeLoop
    split
    · cases fuel with
      | zero => exact .nil
      | succ fuel =>
        simp only []
        generalize hr : I.map w.st idx data.length = r
        obtain ⟨st, r⟩ := r
        have h1 := Calls.one _ _ hr
        cases r with
        | fault => exact h1
        | brk e => exact h1
        | cont map =>
          simp only []
          split
          · split
            · exact h1.trans (writeLoop_calls I fuel ⟨st, _⟩ _ _)
            · exact h1
          · exact h1
    · exact .nil

theorem write_calls (I : WriteImpl σ) (w : Writer σ) (idx : Nat) (data : List UInt8) :
    Calls I w.st [] (write I w idx data).w.st := writeLoop_calls I _ w idx data

theorem fillLoop_calls (I : WriteImpl σ) (b : UInt8) : ∀ (fuel : Nat) (w : Writer σ) (idx len : Nat),
    Calls I w.st [] (fillLoop I fuel w idx len b).w.st
  | fuel, w, idx, len => by
    unfold fillLoop
    split
    · cases fuel with
      | zero => exact .nil
      | succ fuel =>
        simp only []
        generalize hr : I.map w.st idx len = r
        obtain ⟨st, r⟩ := r
        have h1 := Calls.one _ _ hr
        cases r with
        | fault => exact h1
        | brk e => exact h1
        | cont map =>
          simp only []
          split
          · split
            · exact h1.trans (fillLoop_calls I b fuel ⟨st, _⟩ _ _)
            · exact h1
          · exact h1
    · exact .nil

theorem zero_calls (I : WriteImpl σ) (w : Writer σ) (idx len : Nat) : Calls I w.st [] (zero I w idx len).w.st :=
  fillLoop_calls I 0 _ w idx len

theorem align_calls (I : WriteImpl σ) (w : Writer σ) (idx exp : Nat) : Calls I w.st [] (alignExp2 I w idx exp).w.st := by
  unfold alignExp2
  split
  · exact .nil
  · split
    · exact .nil
    · exact zero_calls I w idx _

theorem writeIterLoop_calls (I : WriteImpl σ) (T : Iter ι) : ∀ (fuel : Nat) (w : Writer σ) (idx : Nat) (it : ι),
    Calls I w.st [] (writeIterLoop I T fuel w idx it).w.st
  | 0, _, _, _ => .nil
  | fuel + 1, w, idx, it => by
    unfold writeIterLoop
    split
    · exact .nil
    · split <;> exact .nil
    · rename_i n _
      generalize hr : I.map w.st idx (n + 1) = r
      obtain ⟨st, r⟩ := r
      have h1 := Calls.one _ _ hr
      cases r with
      | fault => exact h1
      | brk e => exact h1
      | cont map =>
        simp only []
        split
        · split
          · exact h1.trans (writeIterLoop_calls I T fuel ⟨st, _⟩ _ _)
          · exact h1
        · exact h1

theorem writeIter_calls (I : WriteImpl σ) (T : Iter ι) (w : Writer σ) (idx : Nat) (it : ι) :
    Calls I w.st [] (writeIter I T w idx it).w.st := by
  unfold writeIter
  split
  · exact .nil
  · exact writeIterLoop_calls I T _ w idx it

end Verif.Io
