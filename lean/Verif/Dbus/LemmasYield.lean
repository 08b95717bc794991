import Verif.Dbus.SpecYield
import Verif.Dbus.LemmasDec
/-! # Lemmas: how much a D-Bus decoder delivers -/
namespace Verif.Dbus
open Verif.Io

variable {R : Nat → Prop} {be : Bool} {data : List UInt8}

/-- A call moves on by at least the size of what it delivers, and what it delivers is in the data. -/
def Yields (data : List UInt8) (a b : DSt) (n : Nat) : Prop :=
  a.idx + n ≤ b.idx ∧ (n = 0 ∨ a.idx + n ≤ data.length + 1)

theorem Yields.zero (a : DSt) : Yields data a a 0 := ⟨Nat.le_refl _, .inl rfl⟩

theorem Yields.trans {a b c : DSt} {n m : Nat} (h : Yields data a b n) (h' : Yields data b c m) : Yields data a c (n + m) := by
  obtain ⟨h1, h2⟩ := h
  obtain ⟨h3, h4⟩ := h'
  refine ⟨by omega, ?_⟩
  rcases h4 with rfl | h4
  · rcases h2 with rfl | h2
    · exact .inl rfl
    · exact .inr (by omega)
  · exact .inr (by omega)

/-- Only a commit that succeeds commits. -/
theorem gives_committed {x : Ask} {a b : DSt} {r : Ans} (h : Gives R be data a x r b) :
    b.committed = (a.committed || Ask.committed [x] [r]) := by
  cases h with
  | commit => simp [Ask.committed]
  | pending => simp [Ask.committed]
  | mismatch _ _ h => cases x <;> first | (cases h; done) | simp [Ask.committed]
  | text _ _ _ _ _ _ _ _ h => cases x <;> first | (cases h; done) | simp [Ask.committed, DSt.past]
  | textBad _ _ _ _ _ _ _ _ h => cases x <;> first | (cases h; done) | simp [Ask.committed, DSt.past]
  | textIo _ _ _ _ _ _ _ h => cases x <;> first | (cases h; done) | simp [Ask.committed, DSt.past]
  | _ => simp [Ask.committed, DSt.past]

theorem committed_cons (x : Ask) (l : List Ask) (r : Ans) (rs : List Ans) :
    Ask.committed (x :: l) (r :: rs) = (Ask.committed [x] [r] || Ask.committed l rs) := by
  cases x <;> cases r <;> simp [Ask.committed]

theorem givesAll_committed : ∀ {l : List Ask} {a b : DSt} {rs : List Ans}, GivesAll R be data a l rs b →
    b.committed = (a.committed || Ask.committed l rs)
  | _, _, _, _, .nil a => by simp [Ask.committed]
  | _, _, _, _, .cons _ _ _ _ _ _ _ h h' => by
    rw [givesAll_committed h', gives_committed h, Bool.or_assoc, ← committed_cons]

mutual
theorem Gives.yields : {x : Ask} → {a b : DSt} → {r : Ans} → Gives R be data a x r b → Yields data a b (x.size r)
  | _, a, _, _, .mismatch _ x h _ => by cases x <;> first | (cases h; done) | exact Yields.zero a
  | _, a, _, _, .u16 _ _ _ hf => by
    have := le_up a.idx 2
    have := field_le hf
    exact ⟨by simp only [DSt.past, Ask.size]; omega, .inr (by simp only [Ask.size]; omega)⟩
  | _, a, _, _, .u16Io _ r _ _ h => by cases r <;> first | (cases h; done) | exact Yields.zero a
  | _, a, _, _, .text _ x u w bs s hn hx hw h1 h2 h3 => by
    have := le_up a.idx w
    have := field_le h2
    have hl : s.length = deNum be bs := by
      have hk : up a.idx w + w + deNum be bs ≤ data.length := field_le h2
      unfold field at h2
      rw [if_pos hk] at h2
      cases h2
      rw [List.length_take, List.length_drop]; omega
    cases x with
    | string => cases hw; exact ⟨by simp only [DSt.past, Ask.size]; omega, .inr (by simp only [Ask.size]; omega)⟩
    | signature => cases hw; exact ⟨by simp only [DSt.past, Ask.size]; omega, .inr (by simp only [Ask.size]; omega)⟩
    | _ => cases hw
  | _, a, _, _, .textBad _ x _ _ _ _ _ _ h _ _ _ => by cases x <;> first | (cases h; done) | exact Yields.zero a
  | _, a, _, _, .textIo _ x _ _ r _ _ h _ hr => by cases x <;> first | (cases h; done) | (cases r <;> first | (cases hr; done) | exact Yields.zero a)
  | _, a, _, _, .array _ u bs _ hf => by
    have := le_up a.idx 4
    have := field_le hf
    exact ⟨by simp only [firstElement, Ask.size, up] at *; omega, .inr (by simp only [Ask.size]; omega)⟩
  | _, a, _, _, .arrayIo _ _ r _ _ h => by cases r <;> first | (cases h; done) | exact Yields.zero a
  | _, a, _, _, .close .. => ⟨Nat.le_refl _, .inl rfl⟩
  | _, a, _, _, .closeMismatch .. => Yields.zero a
  | _, a, _, _, .pending .. => Yields.zero a
  | _, a, _, _, .commit .. => ⟨Nat.le_refl _, .inl rfl⟩
  | _, a, _, _, .more .. => Yields.zero a
  | _, a, _, _, .subMismatch .. => Yields.zero a
  | _, a, _, _, .subDropped _ s l rs u b _ _ h hc => by
    have := givesAll_committed h
    rw [hc] at this
    simp only [DSt.new, Bool.false_or] at this
    simp only [Ask.size, ← this]
    exact Yields.zero a
  | _, a, _, _, .subCommitted _ s l rs u b _ _ h hc => by
    have hy := GivesAll.yields h
    have := givesAll_committed h
    rw [hc] at this
    simp only [DSt.new, Bool.false_or] at this
    simp only [Ask.size, ← this]
    exact hy
theorem GivesAll.yields : {l : List Ask} → {a b : DSt} → {rs : List Ans} → GivesAll R be data a l rs b → Yields data a b (Ask.sizes l rs)
  | _, _, _, _, .nil a => Yields.zero a
  | _, _, _, _, .cons _ _ _ _ _ _ _ h h' => (Gives.yields h).trans (GivesAll.yields h')
end

mutual
theorem yielded_size : (x : Ask) → (r : Ans) → 2 * x.yielded r ≤ x.size r
  | .u16, r => by cases r <;> simp [Ask.yielded, Ask.size]
  | .string, r => by cases r <;> simp [Ask.yielded, Ask.size] <;> omega
  | .signature, r => by cases r <;> simp [Ask.yielded, Ask.size] <;> omega
  | .array, r => by cases r <;> simp [Ask.yielded, Ask.size]
  | .close, r => by cases r <;> simp [Ask.yielded, Ask.size]
  | .commit, r => by cases r <;> simp [Ask.yielded, Ask.size]
  | .more, r => by cases r <;> simp [Ask.yielded, Ask.size]
  | .sub s l, r => by
    cases r with
    | sub rs =>
      have := yieldeds_sizes l rs
      simp only [Ask.yielded, Ask.size]
      split
      · exact this
      · exact Nat.le_refl _
    | _ => simp [Ask.yielded, Ask.size]
theorem yieldeds_sizes : (l : List Ask) → (rs : List Ans) → 2 * Ask.yieldeds l rs ≤ Ask.sizes l rs
  | [], rs => by simp [Ask.yieldeds, Ask.sizes]
  | x :: l, [] => by simp [Ask.yieldeds, Ask.sizes]
  | x :: l, r :: rs => by
    have := yielded_size x r
    have := yieldeds_sizes l rs
    simp only [Ask.yieldeds, Ask.sizes]; omega
end

end Verif.Dbus
