import Verif.Rng.LemmasXo
import Verif.Rng.XoTable
/-! # Powers of `step`: the square table and the jump loop -/
namespace Verif.Rng

/-- Every entry is the square of the one before. -/
def sqChain : Nat → List Nat → Bool
  | _, [] => true
  | a, b :: l => (mulmod a a == b) && sqChain b l

theorem sqChain_check : sqChain 2 sqTable.tail = true := by decide +kernel

theorem sqChain_isPow (a n : Nat) (l : List Nat) (ha : IsPow a n) (h : sqChain a l = true) (i : Nat)
    (hi : i < (a :: l).length) : IsPow ((a :: l)[i]) (n * 2 ^ i) := by
  induction l generalizing a n i with
  | nil =>
    have : i = 0 := by simp at hi; exact hi
    subst this; simpa using ha
  | cons b l ih =>
    simp only [sqChain, Bool.and_eq_true, beq_iff_eq] at h
    cases i with
    | zero => simpa using ha
    | succ i =>
      have hb : IsPow b (n + n) := h.1 ▸ ha.mul ha
      have := ih b (n + n) hb h.2 i (by simpa using hi)
      have e : (n + n) * 2 ^ i = n * 2 ^ (i + 1) := by
        rw [Nat.pow_succ, ← Nat.two_mul, Nat.mul_comm 2 n, Nat.mul_assoc, Nat.mul_comm 2]
      rw [e] at this
      simpa using this

theorem sqTable_length : sqTable.length = 257 := by decide +kernel

theorem sqTable_isPow (i : Nat) (hi : i < sqTable.length) : IsPow sqTable[i] (2 ^ i) := by
  have h := sqChain_isPow 2 1 sqTable.tail isPow_one sqChain_check i (by simpa [sqTable_length] using hi)
  rw [Nat.one_mul] at h
  exact h

/-! ## The jump loop -/

theorem sumLoop_congr (p q n k j : Nat) (st : St × St)
    (h : ∀ d, d < n → p.testBit (k + d) = q.testBit (j + d)) : sumLoop p n k st = sumLoop q n j st := by
  induction n generalizing k j st with
  | zero => rfl
  | succ n ih =>
    obtain ⟨s, t⟩ := st
    rw [sumLoop, sumLoop, ih (k + 1) (j + 1)]
    · have := h 0 (by omega)
      simp only [Nat.add_zero] at this
      rw [this]
    · intro d hd
      have := h (d + 1) (by omega)
      rwa [show k + 1 + d = k + (d + 1) by omega, show j + 1 + d = j + (d + 1) by omega]

theorem sumLoop_add (p m n k : Nat) (st : St × St) :
    sumLoop p (m + n) k st = sumLoop p n (k + m) (sumLoop p m k st) := by
  induction m generalizing k st with
  | zero => simp [sumLoop]
  | succ m ih =>
    obtain ⟨s, t⟩ := st
    rw [show m + 1 + n = (m + n) + 1 by omega, sumLoop, ih, sumLoop]
    congr 1; omega

theorem and_bit (w : U64) (j : Nat) (hj : j < 64) : (w &&& (1#64 <<< j) ≠ 0) ↔ w.toNat.testBit j = true := by
  rw [← BitVec.getLsbD]
  constructor
  · intro h
    cases hb : w.getLsbD j
    · exfalso
      apply h
      apply BitVec.eq_of_getLsbD_eq
      intro i hi
      simp only [BitVec.getLsbD_and, BitVec.getLsbD_shiftLeft, BitVec.getLsbD_one]
      by_cases h1 : i = j
      · subst h1; simp [hb]
      · by_cases h2 : i < j
        · simp [h2]
        · have : ¬ (i - j = 0) := by omega
          simp [this]
    · rfl
  · intro h h0
    have := congrArg (fun v : U64 => v.getLsbD j) h0
    simp [hj] at this
    rw [BitVec.getLsbD_eq_getElem hj, this] at h
    cases h

theorem jumpWord_eq (w : U64) (n j : Nat) (hj : j + n = 64) (st : St × St) :
    jumpWord w n j st = sumLoop w.toNat n j st := by
  induction n generalizing j st with
  | zero => rfl
  | succ n ih =>
    obtain ⟨s, t⟩ := st
    have hjl : j < 64 := by omega
    have e : (if w &&& (1#64 <<< j) ≠ 0 then t.xor s else t) = t.xor (selB (w.toNat.testBit j) s) := by
      cases hb : w.toNat.testBit j
      · have hn : ¬ (w &&& (1#64 <<< j) ≠ 0) := fun h => by
          rw [and_bit w j hjl, hb] at h; cases h
        rw [if_neg hn]; simp [selB, St.xor_zero]
      · rw [if_pos ((and_bit w j hjl).mpr hb)]; simp [selB]
    rw [jumpWord, e, sumLoop, ih (j + 1) (by omega)]

/-- A table read as a little-endian number. -/
def tableNat (a b c d : U64) : Nat := a.toNat + 2 ^ 64 * (b.toNat + 2 ^ 64 * (c.toNat + 2 ^ 64 * d.toNat))

theorem testBit_tail (a : U64) (b i : Nat) :
    (a.toNat + 2 ^ 64 * b).testBit i = if i < 64 then a.toNat.testBit i else b.testBit (i - 64) := by
  rw [Nat.add_comm, Nat.testBit_two_pow_mul_add _ a.isLt]

theorem jump_eq_act (s : St) (a b c d : U64) : jump s [a, b, c, d] = act (tableNat a b c d) 256 s := by
  have h := sumLoop_eq (tableNat a b c d) 256 0 s .zero
  have h64 : ∀ n, n < 64 → n < 64 + 64 ∧ n < 64 + 64 + 64 := by omega
  have e : sumLoop (tableNat a b c d) 256 0 (s, .zero)
      = jumpWord d 64 0 (jumpWord c 64 0 (jumpWord b 64 0 (jumpWord a 64 0 (s, .zero)))) := by
    rw [show (256 : Nat) = 64 + (64 + (64 + 64)) by rfl, sumLoop_add, sumLoop_add, sumLoop_add]
    rw [jumpWord_eq _ _ _ rfl, jumpWord_eq _ _ _ rfl, jumpWord_eq _ _ _ rfl, jumpWord_eq _ _ _ rfl]
    rw [sumLoop_congr _ a.toNat 64 0 0, sumLoop_congr _ b.toNat 64 (0 + 64) 0,
      sumLoop_congr _ c.toNat 64 (0 + 64 + 64) 0, sumLoop_congr _ d.toNat 64 (0 + 64 + 64 + 64) 0]
    · intro i hi
      rw [tableNat, testBit_tail, if_neg (by omega), testBit_tail, if_neg (by omega), testBit_tail,
        if_neg (by omega)]
      exact congrArg _ (by omega)
    · intro i hi
      rw [tableNat, testBit_tail, if_neg (by omega), testBit_tail, if_neg (by omega), testBit_tail,
        if_pos (by omega)]
      exact congrArg _ (by omega)
    · intro i hi
      rw [tableNat, testBit_tail, if_neg (by omega), testBit_tail, if_pos (by omega)]
      exact congrArg _ (by omega)
    · intro i hi
      rw [tableNat, testBit_tail, if_pos (by omega)]
  have h2 : sumLoop (tableNat a b c d) 256 0 (s, .zero) = (steps 256 s, act (tableNat a b c d) 256 s) := by
    have h' := h
    rw [show steps 0 s = s from rfl, Nat.zero_add, show act (tableNat a b c d) 0 s = .zero from rfl,
      St.xor_zero, St.zero_xor] at h'
    exact h'
  have h3 : jump s [a, b, c, d]
      = (jumpWord d 64 0 (jumpWord c 64 0 (jumpWord b 64 0 (jumpWord a 64 0 (s, .zero))))).2 := by
    unfold jump
    simp only [List.foldl_cons, List.foldl_nil]
    generalize jumpWord a 64 0 = f
    rfl
  rw [h3, ← e, h2]

theorem step128_steps (s : St) : step128 s = steps (2 ^ 128) s := by
  have hi : 128 < sqTable.length := by rw [sqTable_length]; decide
  rw [← (sqTable_isPow 128 hi).2 s, step128, table128, jump_eq_act]
  congr 1

theorem step192_steps (s : St) : step192 s = steps (2 ^ 192) s := by
  have hi : 192 < sqTable.length := by rw [sqTable_length]; decide
  rw [← (sqTable_isPow 192 hi).2 s, step192, table192, jump_eq_act]
  congr 1

end Verif.Rng
