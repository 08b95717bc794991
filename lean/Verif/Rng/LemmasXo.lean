import Verif.Rng.Model
/-! # Linear algebra over GF(2) for xoshiro256++ -/
namespace Verif.Rng

def St.zero : St := ⟨0, 0, 0, 0⟩

/-! ## States as a vector space, `step` as a linear map -/

theorem St.xor_comm (a b : St) : a.xor b = b.xor a := by
  simp only [St.xor, BitVec.xor_comm]

theorem St.xor_assoc (a b c : St) : (a.xor b).xor c = a.xor (b.xor c) := by
  simp only [St.xor, BitVec.xor_assoc]

theorem St.xor_left_comm (a b c : St) : a.xor (b.xor c) = b.xor (a.xor c) := by
  rw [← St.xor_assoc, St.xor_comm a b, St.xor_assoc]

theorem St.xor_zero (a : St) : a.xor .zero = a := by simp [St.xor, St.zero]
theorem St.zero_xor (a : St) : St.zero.xor a = a := by simp [St.xor, St.zero]
theorem St.xor_self (a : St) : a.xor a = .zero := by simp [St.xor, St.zero]

theorem St.xor_eq_zero {a b : St} (h : a.xor b = .zero) : a = b := by
  have : (a.xor b).xor b = b := by rw [h, St.zero_xor]
  rwa [St.xor_assoc, St.xor_self, St.xor_zero] at this

theorem rotl_eq (x : U64) (n : Nat) (h : n < 64) : x.rotateLeft n = x <<< n ||| x >>> (64 - n) := by
  rw [BitVec.rotateLeft_def, Nat.mod_eq_of_lt h]

theorem rotl45_xor (x y : U64) : (x ^^^ y).rotateLeft 45 = x.rotateLeft 45 ^^^ y.rotateLeft 45 := by
  apply BitVec.eq_of_getLsbD_eq
  intro i hi
  simp only [BitVec.getLsbD_rotateLeft, BitVec.getLsbD_xor]
  cases decide (i < 45 % 64) <;> simp [hi]

theorem step_xor (a b : St) : step (a.xor b) = (step a).xor (step b) := by
  obtain ⟨a0, a1, a2, a3⟩ := a
  obtain ⟨b0, b1, b2, b3⟩ := b
  simp only [step, St.xor, BitVec.shiftLeft_xor_distrib, rotl45_xor, St.mk.injEq]
  generalize a1 <<< 17 = x
  generalize b1 <<< 17 = y
  generalize a3.rotateLeft 45 = x1
  generalize a1.rotateLeft 45 = x2
  generalize b3.rotateLeft 45 = x3
  generalize b1.rotateLeft 45 = x4
  refine ⟨?_, ?_, ?_, ?_⟩ <;> ac_rfl

theorem step_zero : step .zero = .zero := by decide

/-- Inverse of `step`. -/
def unstep (s : St) : St :=
  let d := s.s3.rotateRight 45   -- s3 ^ s1
  let a := s.s0 ^^^ d            -- s0
  -- s.s1 = s1 ^ s2 ^ s0, s.s2 = s2 ^ s0 ^ (s1 << 17)
  let e := s.s1 ^^^ s.s2         -- s1 ^ (s1 << 17)
  let b := e ^^^ (e <<< 17) ^^^ (e <<< 34) ^^^ (e <<< 51)
  ⟨a, b, s.s1 ^^^ b ^^^ a, d ^^^ b⟩

theorem unshift (b : U64) :
    let e := b ^^^ (b <<< 17)
    e ^^^ (e <<< 17) ^^^ (e <<< 34) ^^^ (e <<< 51) = b := by
  have h68 : b <<< 51 <<< 17 = 0#64 := by
    apply BitVec.eq_of_getLsbD_eq
    intro i hi
    simp only [BitVec.getLsbD_shiftLeft, BitVec.getLsbD_zero]
    simp only [Bool.and_eq_false_imp, decide_eq_true_eq]
    intro h
    simp at h
    have : i - 17 < 51 := by omega
    simp [this]
  have e1 : b <<< 17 <<< 17 = b <<< 34 := by rw [← BitVec.shiftLeft_add]
  have e2 : b <<< 17 <<< 34 = b <<< 51 := by rw [← BitVec.shiftLeft_add]
  have e3 : b <<< 17 <<< 51 = 0#64 := by
    rw [← h68, ← BitVec.shiftLeft_add, ← BitVec.shiftLeft_add]
  simp only [BitVec.shiftLeft_xor_distrib, e1, e2, e3, BitVec.xor_zero]
  generalize b <<< 17 = b17
  generalize b <<< 34 = b34
  generalize b <<< 51 = b51
  have : b ^^^ b17 ^^^ (b17 ^^^ b34) ^^^ (b34 ^^^ b51) ^^^ b51
      = b ^^^ ((b17 ^^^ b17) ^^^ ((b34 ^^^ b34) ^^^ (b51 ^^^ b51))) := by
    ac_rfl
  rw [this]; simp

theorem rotr_rotl (x : U64) : (x.rotateLeft 45).rotateRight 45 = x := by
  apply BitVec.eq_of_getLsbD_eq
  intro i hi
  simp only [BitVec.getLsbD_rotateRight, BitVec.getLsbD_rotateLeft]
  by_cases h : i < 19
  · have h1 : ¬ (45 + i < 45) := by omega
    have h2 : 45 + i < 64 := by omega
    simp [h, h1, h2]
  · have h1 : i - 19 < 45 := by omega
    simp only [Nat.reduceMod, Nat.reduceSub, h, decide_false, cond_false, hi, decide_true,
      Bool.true_and, h1, cond_true]
    congr 1
    omega

theorem unstep_step (s : St) : unstep (step s) = s := by
  obtain ⟨a, b, c, d⟩ := s
  simp only [step, unstep, rotr_rotl]
  have hx : ∀ x y z : U64, x ^^^ y ^^^ z = x ^^^ (y ^^^ z) := BitVec.xor_assoc
  have he : b ^^^ (c ^^^ a) ^^^ (c ^^^ a ^^^ b <<< 17) = b ^^^ b <<< 17 := by
    have : b ^^^ (c ^^^ a) ^^^ (c ^^^ a ^^^ b <<< 17)
      = b ^^^ b <<< 17 ^^^ ((c ^^^ c) ^^^ (a ^^^ a)) := by
      generalize b <<< 17 = b17
      ac_rfl
    rw [this]; simp
  have hb := unshift b
  simp only [] at hb
  rw [he, hb]
  have ha : a ^^^ (d ^^^ b) ^^^ (d ^^^ b) = a := by
    rw [hx, BitVec.xor_self, BitVec.xor_zero]
  rw [ha]
  simp only [St.mk.injEq, true_and]
  constructor
  · have : b ^^^ (c ^^^ a) ^^^ b ^^^ a = c ^^^ ((b ^^^ b) ^^^ (a ^^^ a)) := by ac_rfl
    rw [this]; simp
  · rw [hx, BitVec.xor_self, BitVec.xor_zero]

theorem step_inj {a b : St} (h : step a = step b) : a = b := by
  have := congrArg unstep h
  rwa [unstep_step, unstep_step] at this

theorem step_ne_zero {s : St} (h : s ≠ .zero) : step s ≠ .zero := by
  intro h1
  exact h (step_inj (h1.trans step_zero.symm))

/-! ## Iterates -/

/-- `n` applications of `step`. -/
def steps : Nat → St → St
  | 0, s => s
  | n + 1, s => steps n (step s)

theorem steps_succ (n : Nat) (s : St) : steps (n + 1) s = steps n (step s) := rfl

theorem steps_add (m n : Nat) (s : St) : steps (m + n) s = steps m (steps n s) := by
  induction n generalizing s with
  | zero => rfl
  | succ n ih => rw [← Nat.add_assoc, steps_succ, ih, ← steps_succ]

theorem steps_step (n : Nat) (s : St) : steps n (step s) = step (steps n s) := by
  induction n generalizing s with
  | zero => rfl
  | succ n ih => rw [steps_succ, ih, steps_succ]

theorem steps_xor (n : Nat) (a b : St) : steps n (a.xor b) = (steps n a).xor (steps n b) := by
  induction n generalizing a b with
  | zero => rfl
  | succ n ih => rw [steps_succ, step_xor, ih, steps_succ, steps_succ]

theorem steps_zero (n : Nat) : steps n .zero = .zero := by
  induction n with
  | zero => rfl
  | succ n ih => rw [steps_succ, step_zero, ih]

theorem steps_inj {n : Nat} {a b : St} (h : steps n a = steps n b) : a = b := by
  induction n generalizing a b with
  | zero => exact h
  | succ n ih => exact step_inj (ih h)

theorem steps_ne_zero (n : Nat) {s : St} (h : s ≠ .zero) : steps n s ≠ .zero := by
  intro h1
  exact h (steps_inj (h1.trans (steps_zero n).symm))

/-! ## Polynomials in `step`, with coefficients in the bits of a number -/

def selB (b : Bool) (s : St) : St := if b then s else .zero

/-- `Σ_{k < n} p_k · step^k s`. -/
def act (p : Nat) : Nat → St → St
  | 0, _ => .zero
  | n + 1, s => (act p n s).xor (selB (p.testBit n) (steps n s))

theorem selB_xor (b : Bool) (s t : St) : selB b (s.xor t) = (selB b s).xor (selB b t) := by
  cases b <;> simp [selB, St.xor_zero]

theorem selB_step (b : Bool) (s : St) : selB b (step s) = step (selB b s) := by
  cases b <;> simp [selB, step_zero]

theorem selB_steps (b : Bool) (n : Nat) (s : St) : selB b (steps n s) = steps n (selB b s) := by
  cases b <;> simp [selB, steps_zero]

theorem selB_bne (b c : Bool) (s : St) : selB (b ^^ c) s = (selB b s).xor (selB c s) := by
  cases b <;> cases c <;> simp [selB, St.xor_zero, St.zero_xor, St.xor_self]

theorem act_linear (p n : Nat) (s t : St) : act p n (s.xor t) = (act p n s).xor (act p n t) := by
  induction n with
  | zero => simp [act, St.xor_zero]
  | succ n ih =>
    simp only [act, ih, steps_xor, selB_xor]
    simp only [St.xor_assoc, St.xor_left_comm]

theorem act_zero_arg (p n : Nat) : act p n .zero = .zero := by
  induction n with
  | zero => rfl
  | succ n ih => simp only [act, ih, steps_zero]; cases p.testBit n <;> rfl

theorem act_step (p n : Nat) (s : St) : act p n (step s) = step (act p n s) := by
  induction n with
  | zero => simp [act, step_zero]
  | succ n ih => simp only [act, ih, steps_step, selB_step, step_xor]

theorem act_steps (p n m : Nat) (s : St) : act p n (steps m s) = steps m (act p n s) := by
  induction m generalizing s with
  | zero => rfl
  | succ m ih => rw [steps_succ, ih, act_step, ← steps_succ]

theorem act_pxor (p q n : Nat) (s : St) :
    act (p ^^^ q) n s = (act p n s).xor (act q n s) := by
  induction n with
  | zero => simp [act, St.xor_zero]
  | succ n ih =>
    simp only [act, ih, Nat.testBit_xor, selB_bne]
    simp only [St.xor_assoc, St.xor_left_comm]

theorem act_zero_poly (n : Nat) (s : St) : act 0 n s = .zero := by
  induction n with
  | zero => rfl
  | succ n ih => simp [act, ih, selB, St.xor_zero]

theorem act_double (p n : Nat) (s : St) : act (2 * p) (n + 1) s = step (act p n s) := by
  induction n with
  | zero => simp [act, selB, St.xor_zero, step_zero, Nat.testBit_zero]
  | succ n ih =>
    rw [act, ih, act, step_xor, ← selB_step, ← steps_step, steps_succ]
    have : (2 * p).testBit (n + 1) = p.testBit n := by
      rw [Nat.testBit_succ]; congr 1; omega
    rw [this]

theorem act_high (p n : Nat) (s : St) (h : p < 2 ^ n) : act p (n + 1) s = act p n s := by
  rw [act, Nat.testBit_lt_two_pow h]
  simp [selB, St.xor_zero]

/-! ## The characteristic polynomial and multiplication modulo it -/

/-- Characteristic polynomial of `step` (degree 256). -/
def P : Nat := 0x10003c03c3f3ecb1904b4edcf26259f850280002bcefd1a5e9d116f2bb0f0f001

/-- Evaluates `r` before passing it on (for evaluation inside the kernel). -/
def force {α : Type _} (r : Nat) (f : Nat → α) : α :=
  Nat.rec (f 0) (fun n _ => f (n + 1)) r

theorem force_eq {α : Type _} (r : Nat) (f : Nat → α) : force r f = f r := by
  cases r <;> rfl

/-- Multiplication by `x`. -/
def xtimes (r : Nat) : Nat := if (2 * r).testBit 256 then (2 * r) ^^^ P else 2 * r

/-- Horner multiplication: `r · x^n + p|_n · q`. -/
def mulAux (p q : Nat) : Nat → Nat → Nat
  | 0, r => r
  | n + 1, r =>
    force (Nat.mul 2 r) fun r2 =>
    force (cond (Nat.ble (2 ^ 256) r2) (Nat.xor r2 P) r2) fun r2 =>
    force (cond (Nat.beq (Nat.land (Nat.shiftRight p n) 1) 1) (Nat.xor r2 q) r2) (mulAux p q n)

/-- `p · q mod P`. -/
def mulmod (p q : Nat) : Nat := mulAux p q 256 0

set_option exponentiation.threshold 300

theorem P_lt : P < 2 ^ 257 := by decide
theorem P_top : P.testBit 256 = true := by decide

theorem lt_of_top_clear (n k : Nat) (h : n < 2 ^ (k + 1)) (hb : n.testBit k = false) : n < 2 ^ k := by
  rw [Nat.testBit_eq_decide_div_mod_eq] at hb
  simp at hb
  have h1 : n / 2 ^ k < 2 := by
    rw [Nat.div_lt_iff_lt_mul (Nat.two_pow_pos k)]
    rw [Nat.pow_succ] at h
    rwa [Nat.mul_comm]
  have : n / 2 ^ k = 0 := by
    generalize n / 2 ^ k = m at hb h1
    omega
  rcases (Nat.div_eq_zero_iff).mp this with h2 | h2
  · have := Nat.two_pow_pos k; omega
  · exact h2

theorem xtimes_lt (r : Nat) (h : r < 2 ^ 256) : xtimes r < 2 ^ 256 := by
  unfold xtimes
  have h2 : 2 * r < 2 ^ 257 := by omega
  split
  · rename_i hb
    apply lt_of_top_clear _ 256 (Nat.xor_lt_two_pow h2 P_lt)
    rw [Nat.testBit_xor, hb, P_top]; rfl
  · rename_i hb
    exact lt_of_top_clear _ 256 h2 (by simpa using hb)

theorem mulAux_succ (p q n r : Nat) (hr : r < 2 ^ 256) :
    mulAux p q (n + 1) r = mulAux p q n (xtimes r ^^^ (if p.testBit n then q else 0)) := by
  rw [mulAux, force_eq, force_eq, force_eq]
  have e1 : cond (Nat.ble (2 ^ 256) (Nat.mul 2 r)) (Nat.xor (Nat.mul 2 r) P) (Nat.mul 2 r) = xtimes r := by
    have hm : Nat.mul 2 r = 2 * r := rfl
    rw [hm, xtimes]
    have h2 : 2 * r < 2 ^ 257 := by omega
    cases hb : (2 * r).testBit 256
    · have hlt := lt_of_top_clear _ 256 h2 hb
      have : Nat.ble (2 ^ 256) (2 * r) = false := by
        cases h : Nat.ble (2 ^ 256) (2 * r)
        · rfl
        · have := Nat.le_of_ble_eq_true h; omega
      rw [this]; rfl
    · have hge : 2 ^ 256 ≤ 2 * r := Nat.ge_two_pow_of_testBit hb
      rw [Nat.ble_eq_true_of_le hge]; rfl
  have e2 : ∀ v, cond (Nat.beq (Nat.land (Nat.shiftRight p n) 1) 1) (Nat.xor v q) v
      = v ^^^ (if p.testBit n then q else 0) := by
    intro v
    have hb : Nat.beq (Nat.land (Nat.shiftRight p n) 1) 1 = p.testBit n := by
      have e : Nat.land (Nat.shiftRight p n) 1 = (p >>> n) % 2 := Nat.and_one_is_mod _
      rw [e, Nat.testBit_eq_decide_div_mod_eq, Nat.shiftRight_eq_div_pow]
      rcases Nat.mod_two_eq_zero_or_one (p / 2 ^ n) with h | h <;> rw [h] <;> rfl
    rw [hb]
    cases p.testBit n
    · show v = v ^^^ 0; simp
    · rfl
  rw [e1, e2]

section WithP
variable (hP : ∀ s, act P 257 s = .zero)
include hP

theorem act_xtimes (r : Nat) (h : r < 2 ^ 256) (s : St) :
    act (xtimes r) 256 s = step (act r 256 s) := by
  rw [← act_double, ← act_high _ 256 s (xtimes_lt r h)]
  unfold xtimes
  split
  · rw [act_pxor, hP, St.xor_zero]
  · rfl

theorem mulAux_act (p q : Nat) (hq : q < 2 ^ 256) (n r : Nat) (hr : r < 2 ^ 256) (s : St) :
    mulAux p q n r < 2 ^ 256 ∧
    act (mulAux p q n r) 256 s = (steps n (act r 256 s)).xor (act p n (act q 256 s)) := by
  induction n generalizing r with
  | zero => exact ⟨hr, (St.xor_zero _).symm⟩
  | succ n ih =>
    rw [mulAux_succ _ _ _ _ hr]
    have hb : (if p.testBit n then q else 0) < 2 ^ 256 := by split <;> omega
    have hr' := Nat.xor_lt_two_pow (xtimes_lt r hr) hb
    obtain ⟨h1, h2⟩ := ih _ hr'
    refine ⟨h1, ?_⟩
    rw [h2, act_pxor, act_xtimes hP r hr, steps_xor, steps_succ, act, St.xor_assoc]
    congr 1
    have : act (if p.testBit n = true then q else 0) 256 s = selB (p.testBit n) (act q 256 s) := by
      cases p.testBit n
      · exact act_zero_poly 256 s
      · rfl
    rw [this, ← selB_steps, St.xor_comm]
    rfl

theorem mulmod_act (p q : Nat) (hq : q < 2 ^ 256) (s : St) :
    mulmod p q < 2 ^ 256 ∧ act (mulmod p q) 256 s = act p 256 (act q 256 s) := by
  have := mulAux_act hP p q hq 256 0 (by decide) s
  rw [act_zero_poly, steps_zero, St.zero_xor] at this
  exact this

end WithP

theorem act_one (s : St) : act 1 256 s = s := by
  have : ∀ n, act 1 (n + 1) s = s := by
    intro n
    induction n with
    | zero => simp [act, selB, St.zero_xor, steps]
    | succ n ih =>
      rw [act, ih]
      have : (1 : Nat).testBit (n + 1) = false := by
        rw [Nat.testBit_succ]; simp
      rw [this]; simp [selB, St.xor_zero]
  exact this 255

theorem act_x (s : St) : act 2 256 s = step s := by
  have h := act_double 1 255 s
  have h1 : act 1 255 s = s := by
    rw [← act_high 1 255 s (Nat.one_lt_two_pow (by decide))]; exact act_one s
  rw [h1] at h
  exact h

/-! ## The polynomial annihilates `step`: check on a basis -/

/-- Numeric copy of `step` and of the summation loop, for evaluation by the kernel. -/
def sumLoopN (p : Nat) : (n k : Nat) → (a b c d x y z w : Nat) → Bool
  | 0, _, _, _, _, _, x, y, z, w => x == 0 && y == 0 && z == 0 && w == 0
  | n + 1, k, a, b, c, d, x, y, z, w =>
    force (Nat.mod (Nat.shiftRight p k) 2) fun bit =>
    force (Nat.xor x (Nat.mul bit a)) fun x =>
    force (Nat.xor y (Nat.mul bit b)) fun y =>
    force (Nat.xor z (Nat.mul bit c)) fun z =>
    force (Nat.xor w (Nat.mul bit d)) fun w =>
    force (Nat.mod (Nat.shiftLeft b 17) 0x10000000000000000) fun t =>
    force (Nat.xor c a) fun c =>
    force (Nat.xor d b) fun d =>
    force (Nat.xor b c) fun b =>
    force (Nat.xor a d) fun a =>
    force (Nat.xor c t) fun c =>
    force (Nat.lor (Nat.mod (Nat.shiftLeft d 45) 0x10000000000000000) (Nat.shiftRight d 19)) fun d =>
    sumLoopN p n (k + 1) a b c d x y z w

/-- The summation loop on states. -/
def sumLoop (p : Nat) : (n k : Nat) → St × St → St × St
  | 0, _, st => st
  | n + 1, k, (s, t) => sumLoop p n (k + 1) (step s, t.xor (selB (p.testBit k) s))

theorem sumLoop_eq (p n k : Nat) (s0 t : St) :
    sumLoop p n k (steps k s0, t) =
      (steps (k + n) s0, (t.xor (act p k s0)).xor (act p (k + n) s0)) := by
  induction n generalizing k t with
  | zero => simp [sumLoop, St.xor_assoc, St.xor_self, St.xor_zero]
  | succ n ih =>
    rw [sumLoop, ← steps_step, ← steps_succ, ih]
    have e : k + 1 + n = k + (n + 1) := by omega
    rw [e, act]
    congr 1
    simp only [St.xor_assoc]
    congr 1
    simp only [← St.xor_assoc]
    congr 1
    rw [St.xor_comm (selB _ _), St.xor_assoc, St.xor_self, St.xor_zero]

theorem Nat.beq_eq_decide' (a b : Nat) : (a == b) = decide (a = b) := rfl

theorem sumLoopN_eq (p n k : Nat) (s t : St) :
    sumLoopN p n k s.s0.toNat s.s1.toNat s.s2.toNat s.s3.toNat t.s0.toNat t.s1.toNat t.s2.toNat t.s3.toNat
      = decide ((sumLoop p n k (s, t)).2 = .zero) := by
  induction n generalizing k s t with
  | zero =>
    obtain ⟨x, y, z, w⟩ := t
    simp only [sumLoopN, sumLoop, St.zero, St.mk.injEq, ← BitVec.toNat_inj]
    simp only [Nat.beq_eq_decide', Bool.and_assoc, BitVec.toNat_zero, BitVec.ofNat_eq_ofNat,
      Bool.decide_and]
  | succ n ih =>
    have e : sumLoop p (n + 1) k (s, t) =
      sumLoop p n (k + 1) (step s, t.xor (selB (p.testBit k) s)) := rfl
    rw [e, ← ih]
    simp only [sumLoopN, force_eq]
    have h0 : ∀ (u v : U64), Nat.xor u.toNat (Nat.mul (Nat.mod (Nat.shiftRight p k) 2) v.toNat)
        = (u ^^^ (if p.testBit k = true then v else 0)).toNat := by
      intro u v
      have e : Nat.mod (Nat.shiftRight p k) 2 = if p.testBit k = true then 1 else 0 := by
        show p >>> k % 2 = _
        rw [Nat.testBit_eq_decide_div_mod_eq, Nat.shiftRight_eq_div_pow]
        rcases Nat.mod_two_eq_zero_or_one (p / 2 ^ k) with h | h <;> rw [h] <;> rfl
      have e2 : ∀ a b : Nat, Nat.xor a b = a ^^^ b := fun _ _ => rfl
      have e3 : ∀ a b : Nat, Nat.mul a b = a * b := fun _ _ => rfl
      rw [e, e2, e3, BitVec.toNat_xor]
      cases p.testBit k <;> simp
    have hx : ∀ (u v : U64), Nat.xor u.toNat v.toNat = (u ^^^ v).toNat := fun u v => (BitVec.toNat_xor u v).symm
    have hr : ∀ u : U64, Nat.lor (Nat.mod (Nat.shiftLeft u.toNat 45) 0x10000000000000000)
        (Nat.shiftRight u.toNat 19) = (u.rotateLeft 45).toNat := by
      intro u; rw [rotl_eq u 45 (by decide)]; rw [BitVec.toNat_or, BitVec.toNat_shiftLeft, BitVec.toNat_ushiftRight]; rfl
    have hs : ∀ u : U64, Nat.mod (Nat.shiftLeft u.toNat 17) 0x10000000000000000 = (u <<< 17).toNat := by
      intro u; rw [BitVec.toNat_shiftLeft]; rfl
    simp only [h0]
    simp only [hx, hr, hs]
    have ht : t.xor (selB (p.testBit k) s) = ⟨t.s0 ^^^ (if p.testBit k = true then s.s0 else 0),
        t.s1 ^^^ (if p.testBit k = true then s.s1 else 0),
        t.s2 ^^^ (if p.testBit k = true then s.s2 else 0),
        t.s3 ^^^ (if p.testBit k = true then s.s3 else 0)⟩ := by
      cases p.testBit k <;> simp [selB, St.xor, St.zero]
    rw [ht]
    simp only [step]

theorem sumLoopN_act (p n : Nat) (s : St) :
    sumLoopN p n 0 s.s0.toNat s.s1.toNat s.s2.toNat s.s3.toNat 0 0 0 0 = decide (act p n s = .zero) := by
  have h := sumLoopN_eq p n 0 s .zero
  have h2 := sumLoop_eq p n 0 s .zero
  simp only [steps, act, Nat.zero_add, St.zero_xor, St.xor_zero] at h2
  rw [h2] at h
  exact h

theorem P_basis_check : (List.range 64).all (fun i =>
    sumLoopN P 257 0 (2 ^ i) 0 0 0 0 0 0 0 && sumLoopN P 257 0 0 (2 ^ i) 0 0 0 0 0 0 &&
    sumLoopN P 257 0 0 0 (2 ^ i) 0 0 0 0 0 && sumLoopN P 257 0 0 0 0 (2 ^ i) 0 0 0 0) = true := by
  decide +kernel

/-- A predicate on words that is closed under `^` and holds for 0 and all single bits always holds. -/
theorem word_induction (Q : U64 → Prop) (h0 : Q 0) (hx : ∀ a b, Q a → Q b → Q (a ^^^ b))
    (hb : ∀ i, i < 64 → Q (BitVec.ofNat 64 (2 ^ i))) (x : U64) : Q x := by
  have key : ∀ n, n ≤ 64 → Q (BitVec.ofNat 64 (x.toNat % 2 ^ n)) := by
    intro n
    induction n with
    | zero => intro _; simpa [Nat.mod_one] using h0
    | succ n ih =>
      intro hn
      have hprev := ih (by omega)
      by_cases hbit : x.toNat.testBit n
      · have : BitVec.ofNat 64 (x.toNat % 2 ^ (n + 1))
            = BitVec.ofNat 64 (x.toNat % 2 ^ n) ^^^ BitVec.ofNat 64 (2 ^ n) := by
          apply BitVec.eq_of_getLsbD_eq
          intro i hi
          simp only [BitVec.getLsbD_xor, BitVec.getLsbD_ofNat, hi, decide_true, Bool.true_and,
            Nat.testBit_mod_two_pow, Nat.testBit_two_pow]
          by_cases h1 : i = n
          · subst h1; simp [hbit]
          · have : (i < n + 1) ↔ i < n := by omega
            have h3 : ¬ n = i := fun h => h1 h.symm
            simp [this, h3]
        rw [this]
        exact hx _ _ hprev (hb n (by omega))
      · have : x.toNat % 2 ^ (n + 1) = x.toNat % 2 ^ n := by
          apply Nat.eq_of_testBit_eq
          intro i
          simp only [Nat.testBit_mod_two_pow]
          by_cases h1 : i = n
          · subst h1; simp [hbit]
          · have : (i < n + 1) ↔ i < n := by omega
            simp [this]
        rw [this]; exact hprev
  have := key 64 (Nat.le_refl _)
  rw [Nat.mod_eq_of_lt x.isLt] at this
  simpa using this

theorem P_annihilates (s : St) : act P 257 s = .zero := by
  have chk := P_basis_check
  rw [List.all_eq_true] at chk
  have hpow : ∀ i, i < 64 → (BitVec.ofNat 64 (2 ^ i)).toNat = 2 ^ i := by
    intro i hi
    rw [BitVec.toNat_ofNat, Nat.mod_eq_of_lt (Nat.pow_lt_pow_right (by decide) hi)]
  have hlin : ∀ (f : U64 → St), f 0 = .zero → (∀ a b, f (a ^^^ b) = (f a).xor (f b)) →
      (∀ i, i < 64 → act P 257 (f (BitVec.ofNat 64 (2 ^ i))) = .zero) → ∀ x, act P 257 (f x) = .zero := by
    intro f hf0 hfx hfb x
    apply word_induction (fun x => act P 257 (f x) = .zero)
    · show act P 257 (f 0) = .zero
      rw [hf0, act_zero_arg]
    · intro a b ha hb
      show act P 257 (f (a ^^^ b)) = .zero
      rw [hfx, act_linear, ha, hb, St.xor_zero]
    · exact hfb
  have hs : s = (((⟨s.s0, 0, 0, 0⟩ : St).xor ⟨0, s.s1, 0, 0⟩).xor ⟨0, 0, s.s2, 0⟩).xor ⟨0, 0, 0, s.s3⟩ := by
    simp [St.xor]
  rw [hs, act_linear, act_linear, act_linear]
  have b : ∀ i, i < 64 → _ := fun i hi => chk i (List.mem_range.mpr hi)
  simp only [Bool.and_eq_true] at b
  rw [hlin (fun x => ⟨x, 0, 0, 0⟩) rfl (by intro a b; simp [St.xor]) ?_,
    hlin (fun x => ⟨0, x, 0, 0⟩) rfl (by intro a b; simp [St.xor]) ?_,
    hlin (fun x => ⟨0, 0, x, 0⟩) rfl (by intro a b; simp [St.xor]) ?_,
    hlin (fun x => ⟨0, 0, 0, x⟩) rfl (by intro a b; simp [St.xor]) ?_]
  · simp [St.xor, St.zero]
  · intro i hi
    have h := sumLoopN_act P 257 ⟨0, 0, 0, BitVec.ofNat 64 (2 ^ i)⟩
    simp only [hpow i hi, BitVec.toNat_zero, BitVec.ofNat_eq_ofNat] at h
    have := (b i hi).2
    rw [h] at this
    simpa using this
  · intro i hi
    have h := sumLoopN_act P 257 ⟨0, 0, BitVec.ofNat 64 (2 ^ i), 0⟩
    simp only [hpow i hi, BitVec.toNat_zero, BitVec.ofNat_eq_ofNat] at h
    have := (b i hi).1.2
    rw [h] at this
    simpa using this
  · intro i hi
    have h := sumLoopN_act P 257 ⟨0, BitVec.ofNat 64 (2 ^ i), 0, 0⟩
    simp only [hpow i hi, BitVec.toNat_zero, BitVec.ofNat_eq_ofNat] at h
    have := (b i hi).1.1.2
    rw [h] at this
    simpa using this
  · intro i hi
    have h := sumLoopN_act P 257 ⟨BitVec.ofNat 64 (2 ^ i), 0, 0, 0⟩
    simp only [hpow i hi, BitVec.toNat_zero, BitVec.ofNat_eq_ofNat] at h
    have := (b i hi).1.1.1
    rw [h] at this
    simpa using this

/-! ## Powers of `x` -/

/-- `p` represents `step^n`. -/
def IsPow (p n : Nat) : Prop := p < 2 ^ 256 ∧ ∀ s, act p 256 s = steps n s

theorem isPow_one : IsPow 2 1 := ⟨by decide, act_x⟩

theorem isPow_zero : IsPow 1 0 := ⟨by decide, act_one⟩

theorem IsPow.mul {p q m n : Nat} (hp : IsPow p m) (hq : IsPow q n) : IsPow (mulmod p q) (m + n) := by
  have h := mulmod_act P_annihilates p q hq.1
  refine ⟨(h .zero).1, fun s => ?_⟩
  rw [(h s).2, hq.2, hp.2, steps_add]

end Verif.Rng
