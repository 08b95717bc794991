import Verif.Hash.Model
import Verif.Hash.Spec
/-! # `sha256_round` is the compression function of FIPS 180-4 -/
namespace Verif.Hash

/-- The eight words as the standard's working variables. -/
def toVars (v : Vector Word 8) : Spec.Vars :=
  ⟨v[0], v[1], v[2], v[3], v[4], v[5], v[6], v[7]⟩

theorem primes_eq : Spec.primes = [2, 3, 5, 7, 11, 13, 17, 19, 23, 29, 31, 37, 41, 43, 47, 53, 59,
    61, 67, 71, 73, 79, 83, 89, 97, 101, 103, 107, 109, 113, 127, 131, 137, 139, 149, 151, 157,
    163, 167, 173, 179, 181, 191, 193, 197, 199, 211, 223, 227, 229, 233, 239, 241, 251, 257, 263,
    269, 271, 277, 281, 283, 293, 307, 311] := by decide +kernel

theorem K_table : SHA256_K.toList = (List.range 64).map Spec.K := by
  unfold Spec.K
  rw [primes_eq]
  decide +kernel

theorem K_eq (t : Nat) (h : t < 64) : SHA256_K[t] = Spec.K t := by
  have h1 := congrArg (fun l => l[t]?) K_table
  simp [h] at h1
  exact h1

theorem H_eq : toVars SHA256_H = Spec.H0 := by decide +kernel

theorem rotr_eq (x : Word) (n : Nat) (h : n < 32) : x.rotateRight n = Spec.ROTR n x := by
  rw [BitVec.rotateRight_def, Nat.mod_eq_of_lt h]; rfl

theorem step_eq (schedule : Vector Word 16) (st : Vector Word 8) (b : Fin 4) (i : Fin 16) :
    toVars (sha256_step schedule st b i)
      = Spec.step (toVars st) (Spec.K (b.val * 16 + i.val)) schedule[i] := by
  simp [sha256_step, toVars, Spec.step, Spec.Sigma0, Spec.Sigma1, Spec.Ch,
    Spec.Maj, rotr_eq, K_eq]

/-- Induction principle for `Fin.foldl`. -/
theorem foldl_inv {α : Type _} (n : Nat) (f : α → Fin n → α) (P : Nat → α → Prop) (s : α)
    (h0 : P 0 s) (hs : ∀ (i : Fin n) s, P i.val s → P (i.val + 1) (f s i)) :
    P n (Fin.foldl n f s) := by
  induction n with
  | zero => simpa using h0
  | succ n ih =>
    rw [Fin.foldl_succ_last]
    have := ih (fun s i => f s i.castSucc) (fun i s h => hs i.castSucc s h)
    exact hs (Fin.last n) _ this

theorem block_steps_eq (M : Nat → Word) (v : Spec.Vars) (schedule : Vector Word 16)
    (st : Vector Word 8) (b : Fin 4)
    (hsch : ∀ j (h : j < 16), schedule[j] = Spec.W M (b.val * 16 + j))
    (hst : toVars st = Spec.steps M v (b.val * 16)) :
    toVars (block_steps schedule st b) = Spec.steps M v (b.val * 16 + 16) := by
  unfold block_steps
  apply foldl_inv 16 _ (fun i s => toVars s = Spec.steps M v (b.val * 16 + i)) st
  · simpa using hst
  · intro i s h
    have e : b.val * 16 + (i.val + 1) = (b.val * 16 + i.val) + 1 := by omega
    rw [step_eq, h, e, Spec.steps]
    have := hsch i.val i.isLt
    simp only [Fin.getElem_fin]
    rw [this]

theorem schedule_loop_eq (M : Nat → Word) (schedule : Vector Word 16) (b : Nat)
    (hsch : ∀ j (h : j < 16), schedule[j] = Spec.W M (b * 16 + j)) :
    ∀ j (h : j < 16), (Fin.foldl 16 schedule_update schedule)[j]
      = Spec.W M ((b + 1) * 16 + j) := by
  have := foldl_inv 16 schedule_update
    (fun i s => ∀ j (h : j < 16),
      s[j] = if j < i then Spec.W M ((b + 1) * 16 + j) else Spec.W M (b * 16 + j))
    schedule (by simpa using hsch) ?_
  · intro j h; simpa [h] using this j h
  · intro i s ih j h
    have hi := i.isLt
    simp only [schedule_update]
    rw [Vector.getElem_set]
    by_cases hij : i.val = j
    · subst hij
      simp only [if_pos, Nat.lt_succ_self]
      have e1 : s[(i.val + 1) % 16]'(by omega) = Spec.W M ((b + 1) * 16 + i.val - 15) := by
        rw [ih]; split <;> congr 1 <;> omega
      have e14 : s[(i.val + 14) % 16]'(by omega) = Spec.W M ((b + 1) * 16 + i.val - 2) := by
        rw [ih]; split <;> congr 1 <;> omega
      have e9 : s[(i.val + 9) % 16]'(by omega) = Spec.W M ((b + 1) * 16 + i.val - 7) := by
        rw [ih]; split <;> congr 1 <;> omega
      have e0 : s[i] = Spec.W M ((b + 1) * 16 + i.val - 16) := by
        rw [Fin.getElem_fin, ih]; split <;> congr 1 <;> omega
      rw [e1, e14, e9, e0]
      conv => rhs; rw [Spec.W]
      rw [if_neg (by omega : ¬ (b + 1) * 16 + i.val < 16)]
      simp only [Spec.sigma0, Spec.sigma1, Spec.SHR, rotr_eq _ _ (by decide : 7 < 32),
        rotr_eq _ _ (by decide : 18 < 32), rotr_eq _ _ (by decide : 17 < 32),
        rotr_eq _ _ (by decide : 19 < 32)]
      ac_rfl
    · rw [if_neg hij, ih j h]
      have : j < i.val ↔ j < i.val + 1 := by omega
      simp only [this]

theorem round_eq (data : Vector Byte 64) (h : Vector Word 8) :
    toVars (sha256_round data h) = Spec.compress (toVars h) data.toList := by
  have hM : ∀ j (hj : j < 16), (Vector.ofFn (schedule_init data))[j]
      = Spec.W (Spec.blockWord data.toList) (0 * 16 + j) := by
    intro j hj
    rw [Spec.W, if_pos (by omega)]
    simp [schedule_init, from_be_bytes, Spec.blockWord, Nat.mul_comm]
    rw [Vector.getElem?_eq_getElem (by omega), Vector.getElem?_eq_getElem (by omega),
      Vector.getElem?_eq_getElem (by omega), Vector.getElem?_eq_getElem (by omega)]
    simp
  have key := foldl_inv 3 (fun (acc : Vector Word 16 × Vector Word 8) (b : Fin 3) =>
      ((Fin.foldl 16 schedule_update acc.1),
        block_steps (Fin.foldl 16 schedule_update acc.1) acc.2 b.succ))
    (fun i acc => (∀ j (hj : j < 16), acc.1[j]
        = Spec.W (Spec.blockWord data.toList) (i * 16 + j)) ∧
      toVars acc.2 = Spec.steps (Spec.blockWord data.toList) (toVars h) (i * 16 + 16))
    (Vector.ofFn (schedule_init data),
      block_steps (Vector.ofFn (schedule_init data)) h 0)
    ⟨hM, block_steps_eq _ (toVars h) _ h 0 (by simpa using hM) rfl⟩
    (by
      intro i acc ⟨h1, h2⟩
      have hs := schedule_loop_eq _ acc.1 i.val h1
      refine ⟨hs, ?_⟩
      refine block_steps_eq _ (toVars h) _ acc.2 i.succ (by simpa using hs) ?_
      rw [h2]
      congr 1
      simp; omega)
  unfold sha256_round Spec.compress
  have k2 := key.2
  generalize hst : (Fin.foldl 3 (fun (acc : Vector Word 16 × Vector Word 8) (b : Fin 3) =>
      ((Fin.foldl 16 schedule_update acc.1),
        block_steps (Fin.foldl 16 schedule_update acc.1) acc.2 b.succ))
      (Vector.ofFn (schedule_init data),
      block_steps (Vector.ofFn (schedule_init data)) h 0)) = acc at k2
  simp only [hst]
  have e64 : (3 * 16 + 16) = 64 := rfl
  rw [e64] at k2
  rw [← k2]
  simp [toVars, Spec.Vars.add]

end Verif.Hash
