import Verif.Rng.PropsXo
import Verif.Rng.PropsMix
import Mathlib.Data.Set.Card
/-! # Helper lemmas: how many states of Xoshiro256++ produce given outputs -/
namespace Verif.Rng

theorem rotr_rotl' (r : Nat) (h0 : 0 < r) (h : r < 64) (x : U64) :
    (x.rotateLeft r).rotateRight r = x := by
  apply BitVec.eq_of_getLsbD_eq
  intro i hi
  simp only [BitVec.getLsbD_rotateRight, BitVec.getLsbD_rotateLeft, Nat.mod_eq_of_lt h]
  by_cases hi1 : i < 64 - r
  · have h1 : ¬ (r + i < r) := by omega
    have h2 : r + i < 64 := by omega
    simp [hi1, h2]
  · have h1 : i - (64 - r) < r := by omega
    simp only [hi1, decide_false, cond_false, hi, decide_true, Bool.true_and, h1, cond_true]
    congr 1
    omega

theorem rotl_rotr' (r : Nat) (h0 : 0 < r) (h : r < 64) (x : U64) :
    (x.rotateRight r).rotateLeft r = x := by
  apply BitVec.eq_of_getLsbD_eq
  intro i hi
  simp only [BitVec.getLsbD_rotateRight, BitVec.getLsbD_rotateLeft, Nat.mod_eq_of_lt h]
  by_cases hi1 : i < r
  · have h1 : ¬ (64 - r + i < 64 - r) := by omega
    have h2 : 64 - r + i < 64 := by omega
    simp [hi1, h2]
  · have h1 : i - r < 64 - r := by omega
    simp only [hi1, decide_false, cond_false, hi, decide_true, Bool.true_and, h1, cond_true]
    congr 1
    omega

/-- The last word of a state with first word `x` that outputs `v`. -/
def unc (x v : U64) : U64 := (v - x).rotateRight 23 - x

theorem combine_iff (t : St) (v : U64) : combine t = v ↔ t.s3 = unc t.s0 v := by
  unfold combine unc
  constructor
  · intro h
    rw [← h, BitVec.add_sub_cancel, rotr_rotl' 23 (by omega) (by omega), BitVec.add_comm,
      BitVec.add_sub_cancel]
  · intro h
    rw [h, BitVec.add_comm t.s0, BitVec.sub_add_cancel, rotl_rotr' 23 (by omega) (by omega),
      BitVec.sub_add_cancel]

theorem step_s0 (t : St) : (step t).s0 = t.s0 ^^^ (t.s3 ^^^ t.s1) := rfl
theorem step_s1 (t : St) : (step t).s1 = t.s1 ^^^ (t.s2 ^^^ t.s0) := rfl
theorem step_s3 (t : St) : (step t).s3 = (t.s3 ^^^ t.s1).rotateLeft 45 := rfl

theorem xor_move {a b c : U64} : a = b ^^^ c ↔ b = a ^^^ c := by
  constructor
  · intro h; rw [h, BitVec.xor_assoc, BitVec.xor_self, BitVec.xor_zero]
  · intro h; rw [h, BitVec.xor_assoc, BitVec.xor_self, BitVec.xor_zero]

/-- The state before a step whose result has first word `x` and last word `z`, if that state is to
output `v`: its first, second and last word. -/
def p0 (x z : U64) : U64 := x ^^^ z.rotateRight 45
def p3 (x z v : U64) : U64 := unc (p0 x z) v
def p1 (x z v : U64) : U64 := p3 x z v ^^^ z.rotateRight 45

theorem back (t : St) (x z v : U64) :
    ((step t).s0 = x ∧ (step t).s3 = z ∧ combine t = v) ↔
      (t.s0 = p0 x z ∧ t.s1 = p1 x z v ∧ t.s3 = p3 x z v) := by
  rw [combine_iff, step_s0, step_s3]
  unfold p1 p3 p0
  obtain ⟨a, b, c, d⟩ := t
  constructor
  · rintro ⟨h1, h2, h3⟩
    simp only [] at h1 h2 h3 ⊢
    have h4 : d ^^^ b = z.rotateRight 45 := by rw [← h2, rotr_rotl' 45 (by omega) (by omega)]
    rw [h4] at h1
    have ha : a = x ^^^ z.rotateRight 45 := xor_move.mp h1.symm
    refine ⟨ha, ?_, by rw [h3, ha]⟩
    rw [← ha, ← h3, ← h4, ← BitVec.xor_assoc, BitVec.xor_self, BitVec.zero_xor]
  · rintro ⟨h1, h2, h3⟩
    simp only [] at h1 h2 h3 ⊢
    have h4 : d ^^^ b = z.rotateRight 45 := by
      rw [h2, ← h3, ← BitVec.xor_assoc, BitVec.xor_self, BitVec.zero_xor]
    refine ⟨?_, ?_, ?_⟩
    · rw [h4]; exact (xor_move.mpr h1).symm
    · rw [h4, rotl_rotr' 45 (by omega) (by omega)]
    · rw [h3, h1]

theorem St.ext4 {a b : St} (h0 : a.s0 = b.s0) (h1 : a.s1 = b.s1) (h2 : a.s2 = b.s2)
    (h3 : a.s3 = b.s3) : a = b := by
  cases a; cases b; simp_all

/-! ## Counting -/

theorem card_word (w : Nat) : Nat.card (BitVec w) = 2 ^ w := by
  rw [Nat.card_congr ⟨BitVec.toFin, BitVec.ofFin, fun _ => rfl, fun _ => rfl⟩, Nat.card_fin]

theorem finite_word (w : Nat) : Finite (BitVec w) :=
  Finite.of_equiv (Fin (2 ^ w)) ⟨BitVec.ofFin, BitVec.toFin, fun _ => rfl, fun _ => rfl⟩

theorem ncard_range {X Y : Type} (f : X → Y) (S : Set Y) (hi : Function.Injective f)
    (hr : ∀ y, y ∈ S ↔ ∃ x, f x = y) : S.ncard = Nat.card X := by
  have : S = f '' Set.univ := by
    ext y
    rw [hr]
    simp
  rw [this, Set.ncard_image_of_injective _ hi, Set.ncard_univ]

theorem count0 : {t : St | outputs 0 t = []}.ncard = 2 ^ 256 := by
  have := finite_word 64
  rw [ncard_range (X := U64 × U64 × U64 × U64) (fun p => ⟨p.1, p.2.1, p.2.2.1, p.2.2.2⟩)]
  · rw [Nat.card_prod, Nat.card_prod, Nat.card_prod, card_word, ← pow_add, ← pow_add, ← pow_add]
  · rintro ⟨a, b, c, d⟩ ⟨a', b', c', d'⟩ h
    simpa using h
  · intro y
    exact ⟨fun _ => ⟨(y.s0, y.s1, y.s2, y.s3), rfl⟩, fun _ => rfl⟩

theorem count1 (a : U64) : {t : St | outputs 1 t = [a]}.ncard = 2 ^ 192 := by
  rw [ncard_range (X := U64 × U64 × U64) (fun p => ⟨p.1, p.2.1, p.2.2, unc p.1 a⟩)]
  · rw [Nat.card_prod, Nat.card_prod, card_word, ← pow_add, ← pow_add]
  · rintro ⟨x, y, z⟩ ⟨x', y', z'⟩ h
    simp only [St.mk.injEq] at h
    obtain ⟨rfl, rfl, rfl, -⟩ := h
    rfl
  · intro t
    have e : t ∈ {t : St | outputs 1 t = [a]} ↔ combine t = a := by
      simp [outputs, next64]
    rw [e, combine_iff]
    constructor
    · intro h
      exact ⟨(t.s0, t.s1, t.s2), St.ext4 rfl rfl rfl h.symm⟩
    · rintro ⟨p, rfl⟩
      rfl

theorem count2 (a b : U64) : {t : St | outputs 2 t = [a, b]}.ncard = 2 ^ 128 := by
  rw [ncard_range (X := U64 × U64)
    (fun p => ⟨p0 p.1 (unc p.1 b), p1 p.1 (unc p.1 b) a, p.2, p3 p.1 (unc p.1 b) a⟩)]
  · rw [Nat.card_prod, card_word, ← pow_add]
  · rintro ⟨x, y⟩ ⟨x', y'⟩ h
    simp only [St.mk.injEq] at h
    obtain ⟨h0, h1, h2, h3⟩ := h
    have k1 := (back ⟨p0 x (unc x b), p1 x (unc x b) a, y, p3 x (unc x b) a⟩ x (unc x b) a).mpr
      ⟨rfl, rfl, rfl⟩
    have k2 := (back ⟨p0 x (unc x b), p1 x (unc x b) a, y, p3 x (unc x b) a⟩ x' (unc x' b) a).mpr
      ⟨h0, h1, h3⟩
    rw [h2, k1.1.symm.trans k2.1]
  · intro t
    have e : t ∈ {t : St | outputs 2 t = [a, b]} ↔ (combine t = a ∧ combine (step t) = b) := by
      simp [outputs, next64]
    rw [e, combine_iff (step t)]
    constructor
    · rintro ⟨h1, h2⟩
      obtain ⟨k0, k1, k3⟩ := (back t (step t).s0 (unc (step t).s0 b) a).mp ⟨rfl, h2, h1⟩
      exact ⟨((step t).s0, t.s2), St.ext4 k0.symm k1.symm rfl k3.symm⟩
    · rintro ⟨p, hp⟩
      have k := (back t p.1 (unc p.1 b) a).mpr (by subst hp; exact ⟨rfl, rfl, rfl⟩)
      exact ⟨k.2.2, by rw [k.2.1, k.1]⟩

/-- The first state of three whose outputs are `a`, `b`, `c` and the last of which has first word
`x`. -/
def first3 (a b c x : U64) : St :=
  let z := unc x c
  let x1 := p0 x z
  let y1 := p1 x z b
  let z1 := p3 x z b
  let x0 := p0 x1 z1
  let y0 := p1 x1 z1 a
  ⟨x0, y0, y1 ^^^ y0 ^^^ x0, p3 x1 z1 a⟩

theorem first3_iff (a b c x : U64) (t : St) :
    (combine t = a ∧ combine (step t) = b ∧ combine (step (step t)) = c ∧
      (step (step t)).s0 = x) ↔ t = first3 a b c x := by
  have hs : ∀ p q r s : U64, p = q ^^^ (r ^^^ s) ↔ r = p ^^^ q ^^^ s := by
    intro p q r s
    constructor
    · rintro rfl
      have : q ^^^ (r ^^^ s) ^^^ q ^^^ s = r ^^^ ((q ^^^ q) ^^^ (s ^^^ s)) := by ac_rfl
      rw [this]; simp
    · rintro rfl
      have : q ^^^ (p ^^^ q ^^^ s ^^^ s) = p ^^^ ((q ^^^ q) ^^^ (s ^^^ s)) := by ac_rfl
      rw [this]; simp
  have h2 := back (step t) x (unc x c) b
  have h1 := back t (p0 x (unc x c)) (p3 x (unc x c) b) a
  constructor
  · rintro ⟨ha, hb, hc, hx⟩
    rw [combine_iff, hx] at hc
    obtain ⟨k0, k1, k3⟩ := h2.mp ⟨hx, hc, hb⟩
    obtain ⟨l0, l1, l3⟩ := h1.mp ⟨k0, k3, ha⟩
    rw [step_s1] at k1
    have k2 := (hs _ _ _ _).mp k1.symm
    refine St.ext4 l0 l1 ?_ l3
    rw [k2, l0, l1]
    rfl
  · intro h
    have l0 : t.s0 = p0 (p0 x (unc x c)) (p3 x (unc x c) b) := by rw [h]; rfl
    have l1 : t.s1 = p1 (p0 x (unc x c)) (p3 x (unc x c) b) a := by rw [h]; rfl
    have l3 : t.s3 = p3 (p0 x (unc x c)) (p3 x (unc x c) b) a := by rw [h]; rfl
    have l2 : t.s2 = p1 x (unc x c) b ^^^ t.s1 ^^^ t.s0 := by rw [h]; rfl
    obtain ⟨k0, k3, ha⟩ := h1.mpr ⟨l0, l1, l3⟩
    have k1 : (step t).s1 = p1 x (unc x c) b := by
      rw [step_s1]; exact ((hs _ _ _ _).mpr l2).symm
    obtain ⟨m0, m3, hb⟩ := h2.mpr ⟨k0, k1, k3⟩
    exact ⟨ha, hb, by rw [combine_iff, m0, m3], m0⟩

theorem count3 (a b c : U64) : {t : St | outputs 3 t = [a, b, c]}.ncard = 2 ^ 64 := by
  rw [ncard_range (X := U64) (first3 a b c)]
  · rw [card_word]
  · intro x x' h
    have k := (first3_iff a b c x (first3 a b c x)).mpr rfl
    have k' := (first3_iff a b c x' (first3 a b c x)).mpr h
    exact k.2.2.2.symm.trans k'.2.2.2
  · intro t
    have e : t ∈ {t : St | outputs 3 t = [a, b, c]} ↔
        (combine t = a ∧ combine (step t) = b ∧ combine (step (step t)) = c) := by
      simp [outputs, next64]
    rw [e]
    constructor
    · rintro ⟨ha, hb, hc⟩
      exact ⟨_, ((first3_iff a b c _ t).mp ⟨ha, hb, hc, rfl⟩).symm⟩
    · rintro ⟨x, hx⟩
      obtain ⟨ha, hb, hc, -⟩ := (first3_iff a b c x t).mpr hx.symm
      exact ⟨ha, hb, hc⟩

theorem count (w : List U64) (hw : w.length ≤ 3) :
    {t : St | outputs w.length t = w}.ncard = 2 ^ (256 - 64 * w.length) := by
  match w, hw with
  | [], _ => exact count0
  | [a], _ => rw [show [a].length = 1 from rfl]; exact count1 a
  | [a, b], _ => rw [show [a, b].length = 2 from rfl]; exact count2 a b
  | [a, b, c], _ => rw [show [a, b, c].length = 3 from rfl]; exact count3 a b c
  | _ :: _ :: _ :: _ :: _, h => simp only [List.length_cons] at h; omega

/-- A state other than zero is visited once in a period: positions and states can be exchanged. -/
theorem count_positions (s : St) (h : XoReach s) (P : St → Prop) :
    {n | n < 2 ^ 256 - 1 ∧ P (afterCalls n s)}.ncard = ({t | P t} \ {⟨0, 0, 0, 0⟩}).ncard := by
  have hnz : ∀ n, afterCalls n s ≠ ⟨0, 0, 0, 0⟩ := by
    intro n
    rw [afterCalls_eq]
    exact steps_ne_zero n (xo_state_nonzero s h)
  apply Set.ncard_congr (fun n _ => afterCalls n s)
  · rintro n ⟨_, hp⟩
    exact ⟨hp, hnz n⟩
  · rintro n m ⟨hn, _⟩ ⟨hm, _⟩ he
    obtain ⟨k, _, hk⟩ := xo_visits_everything_once s (afterCalls n s) h (hnz n)
    rw [hk n hn rfl, hk m hm he.symm]
  · rintro t ⟨hp, ht⟩
    obtain ⟨k, ⟨hk, hkt⟩, _⟩ := xo_visits_everything_once s t h ht
    refine ⟨k, ⟨hk, ?_⟩, hkt⟩
    rw [hkt]; exact hp

theorem outputs_zero (n : Nat) : outputs n ⟨0, 0, 0, 0⟩ = List.replicate n 0 := by
  induction n with
  | zero => rfl
  | succ n ih =>
    have hc : combine ⟨0, 0, 0, 0⟩ = 0 := by decide
    have hs : step ⟨0, 0, 0, 0⟩ = ⟨0, 0, 0, 0⟩ := step_zero
    show combine ⟨0, 0, 0, 0⟩ :: outputs n (step ⟨0, 0, 0, 0⟩) = _
    rw [hc, hs, ih]; rfl

/-! ## The mixers -/

/-- What `mix32` computes before it takes the upper half. -/
def mix32w (v : U64) : U64 :=
  let v := (v ^^^ (v >>> 33)) * 0x62a9d9ed799705f5#64
  (v ^^^ (v >>> 28)) * 0xcb24d0a5c88c35b3#64

theorem mix32w_inj {x y : U64} (h : mix32w x = mix32w y) : x = y := by
  simp only [mix32w] at h
  have h := mul_cancel _ 0x13a10fc6e8a1817b#64 _ _ (by decide) h
  have h := xorshift_cancel _ _ 28 (by decide) h
  have h := mul_cancel _ 0x8e7fc80bbd7bbe5d#64 _ _ (by decide) h
  exact xorshift_cancel _ _ 33 (by decide) h

/-- In a period the arguments of the mixing function run through all words once, so positions and
words can be exchanged. -/
theorem count_mix (g : SplitMix64) (h : Reach g) (q : U64 → U64) (hq : ∀ x y, q x = q y → x = y)
    (P : U64 → Prop) :
    {n | n < 2 ^ 64 ∧ P (q ((g.mix.state + g.gamma) + BitVec.ofNat 64 n * g.gamma))}.ncard =
      {y | P y}.ncard := by
  have key : ∀ n m, n < 2 ^ 64 → m < 2 ^ 64 →
      q ((g.mix.state + g.gamma) + BitVec.ofNat 64 n * g.gamma) =
        q ((g.mix.state + g.gamma) + BitVec.ofNat 64 m * g.gamma) → n = m := by
    intro n m hn hm he
    have := (arith_eq_iff (g.mix.state + g.gamma) g.gamma (reach_odd h) n m).mp (hq _ _ he)
    rwa [Nat.mod_eq_of_lt hn, Nat.mod_eq_of_lt hm] at this
  have inj : Function.Injective (fun n : Fin (2 ^ 64) =>
      (q ((g.mix.state + g.gamma) + BitVec.ofNat 64 n.val * g.gamma)).toFin) := by
    intro a b hab
    exact Fin.ext (key a.val b.val a.isLt b.isLt (BitVec.toFin_inj.mp hab))
  apply Set.ncard_congr
    (fun n _ => q ((g.mix.state + g.gamma) + BitVec.ofNat 64 n * g.gamma))
  · rintro n ⟨_, hp⟩
    exact hp
  · rintro n m ⟨hn, _⟩ ⟨hm, _⟩ he
    exact key n m hn hm he
  · intro y hy
    obtain ⟨n, hn⟩ := Finite.surjective_of_injective inj y.toFin
    have hn := BitVec.toFin_inj.mp hn
    exact ⟨n.val, ⟨n.isLt, by rw [hn]; exact hy⟩, hn⟩

theorem count_upper (v : BitVec 32) :
    {y : U64 | (y >>> 32).setWidth 32 = v}.ncard = 2 ^ 32 := by
  rw [ncard_range (X := BitVec 32) (fun l => v ++ l)]
  · rw [card_word]
  · intro a b hab
    have hab : v ++ a = v ++ b := hab
    apply BitVec.eq_of_getLsbD_eq
    intro i hi
    have := congrArg (fun y : BitVec (32 + 32) => y.getLsbD i) hab
    have e : ∀ c : BitVec 32, (v ++ c).getLsbD i = c.getLsbD i := by
      intro c
      rw [BitVec.getLsbD_append]; simp [hi]
    exact (e a).symm.trans (this.trans (e b))
  · intro y
    show (y >>> 32).setWidth 32 = v ↔ _
    constructor
    · intro h
      refine ⟨y.setWidth 32, ?_⟩
      subst h
      apply BitVec.eq_of_getLsbD_eq
      intro i hi
      simp only [BitVec.getLsbD_append, BitVec.getLsbD_setWidth, BitVec.getLsbD_ushiftRight]
      by_cases h1 : i < 32
      · simp [h1]
      · have h2 : i - 32 < 32 := by omega
        have h3 : 32 + (i - 32) = i := by omega
        simp [h1, h2, h3]
    · rintro ⟨l, rfl⟩
      apply BitVec.eq_of_getLsbD_eq
      intro i hi
      have h1 : ¬ (32 + i < 32) := by omega
      have h2 : 32 + i - 32 = i := by omega
      have e : (v ++ l).getLsbD (32 + i) = v.getLsbD i := by
        rw [BitVec.getLsbD_append]; simp [h1]
      rw [BitVec.getLsbD_setWidth, BitVec.getLsbD_ushiftRight]
      simp only [hi, decide_true, Bool.true_and]
      exact e

end Verif.Rng
