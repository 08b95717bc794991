import Verif.Io.SpecGrow
import Verif.Io.LemmasVec
/-! # Lemmas: what growing vectors cost -/
namespace Verif.Io
variable {A : Alloc} {v v' : RawVec}

/-- A relation between the capacity and the bytes copied so far that is kept as long as nothing beyond `k` is asked for. -/
def Kept (A : Alloc) (k : Nat) (Q : Nat → Nat → Prop) : Prop :=
  ∀ (v v' : RawVec) (m n : Nat), v.len + n ≤ k → v.reserve A n = some v' → Q v.cap m → Q v'.cap (m + v.moves n)

/-- The bytes copied: at most twice the furthest end. -/
def Paid (k c m : Nat) : Prop := m ≤ 2 * k ∧ (m ≤ c ∨ isizeMax ≤ c)

theorem paid_kept (hA : A.Doubles) (k : Nat) : Kept A k (Paid k) := by
  intro v v' m n hk hr h
  unfold RawVec.reserve at hr
  unfold RawVec.moves
  split at hr
  · cases hr
    rename_i hc
    rw [if_pos hc]
    exact h
  · rename_i hc
    split at hr
    · cases hr
      rw [if_neg hc]
      have := hA v n
      obtain ⟨h1, h2⟩ := h
      unfold Paid
      simp only []
      omega
    · cases hr

theorem room_kept (hA : A.Modest) (k c : Nat) : Kept A k fun x _ => x ≤ max c (max 8 (2 * k)) := by
  intro v v' m n hk hr h
  unfold RawVec.reserve at hr
  split at hr
  · cases hr; exact h
  · rename_i hc
    split at hr
    · cases hr
      have := hA v n
      simp only []
      omega
    · cases hr

variable {k : Nat} {Q : Nat → Nat → Prop}

theorem Kept.smap (hQ : Kept A k Q) {m a n : Nat} {b : Option Nat} (h : Q v.cap m) (hk : v.len + b.getD a ≤ k) (hr : v.smap A a b = some (v', n)) :
    Q v'.cap (m + v.smoves a b) := by
  unfold RawVec.smap at hr
  split at hr
  · cases hr
  · rename_i hv
    cases hr
    exact hQ _ _ _ _ hk hv h

theorem Kept.mmap (hQ : Kept A k Q) {m i n : Nat} (h : Q v.cap m) (hk : i + n ≤ k) (hr : v.mmap A i n = some (some v')) :
    Q v'.cap (m + v.mmoves i n) := by
  unfold RawVec.mmap at hr
  unfold RawVec.mmoves
  split at hr
  · rename_i hu
    rw [if_pos hu]
    split at hr
    · rename_i hl
      rw [if_pos hl]
      split at hr
      · cases hr
      · rename_i w hw
        split at hr
        · cases hr
          exact hQ _ _ _ _ (by omega) hw h
        · cases hr
    · rename_i hl
      rw [if_neg hl]
      split at hr
      · cases hr; exact h
      · cases hr
  · cases hr

theorem Kept.splay (hQ : Kept A k Q) {m : Nat} (h : Q v.cap m) (c : SCall) {s s' : Ledger} {o : List (Option UInt8)} {e : List UInt8}
    (hk : c.reach v ≤ k) (hr : c.play A v s = .done (v', s', o, e)) : Q v'.cap (m + c.moves v) := by
  cases c with
  | map a b t =>
    simp only [SCall.play] at hr
    split at hr
    · cases hr
    · rename_i hv
      cases hr
      have q := hQ.smap h hk hv
      exact q
  | unchecked n t =>
    simp only [SCall.play] at hr
    split at hr
    · cases hr
    · split at hr
      · cases hr
      · rename_i w seen hw
        cases hr
        unfold RawVec.sunchecked at hw
        split at hw
        · cases hw
        · rename_i hv
          split at hw
          · cases hw
            have q := hQ.smap (b := some n) h hk hv
            exact q
          · cases hw
  | commit n =>
    simp only [SCall.play] at hr
    split at hr
    · cases hr
    · split at hr
      · cases hr
      · rename_i w hw
        cases hr
        unfold RawVec.commit at hw
        split at hw
        · cases hw; exact h
        · cases hw
  | write bs =>
    simp only [SCall.play] at hr
    split at hr
    · cases hr
    · rename_i w hw
      cases hr
      unfold RawVec.swrite at hw
      split at hw
      · cases hw
      · rename_i x n hv
        split at hw
        · unfold RawVec.commit at hw
          split at hw
          · cases hw
            have q := hQ.smap (b := some bs.length) h hk hv
            exact q
          · cases hw
        · cases hw

theorem Kept.mplay (hQ : Kept A k Q) {m : Nat} (h : Q v.cap m) (c : MCall) {s s' : Ledger}
    (hk : c.reach ≤ k) (hr : c.play A v s = .done (v', s')) : Q v'.cap (m + c.moves v) := by
  cases c with
  | map i n t =>
    simp only [MCall.play] at hr
    split at hr
    · cases hr
    · rename_i hv
      cases hr
      unfold RawVec.mmap at hv
      simp only [MCall.moves, RawVec.mmoves]
      split at hv
      · split at hv
        · split at hv
          · cases hv
          · split at hv <;> cases hv
        · split at hv <;> cases hv
      · rename_i hu
        rw [if_neg hu]
        exact h
    · rename_i hv
      cases hr
      have hu : i + n ≤ usizeMax := by
        refine Decidable.byContradiction fun hu => ?_
        unfold RawVec.mmap at hv
        rw [if_neg hu] at hv
        cases hv
      simp only [MCall.reach, if_pos hu] at hk
      have q := hQ.mmap h hk hv
      exact q
  | commit n =>
    simp only [MCall.play] at hr
    split at hr
    · cases hr
    · split at hr
      · cases hr
      · rename_i w hw
        cases hr
        unfold RawVec.commit at hw
        split at hw
        · cases hw; exact h
        · cases hw

theorem Kept.scost (hQ : Kept A k Q) : ∀ (l : List SCall) (v : RawVec) (s : Ledger) (m : Nat), Q v.cap m → (SCall.cost A l v s).reach ≤ k →
    Q (SCall.cost A l v s).room (m + (SCall.cost A l v s).moved) := by
  intro l
  induction l with
  | nil => intro v s m h _; exact h
  | cons c l ih =>
    intro v s m h
    rw [SCall.cost]
    cases hp : c.play A v s with
    | panic => exact fun _ => h
    | breach => exact fun _ => h
    | done x =>
      obtain ⟨v', s', o, e⟩ := x
      simp only []
      intro hk
      rw [← Nat.add_assoc]
      exact ih v' s' _ (hQ.splay h c (by omega) hp) (by omega)

theorem Kept.mcost (hQ : Kept A k Q) : ∀ (l : List MCall) (v : RawVec) (s : Ledger) (m : Nat), Q v.cap m → (MCall.cost A l v s).reach ≤ k →
    Q (MCall.cost A l v s).room (m + (MCall.cost A l v s).moved) := by
  intro l
  induction l with
  | nil => intro v s m h _; exact h
  | cons c l ih =>
    intro v s m h
    rw [MCall.cost]
    cases hp : c.play A v s with
    | panic => exact fun _ => h
    | breach => exact fun _ => h
    | done x =>
      obtain ⟨v', s'⟩ := x
      simp only []
      intro hk
      rw [← Nat.add_assoc]
      exact ih v' s' _ (hQ.mplay h c (by omega) hp) (by omega)

end Verif.Io
