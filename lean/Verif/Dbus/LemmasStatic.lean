import Verif.Dbus.ModelStatic
import Verif.Dbus.LemmasRep
/-! # Lemmas: parsing into buffers of any size

Parsing with more room gives the same, unless it faults. -/
namespace Verif.Dbus

/-- `r'` is `r` with results changed by `l`, unless `r` is a fault. -/
def Ext {α β : Type} (l : α → β) : Res α → Res β → Prop
  | .ok a, r => r = .ok (l a)
  | .err e, r => r = .err e
  | .fault, _ => True
  | .hang, r => r = .hang

theorem Ext.bind {α β γ δ : Type} {l : α → β} {m : γ → δ} {r : Res α} {r' : Res β} {f : α → Res γ} {g : β → Res δ}
    (h : Ext l r r') (hf : ∀ a, r = .ok a → Ext m (f a) (g (l a))) : Ext m (r.bind f) (r'.bind g) := by
  cases r with
  | ok a => cases h; exact hf a rfl
  | err e => cases h; rfl
  | fault => trivial
  | hang => cases h; rfl

theorem Ext.ofOption {α β : Type} {l : α → β} {o : Option α} {o' : Option β} (h : ∀ a, o = some a → o' = some (l a)) :
    Ext l (Res.ofOption o) (Res.ofOption o') := by
  cases o with
  | none => trivial
  | some a => rw [h a rfl]; rfl

theorem Ext.ite {α β : Type} {l : α → β} {c : Prop} [Decidable c] {r s : Res α} {r' s' : Res β} (h : c → Ext l r r')
    (h' : ¬ c → Ext l s s') : Ext l (if c then r else s) (if c then r' else s') := by
  by_cases hc : c
  · rw [if_pos hc, if_pos hc]; exact h hc
  · rw [if_neg hc, if_neg hc]; exact h' hc

theorem Ext.same {α : Type} (r : Res α) : Ext (id : α → α) r r := by cases r <;> first | rfl | trivial

variable {x : Buf}

theorem rd_ext {b : Buf} {i : Nat} {n : Node} (h : b.rd i = some n) : (b ++ x).rd i = some n := by
  unfold Buf.rd at h ⊢
  cases hb : b[i]? with
  | none => rw [hb] at h; cases h
  | some o =>
    rw [hb] at h
    have hi : i < b.length := by
      rw [← List.getElem?_eq_some_iff.mp hb |>.choose_spec] at hb
      exact (List.getElem?_eq_some_iff.mp hb).choose
    rw [List.getElem?_append_left hi, hb]
    exact h

theorem wr_ext {b b' : Buf} {i : Nat} {n : Node} (h : b.wr i n = some b') :
    (b ++ x).wr i n = some (b' ++ x) ∧ b'.length = b.length := by
  unfold Buf.wr at h ⊢
  by_cases hi : i < b.length
  · rw [if_pos hi] at h
    cases h
    rw [if_pos (by rw [List.length_append]; omega), List.set_append_left _ _ hi]
    exact ⟨rfl, List.length_set⟩
  · rw [if_neg hi] at h; cases h

theorem goto_ext {b : Buf} {i : Nat} {r : Option Nat} (h : goto b i = some r) : goto (b ++ x) i = some r := by
  unfold goto at h ⊢
  simp only [Option.bind_eq_bind, Option.bind_eq_some_iff] at h ⊢
  obtain ⟨n, hn, h⟩ := h
  refine ⟨n, rd_ext hn, ?_⟩
  split at h
  · rename_i h0; rw [if_pos h0]; exact h
  · rename_i h0
    rw [if_neg h0]
    simp only [Option.bind_eq_some_iff] at h ⊢
    obtain ⟨u, hu, h⟩ := h
    refine ⟨u, hu, ?_⟩
    split at h
    · rename_i hl; rw [if_pos (by rw [List.length_append]; omega)]; exact h
    · cases h

theorem climb_ext (k : Kind) : ∀ (fuel fuel' : Nat) (b : Buf) (i : Nat) (o u : Option Nat) (p : Nat) (r : Buf × Option Nat × Nat),
    fuel ≤ fuel' → climb k fuel b i o u p = some r →
    climb k fuel' (b ++ x) i o u p = some (r.1 ++ x, r.2) ∧ r.1.length = b.length := by
  intro fuel
  induction fuel with
  | zero =>
    intro fuel' b i o u p r hf h
    cases u with
    | none => simp only [climb, Option.some.injEq] at h; subst h; exact ⟨by simp [climb], rfl⟩
    | some u => simp [climb] at h
  | succ fuel ih =>
    intro fuel' b i o u p r hf h
    cases u with
    | none => simp only [climb, Option.some.injEq] at h; subst h; exact ⟨by simp [climb], rfl⟩
    | some u =>
      obtain ⟨fuel', rfl⟩ : ∃ f, fuel' = f + 1 := ⟨fuel' - 1, by omega⟩
      simp only [climb, Option.bind_eq_bind, Option.bind_eq_some_iff] at h ⊢
      obtain ⟨this, h1, up, h2, ⟨up', this'⟩, h3, pair, h4, h⟩ := h
      by_cases hc : (FlagSet.all up'.flags FLAG_OPEN && pair.isNone) = true
      · simp only [hc, if_true, Option.bind_eq_some_iff] at h
        obtain ⟨b1, h5, b2, h6, idx, h7, next, h8, this2, h9, pos, h10, h⟩ := h
        obtain ⟨r1, r2⟩ := ih fuel' b2 idx next next pos r (by omega) h
        refine ⟨⟨this, rd_ext h1, up, rd_ext h2, (up', this'), h3, pair, h4, ?_⟩, ?_⟩
        · simp only [hc, if_true, Option.bind_eq_some_iff]
          exact ⟨b1 ++ x, (wr_ext h5).1, b2 ++ x, (wr_ext h6).1, idx, h7, next, goto_ext h8, this2, rd_ext h9, pos, h10, r1⟩
        · rw [r2, (wr_ext (x := x) h6).2, (wr_ext (x := x) h5).2]
      · rw [if_neg hc] at h
        by_cases hp : (FlagSet.all up'.flags FLAG_OPEN && pair.isSome) = true
        · simp only [hp, if_true, Option.bind_eq_some_iff] at h
          obtain ⟨up2, h5, b1, h6, b2, h7, h⟩ := h
          simp only [Option.some.injEq] at h
          subst h
          refine ⟨⟨this, rd_ext h1, up, rd_ext h2, (up', this'), h3, pair, h4, ?_⟩, ?_⟩
          · rw [if_neg hc]
            simp only [hp, if_true, Option.bind_eq_some_iff]
            exact ⟨up2, h5, b1 ++ x, (wr_ext h6).1, b2 ++ x, (wr_ext h7).1, rfl⟩
          · rw [(wr_ext (x := x) h7).2, (wr_ext (x := x) h6).2]
        · rw [if_neg hp] at h
          simp only [Option.bind_eq_some_iff] at h
          obtain ⟨up2, h5, b1, h6, b2, h7, h⟩ := h
          simp only [Option.some.injEq] at h
          subst h
          refine ⟨⟨this, rd_ext h1, up, rd_ext h2, (up', this'), h3, pair, h4, ?_⟩, ?_⟩
          · rw [if_neg hc, if_neg hp]
            simp only [Option.bind_eq_some_iff]
            exact ⟨up2, h5, b1 ++ x, (wr_ext h6).1, b2 ++ x, (wr_ext h7).1, rfl⟩
          · rw [(wr_ext (x := x) h7).2, (wr_ext (x := x) h6).2]

theorem close_ext (k : Kind) (b : Buf) (i u p : Nat) :
    Ext (fun r : Buf × Nat × Option Nat × Nat => (r.1 ++ x, r.2)) (close k b i u p) (close k (b ++ x) i u p) := by
  unfold close
  refine Ext.bind (l := id) (Ext.ofOption fun a h => rd_ext h) fun this _ => ?_
  refine Ext.bind (l := id) (Ext.ofOption fun a h => rd_ext h) fun up _ => ?_
  refine Ext.bind (Ext.same _) fun expected _ => ?_
  refine Ext.bind (Ext.same _) fun upEl _ => ?_
  refine Ext.bind (Ext.same _) fun thisEl _ => ?_
  refine Ext.ite (fun _ => ?_) fun _ => ?_
  · exact Ext.bind (Ext.same _) fun _ _ => rfl
  · refine Ext.bind (Ext.same _) fun openIdx _ => ?_
    refine Ext.ite (fun _ => ?_) fun _ => ?_
    · rfl
    · refine Ext.bind (Ext.same _) fun up _ => ?_
      refine Ext.bind (l := (· ++ x)) (Ext.ofOption fun a h => (wr_ext h).1) fun b1 _ => ?_
      refine Ext.bind (l := (· ++ x)) (Ext.ofOption fun a h => (wr_ext h).1) fun b2 _ => ?_
      refine Ext.bind (l := id) (Ext.ofOption fun a h => goto_ext h) fun next _ => ?_
      refine Ext.bind (l := id) (Ext.ofOption fun a h => rd_ext h) fun this _ => ?_
      exact Ext.bind (Ext.same _) fun _ _ => rfl

theorem leave_ext (k : Kind) (c : Bool) (b : Buf) (i : Nat) (o u : Option Nat) (p : Nat) :
    Ext (fun r : Buf × Nat × Option Nat × Option Nat × Nat => (r.1 ++ x, r.2)) (leave k c b i o u p) (leave k c (b ++ x) i o u p) := by
  unfold leave
  cases c with
  | false => rfl
  | true =>
    cases u with
    | none => rfl
    | some u => exact Ext.bind (close_ext k b i u p) fun _ _ => rfl

theorem loop_ext (k : Kind) (total : Nat) : ∀ (sig : List UInt8) (i : Nat) (b : Buf) (p : Nat) (o : Option Nat),
    Ext (· ++ x) (parseLoop k total sig i b p o) (parseLoop k total sig i (b ++ x) p o) := by
  intro sig
  induction sig with
  | nil =>
    intro i b p o
    unfold parseLoop
    exact Ext.bind (Ext.same _) fun _ _ => rfl
  | cons c sig ih =>
    intro i b p o
    unfold parseLoop
    split
    · rfl
    · split
      · rfl
      · refine Ext.bind (Ext.same _) fun offset _ => ?_
        refine Ext.bind (Ext.same _) fun node _ => ?_
        refine Ext.bind (l := (· ++ x)) (Ext.ofOption fun a h => (wr_ext h).1) fun b1 _ => ?_
        refine Ext.bind (l := id) (Ext.ofOption fun a h => goto_ext h) fun up _ => ?_
        refine Ext.bind (Ext.same _) fun pos _ => ?_
        simp only [id]
        split
        · exact ih _ _ _ _
        · refine Ext.bind (leave_ext _ _ _ _ _ _ _) fun r _ => ?_
          refine Ext.bind (l := fun r : Buf × Option Nat × Nat => (r.1 ++ x, r.2)) (Ext.ofOption fun a h => (climb_ext k _ _ _ _ _ _ _ _ (by
            rw [List.length_append]; omega) h).1) fun r2 _ => ?_
          simp only
          split
          · split <;> rfl
          · exact ih _ _ _ _

theorem parse_ext (k : Kind) (b : Buf) (sig : List UInt8) : Ext (· ++ x) (k.parse b sig) (k.parse (b ++ x) sig) := by
  unfold Kind.parse
  split
  · rfl
  · split
    · rfl
    · exact loop_ext k _ sig 0 b 0 none

theorem assumeInit_none (ns : List Node) (n : Nat) : Buf.assumeInit (ns.map some ++ List.replicate (n + 1) none) = none := by
  induction ns with
  | nil => rfl
  | cons a ns ih => simp [Buf.assumeInit, ih]

theorem bufT_map (k : Kind) (t : Ty) (o p : Nat) : bufT k t o p = (headN k t o p :: tailN k t).map some := by simp [bufT]

end Verif.Dbus
