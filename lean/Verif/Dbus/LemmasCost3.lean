import Verif.Dbus.LemmasCost2
/-! # Lemmas: what complete encodings cost -/
namespace Verif.Dbus
open Verif.Io
variable {σ : Type} {I : WriteImpl σ}

/-- The number of arrays that are open. -/
def open_ : List (Element × Level × Option Cursor) → Nat
  | [] => 0
  | x :: l => (if x.1 = .array then 1 else 0) + open_ l

/-- What an accepted call does, other than to commit: bytes are copied once each, but for the lengths of arrays. -/
structure Tight (e e' : Enc) (w w' : Writer (σ × Tally)) : Prop where
  bytes : w'.st.2.bytes + 4 * open_ e'.stack + 2 * e.level.idx ≤ w.st.2.bytes + 2 * e'.level.idx + 4 * open_ e.stack
  calls : w'.st.2.calls + w.st.2.bytes ≤ w.st.2.calls + w'.st.2.bytes
  link : e'.link = e.link
  done : e'.done = e.done
  keeps : w'.st.2.committed = w.st.2.committed

theorem io_ok {e e' : Enc} {w' : Writer (σ × Tally)} {r : WriteOut (σ × Tally)} {k : Writer (σ × Tally) → Nat → Step (σ × Tally)}
    (h : e.io r k = some (e', w', .ok)) {a : Tally} {idx n : Nat} (hp : Prim a idx n r) :
    k r.w r.idx = some (e', w', .ok) ∧ r.idx = idx + n ∧ r.w.st.2.bytes = a.bytes + n ∧ r.w.st.2.calls ≤ a.calls + n
      ∧ r.w.st.2.committed = a.committed := by
  unfold Enc.io at h
  cases hf : r.flow with
  | cont u =>
    rw [hf] at h
    have h3 := hp.calls
    rw [hf, if_pos rfl] at h3
    have h5 := hp.full hf
    exact ⟨h, hp.idx hf, h5, by omega, hp.keeps⟩
  | brk x => rw [hf] at h; cases h
  | fault => rw [hf] at h; cases h

theorem cost_expect_ok {e e' : Enc} {w w' : Writer (σ × Tally)} {el : Element} {k : Step (σ × Tally)}
    (h : e.expect w el k = some (e', w', .ok)) : k = some (e', w', .ok) := by
  unfold Enc.expect at h
  split at h
  · cases h
  · split at h
    · cases h
    · exact h

theorem advance_ok {e e' : Enc} {w w' : Writer (σ × Tally)} {idx : Nat} (h : e.advance w idx = some (e', w', .ok)) :
    w' = w ∧ e'.level.idx = idx ∧ e'.stack = e.stack ∧ e'.link = e.link ∧ e'.done = e.done := by
  unfold Enc.advance at h
  split at h
  · cases h
  · cases h; exact ⟨rfl, rfl, rfl, rfl, rfl⟩

theorem tight_fixed {e e' : Enc} {w w' : Writer (σ × Tally)} {el : Element} {d : List UInt8}
    (h : e.fixed (countWrites I) w el d = some (e', w', .ok)) : Tight e e' w w' := by
  obtain ⟨n, -, hp⟩ := prim_a (I := I) w e.level.idx _ (el_exp_le el)
  obtain ⟨h, i1, b1, c1, k1⟩ := io_ok (cost_expect_ok h) hp
  obtain ⟨h, i2, b2, c2, k2⟩ := io_ok h (prim_w _ _ _)
  obtain ⟨rfl, hi, hs, hl, hd⟩ := advance_ok h
  exact ⟨by rw [hs]; omega, by omega, hl, hd, k2.trans k1⟩

theorem tight_str {e e' : Enc} {w w' : Writer (σ × Tally)} {x : Element} {k : Nat} {d : List UInt8}
    (h : (e.io (alignExp2 (countWrites I) w e.level.idx x.dvarExp) fun w idx =>
      e.io (write (countWrites I) w idx (enNum e.be k d.length)) fun w idx =>
      e.io (write (countWrites I) w idx d) fun w idx =>
      e.io (zero (countWrites I) w idx 1) fun w idx => e.advance w idx) = some (e', w', .ok)) : Tight e e' w w' := by
  obtain ⟨n, -, hp⟩ := prim_a (I := I) w e.level.idx _ (el_exp_le x)
  obtain ⟨h, i1, b1, c1, k1⟩ := io_ok h hp
  obtain ⟨h, i2, b2, c2, k2⟩ := io_ok h (prim_w _ _ _)
  obtain ⟨h, i3, b3, c3, k3⟩ := io_ok h (prim_w _ _ _)
  obtain ⟨h, i4, b4, c4, k4⟩ := io_ok h (prim_z _ _ _)
  obtain ⟨rfl, hi, hs, hl, hd⟩ := advance_ok h
  exact ⟨by rw [hs]; omega, by omega, hl, hd, by rw [k4, k3, k2, k1]⟩

theorem tight_str8 {e e' : Enc} {w w' : Writer (σ × Tally)} {el : Element} {d : List UInt8}
    (h : e.str8 (countWrites I) w el d = some (e', w', .ok)) : Tight e e' w w' := by
  have h := cost_expect_ok h
  split at h
  · exact tight_str h
  · cases h

theorem tight_str32 {e e' : Enc} {w w' : Writer (σ × Tally)} {el : Element} {d : List UInt8}
    (h : e.str32 (countWrites I) w el d = some (e', w', .ok)) : Tight e e' w w' := by
  have h := cost_expect_ok h
  split at h
  · exact tight_str h
  · cases h

theorem tight_variant {e e' : Enc} {w w' : Writer (σ × Tally)} {s : Sig}
    (h : e.variant (countWrites I) w s = some (e', w', .ok)) : Tight e e' w w' := by
  have h := cost_expect_ok h
  split at h
  · cases h
  · split at h
    · obtain ⟨n, -, hp⟩ := prim_a (I := I) w e.level.idx _ (el_exp_le .u8)
      obtain ⟨h, i1, b1, c1, k1⟩ := io_ok h hp
      obtain ⟨h, i2, b2, c2, k2⟩ := io_ok h (prim_w _ _ _)
      split at h
      · cases h
      · rename_i c hc
        obtain ⟨k, -, hi⟩ := prim_i (I := I) _ _ hc
        obtain ⟨h, i3, b3, c3, k3⟩ := io_ok h hi
        obtain ⟨h, i4, b4, c4, k4⟩ := io_ok h (prim_z _ _ _)
        cases h
        refine ⟨?_, by omega, rfl, rfl, by rw [k4, k3, k2, k1]⟩
        simp only [open_, if_neg (show ¬ Element.variant = Element.array by decide)]
        omega
    · cases h

theorem tight_array {e e' : Enc} {w w' : Writer (σ × Tally)}
    (h : e.array (countWrites I) w = some (e', w', .ok)) : Tight e e' w w' := by
  have h := cost_expect_ok h
  split at h
  · cases h
  · cases h
  · rename_i el _
    obtain ⟨n, -, hp⟩ := prim_a (I := I) w e.level.idx _ (el_exp_le .u32)
    obtain ⟨h, i1, b1, c1, k1⟩ := io_ok h hp
    obtain ⟨h, i2, b2, c2, k2⟩ := io_ok h (prim_w _ _ _)
    obtain ⟨n', -, hp'⟩ := prim_a (I := I) _ _ _ (el_exp_le el)
    obtain ⟨h, i3, b3, c3, k3⟩ := io_ok h hp'
    split at h
    · cases h
    · cases h
      rw [enNum_len] at i2 b2 c2
      refine ⟨?_, by omega, rfl, rfl, by rw [k3, k2, k1]⟩
      simp only [open_, if_true]
      omega

theorem tight_bracket {e e' : Enc} {w w' : Writer (σ × Tally)} {el : Element} (hel : el ≠ .array)
    (h : e.bracket (countWrites I) w el = some (e', w', .ok)) : Tight e e' w w' := by
  have h := cost_expect_ok h
  split at h
  · cases h
  · cases h
  · rename_i exp hx
    obtain ⟨n, -, hp⟩ := prim_a (I := I) w e.level.idx _ (flag_exp_le hx)
    obtain ⟨h, i1, b1, c1, k1⟩ := io_ok h hp
    split at h
    · cases h
    · cases h
      refine ⟨?_, by omega, rfl, rfl, k1⟩
      simp only [open_, if_neg hel]
      omega

theorem pop_ok {e e' : Enc} {w w' : Writer (σ × Tally)} {l : Level} {c : Option Cursor} {st : List (Element × Level × Option Cursor)}
    (h : e.pop w l c st = some (e', w', .ok)) :
    w' = w ∧ e'.level.idx = e.level.idx ∧ e'.stack = st ∧ e'.link = e.link ∧ e'.done = e.done := by
  unfold Enc.pop at h
  split at h
  · cases h
  · split at h
    · cases h
    · cases h; exact ⟨rfl, rfl, rfl, rfl, rfl⟩

theorem tight_pop {e e' : Enc} {w w' : Writer (σ × Tally)} {l : Level} {c : Option Cursor} {st : List (Element × Level × Option Cursor)} {el : Element}
    (hst : e.stack = (el, l, c) :: st) (h : e.pop w l c st = some (e', w', .ok)) : Tight e e' w w' := by
  obtain ⟨rfl, hi, hs, hl, hd⟩ := pop_ok h
  refine ⟨?_, by omega, hl, hd, rfl⟩
  rw [hs, hst, open_]
  omega

theorem tight_close {e e' : Enc} {w w' : Writer (σ × Tally)}
    (h : e.close (countWrites I) w = some (e', w', .ok)) : Tight e e' w w' := by
  unfold Enc.close at h
  split at h
  · cases h
  · cases h
  · split at h
    · cases h
    · rename_i el l c st hst
      split at h
      · exact tight_pop hst h
      · split at h
        · cases h
        · split at h
          · split at h
            · obtain ⟨h, i1, b1, c1, k1⟩ := io_ok h (prim_w _ _ _)
              obtain ⟨rfl, hi, hs, hl, hd⟩ := pop_ok h
              rw [enNum_len] at b1 c1
              refine ⟨?_, by omega, hl, hd, k1⟩
              rw [hs, hst]
              simp only [open_, if_true]
              omega
            · cases h
          · exact tight_pop hst h
      · exact tight_pop hst h
      · exact tight_pop hst h
      · cases h

theorem res_ok {s : Step (σ × Tally)} {e : Enc} {w : Writer (σ × Tally)} {o : Out}
    (hs : (s.map fun (x : Enc × Writer (σ × Tally) × DRes) => (x.1, x.2.1, Out.res x.2.2)) = some (e, w, o)) (ho : o.fine = true) :
    s = some (e, w, .ok) := by
  cases s with
  | none => cases hs
  | some x =>
    obtain ⟨e', w', r⟩ := x
    cases hs
    cases r with
    | ok => rfl
    | brk _ => cases ho

/-- What a complete encoding does. -/
structure Whole (e e' : Enc) (w w' : Writer (σ × Tally)) : Prop where
  bytes : w'.st.2.bytes + 2 * e.level.idx ≤ w.st.2.bytes + 2 * e'.level.idx + 4 * open_ e.stack
  calls : w'.st.2.calls + w.st.2.bytes ≤ w.st.2.calls + w'.st.2.bytes
  top : e.link = none → e.done = false → w'.st.2.committed = w.st.2.committed + e'.level.idx
  sub : e.link.isSome = true → w'.st.2.committed = w.st.2.committed ∧ e'.handed = some e'.level.idx

theorem whole_commit {e e' : Enc} {w w' : Writer (σ × Tally)}
    (h : e.commit (countWrites I) w = some (e', w', .ok)) : Whole e e' w w' := by
  unfold Enc.commit at h
  split at h
  · cases h
  · split at h
    · cases h
    · split at h
      · rename_i hl
        cases h
        exact ⟨by simp only []; omega, Nat.le_refl _, fun hn => (by rw [hn] at hl; cases hl), fun _ => ⟨rfl, rfl⟩⟩
      · rename_i hl
        split at h
        · cases h
          exact ⟨by simp only [countWrites]; omega, Nat.le_refl _, fun _ _ => rfl, fun hs => absurd hs hl⟩
        · rename_i hd
          cases h
          exact ⟨by omega, Nat.le_refl _, fun _ hn => (by rw [hn] at hd; exact absurd rfl hd), fun hs => absurd hs hl⟩

theorem whole_step {e e' e'' : Enc} {w w' w'' : Writer (σ × Tally)} (h : Tight e e' w w') (h' : Whole e' e'' w' w'') : Whole e e'' w w'' := by
  obtain ⟨a1, a2, a3, a4, a5⟩ := h
  obtain ⟨b1, b2, b3, b4⟩ := h'
  refine ⟨by omega, by omega, fun hl hd => ?_, fun hl => ?_⟩
  · rw [b3 (a3.trans hl) (a4.trans hd), a5]
  · rw [← a5]; exact b4 (by rw [a3]; exact hl)

theorem cost_sub_start {e x : Enc} (h : e.sub = some (some x)) : x.level.idx = e.level.idx ∧ x.stack = [] ∧ x.link.isSome = true := by
  unfold Enc.sub at h
  simp only [Option.bind_eq_bind, Option.bind_eq_some_iff] at h
  obtain ⟨st, -, v, -, h⟩ := h
  cases v with
  | none => cases h
  | some v =>
    simp only [Option.bind_eq_some_iff] at h
    obtain ⟨c, -, h⟩ := h
    cases h
    exact ⟨rfl, rfl, rfl⟩

theorem with_start {e x : Enc} {s : Option Sig} (h : (match s with | none => e.sub | some s => e.subWith s) = some (some x)) :
    x.level.idx = e.level.idx ∧ x.stack = [] ∧ x.link.isSome = true := by
  cases s with
  | none => exact cost_sub_start h
  | some s =>
    simp only [Enc.subWith, Option.bind_eq_bind, Option.bind_eq_some_iff] at h
    obtain ⟨v, -, h⟩ := h
    cases v with
    | none => cases h
    | some v =>
      simp only [Option.bind_eq_some_iff] at h
      obtain ⟨b, -, h⟩ := h
      cases b with
      | false => cases h
      | true => exact cost_sub_start h

theorem tight_merge {e x x' : Enc} {w w' : Writer (σ × Tally)} {st : Option Nat} (hi : x.level.idx = e.level.idx) (hs : x.stack = [])
    (hl : x.link.isSome = true) (h : Whole x x' w w') : Tight e (e.merge x' st) w w' := by
  obtain ⟨b1, b2, -, b4⟩ := h
  obtain ⟨k, hh⟩ := b4 hl
  rw [hs, open_] at b1
  unfold Enc.merge
  rw [hh]
  exact ⟨by simp only []; omega, b2, rfl, rfl, k⟩

mutual
theorem run_tight : ∀ (op : Op) (e e' : Enc) (w w' : Writer (σ × Tally)) (o : Out), Op.run (countWrites I) op e w = some (e', w', o) →
    op.tidy = true → o.fine = true → Tight e e' w w'
  | .u16 _, _, _, _, _, _, h, _, ho => tight_fixed (res_ok h ho)
  | .u32 _, _, _, _, _, _, h, _, ho => tight_fixed (res_ok h ho)
  | .u64 _, _, _, _, _, _, h, _, ho => tight_fixed (res_ok h ho)
  | .string _, _, _, _, _, _, h, _, ho => tight_str32 (res_ok h ho)
  | .object _, _, _, _, _, _, h, _, ho => tight_str32 (res_ok h ho)
  | .signature _, _, _, _, _, _, h, _, ho => tight_str8 (res_ok h ho)
  | .variant _, _, _, _, _, _, h, _, ho => tight_variant (res_ok h ho)
  | .array, _, _, _, _, _, h, _, ho => tight_array (res_ok h ho)
  | .structure, _, _, _, _, _, h, _, ho => tight_bracket (by decide) (res_ok h ho)
  | .dict, _, _, _, _, _, h, _, ho => tight_bracket (by decide) (res_ok h ho)
  | .close, _, _, _, _, _, h, _, ho => tight_close (res_ok h ho)
  | .commit, _, _, _, _, _, _, ht, _ => by cases ht
  | .sub s ops, e, e', w, w', o, h, ht, ho => by
    rw [Op.run.eq_def] at h
    simp only [] at h
    split at h
    · cases h
    · cases h; cases ho
    · rename_i x hx
      split at h
      · cases h
      · rename_i hr
        cases h
        obtain ⟨hi, hs, hl⟩ := with_start hx
        exact tight_merge hi hs hl (runs_whole ops _ _ _ _ _ hr ht ho)
theorem runs_whole : ∀ (ops : List Op) (e e' : Enc) (w w' : Writer (σ × Tally)) (os : List Out),
    Op.runs (countWrites I) ops e w = some (e', w', os) → Op.complete ops = true → Out.fines os = true → Whole e e' w w'
  | [], _, _, _, _, _, _, ht, _ => by cases ht
  | op :: ops, e, e', w, w', os, h, ht, ho => by
    simp only [Op.runs] at h
    split at h
    · cases h
    · rename_i e1 w1 o h1
      split at h
      · cases h
      · rename_i h2
        cases h
        simp only [Out.fines, Bool.and_eq_true] at ho
        rw [Op.complete.eq_def] at ht
        split at ht
        · cases ht
        · rename_i heq
          cases heq
          cases h2
          exact whole_commit (res_ok h1 ho.1)
        · rename_i heq
          cases heq
          simp only [Bool.and_eq_true] at ht
          exact whole_step (run_tight op _ _ _ _ _ h1 ht.1 ho.1) (runs_whole ops _ _ _ _ _ h2 ht.2 ho.2)
end

end Verif.Dbus
