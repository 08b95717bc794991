import Verif.Dbus.SpecCost
import Verif.Io.Spec
import Verif.Dbus.LemmasFlag
/-! # Lemmas: what encoders do to a writer that counts -/
namespace Verif.Dbus
open Verif.Io
variable {σ : Type} {I : WriteImpl σ}

/-! ## The same results -/

/-- Without the count. -/
def bare (w : Writer (σ × Tally)) : Writer σ := ⟨w.st.1, w.mem⟩
def bareOut (r : WriteOut (σ × Tally)) : WriteOut σ := ⟨bare r.w, r.idx, r.flow⟩
def bareStep (s : Step (σ × Tally)) : Step σ := s.map fun (e, w, r) => (e, bare w, r)

/-- What a mapped slice takes. -/
def got (len : Nat) : Flow Nat → Nat
  | .cont n => min n len
  | _ => 0

theorem count_map {s s' : σ} {t : Tally} {idx len : Nat} {f : Flow Nat} (h : I.map s idx len = (s', f)) :
    (countWrites I).map (s, t) idx len = ((s', { t with calls := t.calls + 1, bytes := t.bytes + got len f }), f) := by
  simp only [countWrites, h]
  cases f <;> rfl

theorem bare_writeLoop : ∀ (fuel : Nat) (s : σ) (t : Tally) (m : Mem) (idx : Nat) (d : List UInt8),
    bareOut (writeLoop (countWrites I) fuel ⟨(s, t), m⟩ idx d) = writeLoop I fuel ⟨s, m⟩ idx d := by
  intro fuel
  induction fuel with
  | zero => intro s t m idx d; unfold writeLoop; split <;> rfl
  | succ fuel ih =>
    intro s t m idx d
    unfold writeLoop
    split
    · cases h : I.map s idx d.length with
      | mk st f =>
        simp only [count_map h, h]
        cases f with
        | cont n =>
          simp only []
          split
          · split
            · exact ih _ _ _ _ _
            · rfl
          · rfl
        | brk e => rfl
        | fault => rfl
    · rfl

theorem bare_fillLoop : ∀ (fuel : Nat) (s : σ) (t : Tally) (m : Mem) (idx len : Nat) (b : UInt8),
    bareOut (fillLoop (countWrites I) fuel ⟨(s, t), m⟩ idx len b) = fillLoop I fuel ⟨s, m⟩ idx len b := by
  intro fuel
  induction fuel with
  | zero => intro s t m idx d b; unfold fillLoop; split <;> rfl
  | succ fuel ih =>
    intro s t m idx len b
    unfold fillLoop
    split
    · cases h : I.map s idx len with
      | mk st f =>
        simp only [count_map h, h]
        cases f with
        | cont n =>
          simp only []
          split
          · split
            · exact ih _ _ _ _ _ _
            · rfl
          · rfl
        | brk e => rfl
        | fault => rfl
    · rfl

theorem bare_iterLoop {ι : Type} (T : Iter ι) : ∀ (fuel : Nat) (s : σ) (t : Tally) (m : Mem) (idx : Nat) (it : ι),
    bareOut (writeIterLoop (countWrites I) T fuel ⟨(s, t), m⟩ idx it) = writeIterLoop I T fuel ⟨s, m⟩ idx it := by
  intro fuel
  induction fuel with
  | zero => intro s t m idx it; rfl
  | succ fuel ih =>
    intro s t m idx it
    unfold writeIterLoop
    cases T.hint it with
    | none => rfl
    | some n =>
      cases n with
      | zero =>
        simp only []
        cases T.next it with
        | none => rfl
        | some x => obtain ⟨x, it'⟩ := x; cases x <;> rfl
      | succ n =>
        cases h : I.map s idx (n + 1) with
        | mk st f =>
          simp only [count_map h, h]
          cases f with
          | cont k =>
            simp only []
            split
            · split
              · exact ih _ _ _ _ _
              · rfl
            · rfl
          | brk e => rfl
          | fault => rfl

theorem bare_write (w : Writer (σ × Tally)) (idx : Nat) (d : List UInt8) :
    bareOut (write (countWrites I) w idx d) = write I (bare w) idx d := bare_writeLoop _ _ _ _ _ _

theorem bare_zero (w : Writer (σ × Tally)) (idx n : Nat) :
    bareOut (zero (countWrites I) w idx n) = zero I (bare w) idx n := bare_fillLoop _ _ _ _ _ _ _

theorem bare_align (w : Writer (σ × Tally)) (idx exp : Nat) :
    bareOut (alignExp2 (countWrites I) w idx exp) = alignExp2 I (bare w) idx exp := by
  unfold alignExp2
  cases shl1 exp with
  | none => rfl
  | some m =>
    simp only []
    cases checkedNextMultipleOf idx m with
    | none => rfl
    | some v => exact bare_zero _ _ _

theorem bare_iter {ι : Type} (T : Iter ι) (w : Writer (σ × Tally)) (idx : Nat) (it : ι) :
    bareOut (writeIter (countWrites I) T w idx it) = writeIter I T (bare w) idx it := by
  unfold writeIter
  cases T.hint it with
  | none => rfl
  | some n => exact bare_iterLoop T _ _ _ _ _ _

theorem bare_io (e : Enc) (r : WriteOut (σ × Tally)) (r' : WriteOut σ) (h : bareOut r = r')
    (k : Writer (σ × Tally) → Nat → Step (σ × Tally)) (k' : Writer σ → Nat → Step σ)
    (hk : ∀ w idx, bareStep (k w idx) = k' (bare w) idx) : bareStep (e.io r k) = e.io r' k' := by
  subst h
  unfold Enc.io
  cases hf : r.flow with
  | cont u => simp only [bareOut, hf]; exact hk _ _
  | brk x => simp only [bareOut, hf]; rfl
  | fault => simp only [bareOut, hf]; rfl

theorem bare_expect (e : Enc) (w : Writer (σ × Tally)) (el : Element) (k : Step (σ × Tally)) (k' : Step σ) (hk : bareStep k = k') :
    bareStep (e.expect w el k) = e.expect (bare w) el k' := by
  unfold Enc.expect
  cases e.cursor.element with
  | none => rfl
  | some x =>
    simp only []
    split
    · rfl
    · exact hk

theorem bare_advance (e : Enc) (w : Writer (σ × Tally)) (idx : Nat) : bareStep (e.advance w idx) = e.advance (bare w) idx := by
  unfold Enc.advance
  cases e.cursor.move_step <;> rfl

theorem bare_fixed (e : Enc) (w : Writer (σ × Tally)) (el : Element) (d : List UInt8) :
    bareStep (e.fixed (countWrites I) w el d) = e.fixed I (bare w) el d :=
  bare_expect _ _ _ _ _ <| bare_io _ _ _ (bare_align _ _ _) _ _ fun _ _ => bare_io _ _ _ (bare_write _ _ _) _ _ fun _ _ =>
    bare_advance _ _ _

theorem bare_str8 (e : Enc) (w : Writer (σ × Tally)) (el : Element) (d : List UInt8) :
    bareStep (e.str8 (countWrites I) w el d) = e.str8 I (bare w) el d := by
  refine bare_expect _ _ _ _ _ ?_
  split
  · exact bare_io _ _ _ (bare_align _ _ _) _ _ fun _ _ => bare_io _ _ _ (bare_write _ _ _) _ _ fun _ _ =>
      bare_io _ _ _ (bare_write _ _ _) _ _ fun _ _ => bare_io _ _ _ (bare_zero _ _ _) _ _ fun _ _ => bare_advance _ _ _
  · rfl

theorem bare_str32 (e : Enc) (w : Writer (σ × Tally)) (el : Element) (d : List UInt8) :
    bareStep (e.str32 (countWrites I) w el d) = e.str32 I (bare w) el d := by
  refine bare_expect _ _ _ _ _ ?_
  split
  · exact bare_io _ _ _ (bare_align _ _ _) _ _ fun _ _ => bare_io _ _ _ (bare_write _ _ _) _ _ fun _ _ =>
      bare_io _ _ _ (bare_write _ _ _) _ _ fun _ _ => bare_io _ _ _ (bare_zero _ _ _) _ _ fun _ _ => bare_advance _ _ _
  · rfl

theorem bare_variant (e : Enc) (w : Writer (σ × Tally)) (s : Sig) :
    bareStep (e.variant (countWrites I) w s) = e.variant I (bare w) s := by
  refine bare_expect _ _ _ _ _ ?_
  cases s.len with
  | none => rfl
  | some n =>
    simp only []
    split
    · refine bare_io _ _ _ (bare_align _ _ _) _ _ fun _ _ => bare_io _ _ _ (bare_write _ _ _) _ _ fun _ _ => ?_
      cases Cursor.new s with
      | none => rfl
      | some c =>
        exact bare_io _ _ _ (bare_iter _ _ _ _) _ _ fun _ _ => bare_io _ _ _ (bare_zero _ _ _) _ _ fun _ _ => rfl
    · rfl

theorem bare_array (e : Enc) (w : Writer (σ × Tally)) : bareStep (e.array (countWrites I) w) = e.array I (bare w) := by
  refine bare_expect _ _ _ _ _ ?_
  cases e.cursor.down with
  | none => rfl
  | some x =>
    cases x with
    | none => rfl
    | some el =>
      refine bare_io _ _ _ (bare_align _ _ _) _ _ fun _ _ => bare_io _ _ _ (bare_write _ _ _) _ _ fun _ _ =>
        bare_io _ _ _ (bare_align _ _ _) _ _ fun _ _ => ?_
      cases e.cursor.move_down <;> rfl

theorem bare_bracket (e : Enc) (w : Writer (σ × Tally)) (el : Element) :
    bareStep (e.bracket (countWrites I) w el) = e.bracket I (bare w) el := by
  refine bare_expect _ _ _ _ _ ?_
  cases e.cursor.dvarExp with
  | none => rfl
  | some x =>
    cases x with
    | none => rfl
    | some exp =>
      refine bare_io _ _ _ (bare_align _ _ _) _ _ fun _ _ => ?_
      cases e.cursor.move_down <;> rfl

theorem bare_pop (e : Enc) (w : Writer (σ × Tally)) (l : Level) (c : Option Cursor) (st : List (Element × Level × Option Cursor)) :
    bareStep (e.pop w l c st) = e.pop (bare w) l c st := by
  unfold Enc.pop
  split
  · rfl
  · rename_i c' _
    cases c'.move_step <;> rfl

theorem bare_close (e : Enc) (w : Writer (σ × Tally)) : bareStep (e.close (countWrites I) w) = e.close I (bare w) := by
  unfold Enc.close
  cases e.cursor.idx_step with
  | none => rfl
  | some x =>
    cases x with
    | some _ => rfl
    | none =>
      simp only []
      cases e.stack with
      | nil => rfl
      | cons top stack =>
        obtain ⟨el, l, c⟩ := top
        cases el <;> simp only []
        case array =>
          cases strictSub e.level.idx e.level.from_ with
          | none => rfl
          | some n =>
            simp only []
            split
            · split
              · exact bare_io _ _ _ (bare_write _ _ _) _ _ fun _ _ => bare_pop _ _ _ _ _
              · rfl
            · exact bare_pop _ _ _ _ _
        all_goals first | rfl | exact bare_pop _ _ _ _ _

theorem bare_commit (e : Enc) (w : Writer (σ × Tally)) : bareStep (e.commit (countWrites I) w) = e.commit I (bare w) := by
  unfold Enc.commit
  cases e.cursor.idx_step with
  | none => rfl
  | some x =>
    simp only []
    split
    · rfl
    · split
      · rfl
      · split <;> rfl

theorem bare_map (s : Step (σ × Tally)) (s' : Step σ) (h : bareStep s = s') :
    (s.map fun (x : Enc × Writer (σ × Tally) × DRes) => (x.1, x.2.1, Out.res x.2.2)).map
        (fun (x : Enc × Writer (σ × Tally) × Out) => (x.1, bare x.2.1, x.2.2))
      = s'.map fun (x : Enc × Writer σ × DRes) => (x.1, x.2.1, Out.res x.2.2) := by
  subst h
  cases s <;> rfl

mutual
theorem bare_run : ∀ (op : Op) (e : Enc) (w : Writer (σ × Tally)),
    (Op.run (countWrites I) op e w).map (fun x => (x.1, bare x.2.1, x.2.2)) = Op.run I op e (bare w)
  | .u16 _, _, _ => bare_map _ _ (bare_fixed _ _ _ _)
  | .u32 _, _, _ => bare_map _ _ (bare_fixed _ _ _ _)
  | .u64 _, _, _ => bare_map _ _ (bare_fixed _ _ _ _)
  | .string _, _, _ => bare_map _ _ (bare_str32 _ _ _ _)
  | .object _, _, _ => bare_map _ _ (bare_str32 _ _ _ _)
  | .signature _, _, _ => bare_map _ _ (bare_str8 _ _ _ _)
  | .variant _, _, _ => bare_map _ _ (bare_variant _ _ _)
  | .array, _, _ => bare_map _ _ (bare_array _ _)
  | .structure, _, _ => bare_map _ _ (bare_bracket _ _ _)
  | .dict, _, _ => bare_map _ _ (bare_bracket _ _ _)
  | .close, _, _ => bare_map _ _ (bare_close _ _)
  | .commit, _, _ => bare_map _ _ (bare_commit _ _)
  | .sub s ops, e, w => by
    rw [Op.run.eq_def, Op.run.eq_def]
    simp only []
    split
    · rfl
    · rfl
    · rename_i x hx
      rw [← bare_runs ops x w]
      cases Op.runs (countWrites I) ops x w <;> rfl
theorem bare_runs : ∀ (ops : List Op) (e : Enc) (w : Writer (σ × Tally)),
    (Op.runs (countWrites I) ops e w).map (fun x => (x.1, bare x.2.1, x.2.2)) = Op.runs I ops e (bare w)
  | [], _, _ => rfl
  | op :: ops, e, w => by
    simp only [Op.runs]
    rw [← bare_run op e w]
    cases Op.run (countWrites I) op e w with
    | none => rfl
    | some x =>
      obtain ⟨e', w', o⟩ := x
      simp only [Option.map_some]
      rw [← bare_runs ops e' w']
      cases Op.runs (countWrites I) ops e' w' <;> rfl
end

/-! ## What primitives cost -/

/-- What was done since `a`: at most `n` bytes were copied, with a call for each of them at most, and one that did not yield a byte if
it was not completed. -/
structure Prim (a : Tally) (idx n : Nat) (r : WriteOut (σ × Tally)) : Prop where
  mono : a.bytes ≤ r.w.st.2.bytes
  le : r.w.st.2.bytes ≤ a.bytes + n
  calls : r.w.st.2.calls + a.bytes ≤ a.calls + r.w.st.2.bytes + if r.flow = .cont () then 0 else 1
  idx : r.flow = .cont () → r.idx = idx + n
  full : r.flow = .cont () → r.w.st.2.bytes = a.bytes + n
  keeps : r.w.st.2.committed = a.committed

theorem prim_same {s : σ} {t : Tally} {m : Mem} {idx : Nat} : Prim t idx 0 ⟨⟨(s, t), m⟩, idx, .cont ()⟩ :=
  ⟨Nat.le_refl _, Nat.le_refl _, by simp, by simp, by simp, rfl⟩

theorem prim_stop {w : Writer (σ × Tally)} {a : Tally} {idx idx' n : Nat} {f : Flow Unit} (hf : f ≠ .cont ()) (h1 : a.bytes ≤ w.st.2.bytes)
    (h2 : w.st.2.bytes ≤ a.bytes + n) (h3 : w.st.2.calls + a.bytes ≤ a.calls + w.st.2.bytes + 1) (h4 : w.st.2.committed = a.committed) :
    Prim a idx n ⟨w, idx', f⟩ :=
  ⟨h1, h2, by simp only [if_neg hf]; exact h3, fun h => absurd h hf, fun h => absurd h hf, h4⟩

/-- A turn that copied something. -/
theorem prim_turn {a b : Tally} {idx n k : Nat} {r : WriteOut (σ × Tally)} (h : Prim b (idx + k) (n - k) r) (hk : 0 < k) (hn : k ≤ n)
    (h1 : b.calls = a.calls + 1) (h2 : b.bytes = a.bytes + k) (h3 : b.committed = a.committed) : Prim a idx n r := by
  obtain ⟨h4, h5, h6, h7, h8, h9⟩ := h
  exact ⟨by omega, by omega, by omega, fun hf => by have := h7 hf; omega, fun hf => by have := h8 hf; omega, h9.trans h3⟩

theorem prim_write : ∀ (fuel : Nat) (s : σ) (t : Tally) (m : Mem) (idx : Nat) (d : List UInt8),
    Prim t idx d.length (writeLoop (countWrites I) fuel ⟨(s, t), m⟩ idx d) := by
  intro fuel
  induction fuel with
  | zero =>
    intro s t m idx d
    unfold writeLoop
    split
    · exact prim_stop (by simp) (Nat.le_refl _) (Nat.le_add_right _ _) (Nat.le_succ _) rfl
    · rw [show d.length = 0 by omega]; exact prim_same
  | succ fuel ih =>
    intro s t m idx d
    unfold writeLoop
    split
    · cases h : I.map s idx d.length with
      | mk st f =>
        simp only [count_map h, h]
        have zero : t.calls + 1 + t.bytes ≤ t.calls + (t.bytes + 0) + 1 := by omega
        cases f with
        | cont n =>
          simp only [got]
          split
          · split
            · have := ih st { t with calls := t.calls + 1, bytes := t.bytes + min n d.length } (put m idx (d.take (min n d.length)))
                (idx + min n d.length) (d.drop (min n d.length))
              rw [List.length_drop] at this
              exact prim_turn this (by omega) (Nat.min_le_right _ _) rfl rfl rfl
            · exact prim_stop (by simp) (Nat.le_add_right _ _) (Nat.add_le_add_left (Nat.min_le_right _ _) _) (by simp only []; omega) rfl
          · exact prim_stop (by simp) (Nat.le_add_right _ _) (Nat.add_le_add_left (Nat.min_le_right _ _) _) (by simp only []; omega) rfl
        | brk e => exact prim_stop (by simp) (Nat.le_refl _) (Nat.le_add_right _ _) zero rfl
        | fault => exact prim_stop (by simp) (Nat.le_refl _) (Nat.le_add_right _ _) zero rfl
    · rw [show d.length = 0 by omega]; exact prim_same

theorem prim_fill : ∀ (fuel : Nat) (s : σ) (t : Tally) (m : Mem) (idx len : Nat) (b : UInt8),
    Prim t idx len (fillLoop (countWrites I) fuel ⟨(s, t), m⟩ idx len b) := by
  intro fuel
  induction fuel with
  | zero =>
    intro s t m idx len b
    unfold fillLoop
    split
    · exact prim_stop (by simp) (Nat.le_refl _) (Nat.le_add_right _ _) (Nat.le_succ _) rfl
    · rw [show len = 0 by omega]; exact prim_same
  | succ fuel ih =>
    intro s t m idx len b
    unfold fillLoop
    split
    · cases h : I.map s idx len with
      | mk st f =>
        simp only [count_map h, h]
        have zero : t.calls + 1 + t.bytes ≤ t.calls + (t.bytes + 0) + 1 := by omega
        cases f with
        | cont n =>
          simp only [got]
          split
          · split
            · exact prim_turn (ih st { t with calls := t.calls + 1, bytes := t.bytes + min n len }
                (put m idx (List.replicate (min n len) b)) (idx + min n len) (len - min n len) b) (by omega) (Nat.min_le_right _ _) rfl rfl rfl
            · exact prim_stop (by simp) (Nat.le_add_right _ _) (Nat.add_le_add_left (Nat.min_le_right _ _) _) (by simp only []; omega) rfl
          · exact prim_stop (by simp) (Nat.le_add_right _ _) (Nat.add_le_add_left (Nat.min_le_right _ _) _) (by simp only []; omega) rfl
        | brk e => exact prim_stop (by simp) (Nat.le_refl _) (Nat.le_add_right _ _) zero rfl
        | fault => exact prim_stop (by simp) (Nat.le_refl _) (Nat.le_add_right _ _) zero rfl
    · rw [show len = 0 by omega]; exact prim_same

/-- Every item that an iterator yields makes its hint smaller. -/
def Falls {ι : Type} (T : Iter ι) : Prop :=
  ∀ it n b it', T.hint it = some (n + 1) → T.next it = some (some b, it') → T.hint it' = some n

theorem inner_falls {ι : Type} {T : Iter ι} (hT : Falls T) (stop : Nat) : ∀ (k : Nat) (it : ι) (m : Mem) (idx N : Nat),
    T.hint it = some (N + k) → (iterInner T stop k it m idx).ok = true →
    T.hint (iterInner T stop k it m idx).it = some N ∧ (iterInner T stop k it m idx).idx = idx + k := by
  intro k
  induction k with
  | zero => intro it m idx N h _; exact ⟨h, rfl⟩
  | succ k ih =>
    intro it m idx N h
    unfold iterInner
    cases hn : T.next it with
    | none => simp
    | some x =>
      obtain ⟨x, it'⟩ := x
      cases x with
      | none => simp
      | some b =>
        simp only []
        split
        · intro hok
          have := ih it' _ (idx + 1) N (hT it (N + k) b it' h hn) hok
          exact ⟨this.1, by rw [this.2]; omega⟩
        · simp

theorem prim_iter {ι : Type} {T : Iter ι} (hT : Falls T) : ∀ (fuel : Nat) (s : σ) (t : Tally) (m : Mem) (idx : Nat) (it : ι) (N : Nat),
    T.hint it = some N → Prim t idx N (writeIterLoop (countWrites I) T fuel ⟨(s, t), m⟩ idx it) := by
  intro fuel
  induction fuel with
  | zero => intro s t m idx it N _; exact prim_stop (by simp) (Nat.le_refl _) (Nat.le_add_right _ _) (Nat.le_succ _) rfl
  | succ fuel ih =>
    intro s t m idx it N hN
    have done : Prim t idx N (⟨⟨(s, t), m⟩, idx, .fault⟩ : WriteOut (σ × Tally)) :=
      prim_stop (by simp) (Nat.le_refl _) (Nat.le_add_right _ _) (Nat.le_succ _) rfl
    unfold writeIterLoop
    rw [hN]
    cases N with
    | zero =>
      simp only []
      cases T.next it with
      | none => exact done
      | some x =>
        obtain ⟨x, it'⟩ := x
        cases x with
        | none => exact prim_same
        | some _ => exact done
    | succ n =>
      cases h : I.map s idx (n + 1) with
      | mk st f =>
        simp only [count_map h]
        have zero : t.calls + 1 + t.bytes ≤ t.calls + (t.bytes + 0) + 1 := by omega
        cases f with
        | cont k =>
          simp only [got]
          split
          · split
            · rename_i hok
              have hm : min (n + 1) k ≤ n + 1 := Nat.min_le_left _ _
              have hf := inner_falls hT (idx + k) (min (n + 1) k) it m idx (n + 1 - min (n + 1) k) (by rw [hN]; congr 1; omega) hok
              have := ih st { t with calls := t.calls + 1, bytes := t.bytes + min k (n + 1) }
                (iterInner T (idx + k) (min (n + 1) k) it m idx).mem (iterInner T (idx + k) (min (n + 1) k) it m idx).idx
                (iterInner T (idx + k) (min (n + 1) k) it m idx).it _ hf.1
              rw [hf.2] at this ⊢
              exact prim_turn this (by omega) hm rfl (by rw [Nat.min_comm k]) rfl
            · exact prim_stop (by simp) (Nat.le_add_right _ _) (Nat.add_le_add_left (Nat.min_le_right _ _) _) (by simp only []; omega) rfl
          · exact prim_stop (by simp) (Nat.le_add_right _ _) (Nat.add_le_add_left (Nat.min_le_right _ _) _) (by simp only []; omega) rfl
        | brk e => exact prim_stop (by simp) (Nat.le_refl _) (Nat.le_add_right _ _) zero rfl
        | fault => exact prim_stop (by simp) (Nat.le_refl _) (Nat.le_add_right _ _) zero rfl

theorem prim_w (w : Writer (σ × Tally)) (idx : Nat) (d : List UInt8) : Prim w.st.2 idx d.length (write (countWrites I) w idx d) :=
  prim_write _ _ _ _ _ _

theorem prim_z (w : Writer (σ × Tally)) (idx n : Nat) : Prim w.st.2 idx n (zero (countWrites I) w idx n) := prim_fill _ _ _ _ _ _ _

theorem prim_a (w : Writer (σ × Tally)) (idx exp : Nat) (he : exp ≤ 3) :
    ∃ n < 2 ^ exp, Prim w.st.2 idx n (alignExp2 (countWrites I) w idx exp) := by
  unfold alignExp2
  have hs : shl1 exp = some (2 ^ exp) := if_pos (by omega)
  rw [hs]
  simp only []
  cases hc : checkedNextMultipleOf idx (2 ^ exp) with
  | none => exact ⟨0, Nat.two_pow_pos _, prim_stop (by simp) (Nat.le_refl _) (Nat.le_refl _) (by omega) rfl⟩
  | some v =>
    refine ⟨v - idx, ?_, prim_z _ _ _⟩
    unfold checkedNextMultipleOf at hc
    have hlt : idx % 2 ^ exp < 2 ^ exp := Nat.mod_lt _ (Nat.two_pow_pos _)
    split at hc
    · cases hc; omega
    · split at hc
      · cases hc; omega
      · cases hc

theorem falls_code : Falls codeIter := by
  intro c n b c' hh hn
  simp only [codeIter, Cursor.size_hint, Option.bind_eq_bind, Option.bind_eq_some_iff] at hh
  obtain ⟨len, hl, hs⟩ := hh
  simp only [codeIter, Cursor.next, Cursor.move_next, Cursor.idx_next, hl, Option.bind_eq_bind, Option.bind_some, Option.map_some,
    Option.map_eq_some_iff, Option.bind_eq_some_iff] at hn
  obtain ⟨x, ⟨v, -, hx⟩, hy⟩ := hn
  unfold strictSub at hs
  split at hs
  · cases hs' : len - c.idx with
    | zero => rw [hs'] at hs; cases hs
    | succ k =>
      rw [if_pos (by omega)] at hx
      cases hx
      have hc' : c' = c.maybe_move (some (c.idx + 1)) := (congrArg Prod.snd hy).symm
      subst hc'
      simp only [codeIter, Cursor.size_hint, Cursor.maybe_move, hl, Option.bind_eq_bind, Option.bind_some, strictSub]
      rw [if_pos (by omega)]
      have hs := Option.some.inj hs
      congr 1
      omega
  · cases hs

theorem prim_i (w : Writer (σ × Tally)) (idx : Nat) {s : Sig} {c : Cursor} (hc : Cursor.new s = some c) :
    ∃ n ≤ s.words, Prim w.st.2 idx n (writeIter (countWrites I) codeIter w idx c) := by
  unfold writeIter
  cases hh : codeIter.hint c with
  | none => exact ⟨0, Nat.zero_le _, prim_stop (by simp) (Nat.le_refl _) (Nat.le_refl _) (by omega) rfl⟩
  | some N =>
    refine ⟨N, ?_, prim_iter falls_code _ _ _ _ _ _ _ hh⟩
    simp only [Cursor.new, Cursor.with_, Option.bind_eq_bind, Option.bind_eq_some_iff] at hc
    obtain ⟨len, hl, hc⟩ := hc
    cases hc
    simp only [codeIter, Cursor.size_hint, hl, Option.bind_eq_bind, Option.bind_some, strictSub] at hh
    have hlen : len ≤ s.words := by
      simp only [Sig.len, Option.bind_eq_bind, Option.bind_eq_some_iff] at hl
      obtain ⟨f, -, hl⟩ := hl
      split at hl
      · cases hl; exact Nat.div_le_self _ _
      · split at hl
        · cases hl; exact Nat.div_le_self _ _
        · cases hl
    generalize (if 0 < len then 0 else len) = i at hh
    split at hh
    · cases hh; omega
    · cases hh

/-! ## What calls cost -/

/-- What a call did since `a`: at most `n` bytes were copied, with a call for each of them at most, and one that did not yield a
byte. -/
def Costs (a : Tally) (n : Nat) (s : Step (σ × Tally)) : Prop :=
  ∀ e w r, s = some (e, w, r) → w.st.2.bytes ≤ a.bytes + n ∧ w.st.2.calls + a.bytes ≤ a.calls + w.st.2.bytes + 1

theorem costs_some {e : Enc} {w : Writer (σ × Tally)} {n : Nat} {r : DRes} : Costs w.st.2 n (some (e, w, r)) := by
  intro e' w' r' h
  cases h
  omega

theorem costs_none {a : Tally} {n : Nat} : Costs a n (none : Step (σ × Tally)) := fun _ _ _ h => by cases h

theorem costs_io {e : Enc} {a : Tally} {idx n m : Nat} {r : WriteOut (σ × Tally)} {k : Writer (σ × Tally) → Nat → Step (σ × Tally)}
    (hr : Prim a idx n r) (hk : Costs r.w.st.2 m (k r.w r.idx)) : Costs a (n + m) (e.io r k) := by
  intro e' w' o h
  unfold Enc.io at h
  obtain ⟨h1, h2, h3, -⟩ := hr
  cases hf : r.flow with
  | cont u =>
    rw [hf] at h
    rw [hf, if_pos rfl] at h3
    obtain ⟨h4, h5⟩ := hk _ _ _ h
    omega
  | brk x =>
    rw [hf] at h
    rw [hf, if_neg (by simp)] at h3
    cases h
    omega
  | fault => rw [hf] at h; cases h

theorem costs_le {a : Tally} {n m : Nat} {s : Step (σ × Tally)} (h : Costs a n s) (hn : n ≤ m) : Costs a m s :=
  fun e w r hs => by have := h e w r hs; omega

theorem costs_expect {e : Enc} {w : Writer (σ × Tally)} {n : Nat} {el : Element} {k : Step (σ × Tally)} (hk : Costs w.st.2 n k) :
    Costs w.st.2 n (e.expect w el k) := by
  unfold Enc.expect
  split
  · exact costs_none
  · split
    · exact costs_some
    · exact hk

theorem costs_advance {e : Enc} {w : Writer (σ × Tally)} {idx : Nat} : Costs w.st.2 0 (e.advance w idx) := by
  unfold Enc.advance
  split
  · exact costs_none
  · exact costs_some

theorem leBytes_length : ∀ w v, (leBytes w v).length = w
  | 0, _ => rfl
  | w + 1, v => by rw [leBytes, List.length_cons, leBytes_length w]

theorem enNum_len (be : Bool) (w v : Nat) : (enNum be w v).length = w := by
  unfold enNum
  split <;> simp [leBytes_length]

theorem el_exp_le (el : Element) : el.dvarExp ≤ 3 := by cases el <;> decide

theorem pow_le_eight {n : Nat} (h : n ≤ 3) : 2 ^ n ≤ 8 := Nat.pow_le_pow_right (j := 3) (by decide) h

theorem costs_fixed (e : Enc) (w : Writer (σ × Tally)) (el : Element) (d : List UInt8) (hd : d.length ≤ 8) :
    Costs w.st.2 15 (e.fixed (countWrites I) w el d) := by
  refine costs_expect ?_
  obtain ⟨n, hn, h⟩ := prim_a (I := I) w e.level.idx _ (el_exp_le el)
  have := pow_le_eight (el_exp_le el)
  exact costs_le (costs_io h (costs_io (prim_w _ _ _) costs_advance)) (by omega)

theorem costs_str (e : Enc) (w : Writer (σ × Tally)) (x : Element) (k : Nat) (d : List UInt8) (hk : k ≤ 4) :
    Costs w.st.2 (d.length + 15) (e.io (alignExp2 (countWrites I) w e.level.idx x.dvarExp) fun w idx =>
      e.io (write (countWrites I) w idx (enNum e.be k d.length)) fun w idx =>
      e.io (write (countWrites I) w idx d) fun w idx =>
      e.io (zero (countWrites I) w idx 1) fun w idx => e.advance w idx) := by
  obtain ⟨n, hn, h⟩ := prim_a (I := I) w e.level.idx _ (el_exp_le x)
  have := pow_le_eight (el_exp_le x)
  refine costs_le (costs_io h (costs_io (prim_w _ _ _) (costs_io (prim_w _ _ _) (costs_io (prim_z _ _ _) costs_advance)))) ?_
  rw [enNum_len]
  omega

theorem costs_str8 (e : Enc) (w : Writer (σ × Tally)) (el : Element) (d : List UInt8) :
    Costs w.st.2 (d.length + 15) (e.str8 (countWrites I) w el d) := by
  refine costs_expect ?_
  split
  · exact costs_str e w .u8 1 d (by decide)
  · exact costs_some

theorem costs_str32 (e : Enc) (w : Writer (σ × Tally)) (el : Element) (d : List UInt8) :
    Costs w.st.2 (d.length + 15) (e.str32 (countWrites I) w el d) := by
  refine costs_expect ?_
  split
  · exact costs_str e w .u32 4 d (by decide)
  · exact costs_some

theorem costs_variant (e : Enc) (w : Writer (σ × Tally)) (s : Sig) : Costs w.st.2 (s.words + 15) (e.variant (countWrites I) w s) := by
  refine costs_expect ?_
  split
  · exact costs_none
  · split
    · obtain ⟨n, hn, h⟩ := prim_a (I := I) w e.level.idx _ (el_exp_le .u8)
      have h8 := pow_le_eight (el_exp_le .u8)
      rename_i len _ _
      have hw := prim_w (I := I) (alignExp2 (countWrites I) w e.level.idx Element.u8.dvarExp).w
        (alignExp2 (countWrites I) w e.level.idx Element.u8.dvarExp).idx (enNum e.be 1 len)
      cases hc : Cursor.new s with
      | none =>
        refine costs_le (costs_io h (costs_io (m := 0) hw ?_)) (by rw [enNum_len]; omega)
        exact costs_none
      | some c =>
        refine costs_le (costs_io h (costs_io (m := s.words + 1) hw ?_)) (by rw [enNum_len]; omega)
        simp only []
        obtain ⟨k, hk, hi⟩ := prim_i (I := I) (write (countWrites I) (alignExp2 (countWrites I) w e.level.idx Element.u8.dvarExp).w
          (alignExp2 (countWrites I) w e.level.idx Element.u8.dvarExp).idx (enNum e.be 1 len)).w (write (countWrites I)
          (alignExp2 (countWrites I) w e.level.idx Element.u8.dvarExp).w (alignExp2 (countWrites I) w e.level.idx Element.u8.dvarExp).idx
          (enNum e.be 1 len)).idx hc
        exact costs_le (costs_io hi (costs_io (m := 0) (prim_z _ _ _) costs_some)) (by omega)
    · exact costs_some

theorem costs_array (e : Enc) (w : Writer (σ × Tally)) : Costs w.st.2 15 (e.array (countWrites I) w) := by
  refine costs_expect ?_
  split
  · exact costs_none
  · exact costs_none
  · rename_i el _
    obtain ⟨n, hn, h⟩ := prim_a (I := I) w e.level.idx _ (el_exp_le .u32)
    have hn : n < 4 := hn
    have h8 := pow_le_eight (el_exp_le el)
    obtain ⟨n', hn', h'⟩ := prim_a (I := I) (write (countWrites I) (alignExp2 (countWrites I) w e.level.idx Element.u32.dvarExp).w
      (alignExp2 (countWrites I) w e.level.idx Element.u32.dvarExp).idx (enNum e.be 4 0)).w (write (countWrites I)
      (alignExp2 (countWrites I) w e.level.idx Element.u32.dvarExp).w
      (alignExp2 (countWrites I) w e.level.idx Element.u32.dvarExp).idx (enNum e.be 4 0)).idx _ (el_exp_le el)
    refine costs_le (costs_io h (costs_io (prim_w _ _ _) (costs_io (m := 0) h' ?_))) (by rw [enNum_len]; omega)
    split
    · exact costs_none
    · exact costs_some

theorem flag_exp_le {c : Cursor} {exp : Nat} (h : c.dvarExp = some (some exp)) : exp ≤ 3 := by
  simp only [Cursor.dvarExp, Option.map_eq_some_iff] at h
  obtain ⟨f, -, g, -, h⟩ := h
  have := dvarExp_lt g
  omega

theorem costs_bracket (e : Enc) (w : Writer (σ × Tally)) (el : Element) : Costs w.st.2 15 (e.bracket (countWrites I) w el) := by
  refine costs_expect ?_
  split
  · exact costs_none
  · exact costs_none
  · rename_i exp hx
    have he := flag_exp_le hx
    have h8 := pow_le_eight he
    obtain ⟨n, hn, h⟩ := prim_a (I := I) w e.level.idx _ he
    refine costs_le (costs_io (m := 0) h ?_) (by omega)
    split
    · exact costs_none
    · exact costs_some

theorem costs_pop {e : Enc} {w : Writer (σ × Tally)} {l : Level} {c : Option Cursor} {st : List (Element × Level × Option Cursor)} {n : Nat} :
    Costs w.st.2 n (e.pop w l c st) := by
  unfold Enc.pop
  split
  · exact costs_none
  · split
    · exact costs_none
    · exact costs_some

theorem costs_close (e : Enc) (w : Writer (σ × Tally)) : Costs w.st.2 15 (e.close (countWrites I) w) := by
  unfold Enc.close
  split
  · exact costs_none
  · exact costs_some
  · split
    · exact costs_some
    · split
      · exact costs_pop
      · split
        · exact costs_none
        · split
          · split
            · exact costs_le (costs_io (m := 0) (prim_w _ _ _) costs_pop) (by rw [enNum_len]; omega)
            · exact costs_some
          · exact costs_pop
      · exact costs_pop
      · exact costs_pop
      · exact costs_none

theorem costs_commit (e : Enc) (w : Writer (σ × Tally)) : Costs w.st.2 15 (e.commit (countWrites I) w) := by
  unfold Enc.commit
  split
  · exact costs_none
  · split
    · exact costs_some
    · split
      · exact costs_some
      · split
        · intro e' w' r h
          cases h
          exact ⟨Nat.le_add_right _ _, Nat.le_succ _⟩
        · exact costs_some

theorem costs_out {a : Tally} {n : Nat} {s : Step (σ × Tally)} (h : Costs a n s) {e : Enc} {w : Writer (σ × Tally)} {o : Out}
    (hs : (s.map fun (x : Enc × Writer (σ × Tally) × DRes) => (x.1, x.2.1, Out.res x.2.2)) = some (e, w, o)) :
    w.st.2.bytes ≤ a.bytes + n ∧ w.st.2.calls + a.bytes ≤ a.calls + w.st.2.bytes + 1 := by
  cases s with
  | none => cases hs
  | some x => obtain ⟨e', w', r⟩ := x; cases hs; exact h _ _ _ rfl

mutual
theorem run_cost : ∀ (op : Op) (e e' : Enc) (w w' : Writer (σ × Tally)) (o : Out), Op.run (countWrites I) op e w = some (e', w', o) →
    w'.st.2.bytes ≤ w.st.2.bytes + (op.payload + 15 * op.count) ∧ w'.st.2.calls + w.st.2.bytes ≤ w.st.2.calls + w'.st.2.bytes + op.count
  | .u16 _, e, e', w, w', o, h => by
    have := costs_out (costs_fixed (I := I) e w .u16 _ (by rw [enNum_len]; decide)) h; simp only [Op.payload, Op.count]; omega
  | .u32 _, e, e', w, w', o, h => by
    have := costs_out (costs_fixed (I := I) e w .u32 _ (by rw [enNum_len]; decide)) h; simp only [Op.payload, Op.count]; omega
  | .u64 _, e, e', w, w', o, h => by
    have := costs_out (costs_fixed (I := I) e w .u64 _ (by rw [enNum_len]; decide)) h; simp only [Op.payload, Op.count]; omega
  | .string _, e, e', w, w', o, h => by have := costs_out (costs_str32 (I := I) e w _ _) h; simp only [Op.payload, Op.count]; omega
  | .object _, e, e', w, w', o, h => by have := costs_out (costs_str32 (I := I) e w _ _) h; simp only [Op.payload, Op.count]; omega
  | .signature _, e, e', w, w', o, h => by have := costs_out (costs_str8 (I := I) e w _ _) h; simp only [Op.payload, Op.count]; omega
  | .variant _, e, e', w, w', o, h => by have := costs_out (costs_variant (I := I) e w _) h; simp only [Op.payload, Op.count]; omega
  | .array, e, e', w, w', o, h => by have := costs_out (costs_array (I := I) e w) h; simp only [Op.payload, Op.count]; omega
  | .structure, e, e', w, w', o, h => by have := costs_out (costs_bracket (I := I) e w _) h; simp only [Op.payload, Op.count]; omega
  | .dict, e, e', w, w', o, h => by have := costs_out (costs_bracket (I := I) e w _) h; simp only [Op.payload, Op.count]; omega
  | .close, e, e', w, w', o, h => by have := costs_out (costs_close (I := I) e w) h; simp only [Op.payload, Op.count]; omega
  | .commit, e, e', w, w', o, h => by have := costs_out (costs_commit (I := I) e w) h; simp only [Op.payload, Op.count]; omega
  | .sub s ops, e, e', w, w', o, h => by
    rw [Op.run.eq_def] at h
    simp only [Op.payload, Op.count]
    simp only [] at h
    split at h
    · cases h
    · cases h; omega
    · split at h
      · cases h
      · rename_i hr
        have := runs_cost ops _ _ _ _ _ hr
        cases h
        omega
theorem runs_cost : ∀ (ops : List Op) (e e' : Enc) (w w' : Writer (σ × Tally)) (os : List Out),
    Op.runs (countWrites I) ops e w = some (e', w', os) →
    w'.st.2.bytes ≤ w.st.2.bytes + (Op.payloads ops + 15 * Op.counts ops)
      ∧ w'.st.2.calls + w.st.2.bytes ≤ w.st.2.calls + w'.st.2.bytes + Op.counts ops
  | [], e, e', w, w', os, h => by cases h; simp [Op.payloads, Op.counts]
  | op :: ops, e, e', w, w', os, h => by
    simp only [Op.runs] at h
    simp only [Op.payloads, Op.counts]
    split at h
    · cases h
    · rename_i h1
      have := run_cost op _ _ _ _ _ h1
      split at h
      · cases h
      · rename_i h2
        have := runs_cost ops _ _ _ _ _ h2
        cases h
        omega
end

end Verif.Dbus
