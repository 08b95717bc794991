import Verif.Dbus.SpecFinal
/-! # Helper lemmas: where encoders write -/
namespace Verif.Dbus.Final
open Verif.Io
variable {σ : Type}

theorem put_else {m : Mem} {i j : Nat} {d : List UInt8} (h : j < i ∨ i + d.length ≤ j) : put m i d j = m j := by
  unfold put
  rw [if_neg (by omega)]

theorem writeLoop_else (I : WriteImpl σ) : ∀ (fuel : Nat) (w : Writer σ) (idx : Nat) (data : List UInt8),
    (∀ j, j < idx ∨ idx + data.length ≤ j → (writeLoop I fuel w idx data).w.mem j = w.mem j)
    ∧ (∀ u, (writeLoop I fuel w idx data).flow = .cont u → (writeLoop I fuel w idx data).idx = idx + data.length)
  | 0, w, idx, data => by
    unfold writeLoop
    split
    · exact ⟨fun _ _ => rfl, fun _ h => by cases h⟩
    · exact ⟨fun _ _ => rfl, fun _ _ => by show idx = _; omega⟩
  | fuel + 1, w, idx, data => by
    unfold writeLoop
    split
    · simp only []
      split
      · exact ⟨fun _ _ => rfl, fun _ h => by cases h⟩
      · exact ⟨fun _ _ => rfl, fun _ h => by cases h⟩
      · rename_i st n _
        split
        · have hl : (data.take (min n data.length)).length = min n data.length := by rw [List.length_take]; omega
          split
          · obtain ⟨h1, h2⟩ := writeLoop_else I fuel ⟨st, put w.mem idx (data.take (min n data.length))⟩ (idx + min n data.length) (data.drop (min n data.length))
            rw [List.length_drop] at h1 h2
            refine ⟨fun j hj => ?_, fun u hu => ?_⟩
            · rw [h1 j (by omega)]
              exact put_else (by rw [hl]; omega)
            · rw [h2 u hu]; omega
          · exact ⟨fun j hj => put_else (by rw [hl]; omega), fun _ h => by cases h⟩
        · exact ⟨fun _ _ => rfl, fun _ h => by cases h⟩
    · exact ⟨fun _ _ => rfl, fun _ _ => by show idx = _; omega⟩

theorem write_else (I : WriteImpl σ) (w : Writer σ) (idx : Nat) (data : List UInt8) :
    (∀ j, j < idx ∨ idx + data.length ≤ j → (write I w idx data).w.mem j = w.mem j)
    ∧ (∀ u, (write I w idx data).flow = .cont u → (write I w idx data).idx = idx + data.length) := writeLoop_else I _ w idx data

theorem fillLoop_else (I : WriteImpl σ) : ∀ (fuel : Nat) (w : Writer σ) (idx len : Nat) (d : UInt8),
    (∀ j, j < idx → (fillLoop I fuel w idx len d).w.mem j = w.mem j)
    ∧ (∀ u, (fillLoop I fuel w idx len d).flow = .cont u → (fillLoop I fuel w idx len d).idx = idx + len)
  | 0, w, idx, len, d => by
    unfold fillLoop
    split
    · exact ⟨fun _ _ => rfl, fun _ h => by cases h⟩
    · exact ⟨fun _ _ => rfl, fun _ _ => by show idx = _; omega⟩
  | fuel + 1, w, idx, len, d => by
    unfold fillLoop
    split
    · simp only []
      split
      · exact ⟨fun _ _ => rfl, fun _ h => by cases h⟩
      · exact ⟨fun _ _ => rfl, fun _ h => by cases h⟩
      · rename_i st n _
        split
        · split
          · obtain ⟨h1, h2⟩ := fillLoop_else I fuel ⟨st, put w.mem idx (List.replicate (min n len) d)⟩ (idx + min n len) (len - min n len) d
            refine ⟨fun j hj => ?_, fun u hu => ?_⟩
            · rw [h1 j (by omega)]
              exact put_else (.inl hj)
            · rw [h2 u hu]; omega
          · exact ⟨fun j hj => put_else (.inl hj), fun _ h => by cases h⟩
        · exact ⟨fun _ _ => rfl, fun _ h => by cases h⟩
    · exact ⟨fun _ _ => rfl, fun _ _ => by show idx = _; omega⟩

/-- Nothing is written in front of `n`, and it goes on behind it. -/
structure Behind (n : Nat) (w : Writer σ) (r : WriteOut σ) : Prop where
  mem : ∀ j, j < n → r.w.mem j = w.mem j
  idx : ∀ u, r.flow = .cont u → n ≤ r.idx

theorem write_behind (I : WriteImpl σ) (w : Writer σ) {n idx : Nat} (data : List UInt8) (h : n ≤ idx) : Behind n w (write I w idx data) :=
  ⟨fun j hj => (write_else I w idx data).1 j (by omega), fun u hu => by rw [(write_else I w idx data).2 u hu]; omega⟩

theorem zero_behind (I : WriteImpl σ) (w : Writer σ) {n idx : Nat} (len : Nat) (h : n ≤ idx) : Behind n w (zero I w idx len) :=
  ⟨fun j hj => (fillLoop_else I len w idx len 0).1 j (by omega), fun u hu => by
    have := (fillLoop_else I len w idx len 0).2 u hu
    have e : (zero I w idx len).idx = idx + len := this
    rw [e]; omega⟩

theorem align_behind (I : WriteImpl σ) (w : Writer σ) {n idx : Nat} (exp : Nat) (h : n ≤ idx) : Behind n w (alignExp2 I w idx exp) := by
  unfold alignExp2
  split
  · exact ⟨fun _ _ => rfl, fun _ h => by cases h⟩
  · split
    · exact ⟨fun _ _ => rfl, fun _ h => by cases h⟩
    · exact zero_behind I w _ h

theorem iterInner_behind {ι : Type} (T : Iter ι) (stop n0 : Nat) : ∀ (n : Nat) (it : ι) (mem : Mem) (idx : Nat), n0 ≤ idx → n0 + n ≤ stop →
    (∀ j, j < n0 → (iterInner T stop n it mem idx).mem j = mem j) ∧ n0 ≤ (iterInner T stop n it mem idx).idx
  | 0, it, mem, idx, h, _ => ⟨fun _ _ => rfl, h⟩
  | n + 1, it, mem, idx, h, hs => by
    unfold iterInner
    split
    · exact ⟨fun _ _ => rfl, h⟩
    · exact ⟨fun _ _ => rfl, h⟩
    · simp only []
      rename_i b it' _
      split
      · obtain ⟨h1, h2⟩ := iterInner_behind T stop n0 n it' (put mem (stop - (n + 1)) [b]) (idx + 1) (by omega) (by omega)
        exact ⟨fun j hj => by rw [h1 j hj]; exact put_else (.inl (by omega)), h2⟩
      · exact ⟨fun j hj => put_else (.inl (by omega)), h⟩

theorem writeIterLoop_behind {ι : Type} (I : WriteImpl σ) (T : Iter ι) (n0 : Nat) : ∀ (fuel : Nat) (w : Writer σ) (idx : Nat) (it : ι), n0 ≤ idx →
    Behind n0 w (writeIterLoop I T fuel w idx it)
  | 0, w, idx, it, h => ⟨fun _ _ => rfl, fun _ h => by cases h⟩
  | fuel + 1, w, idx, it, h => by
    unfold writeIterLoop
    split
    · exact ⟨fun _ _ => rfl, fun _ h => by cases h⟩
    · split
      · exact ⟨fun _ _ => rfl, fun _ _ => h⟩
      · exact ⟨fun _ _ => rfl, fun _ h => by cases h⟩
    · split
      · exact ⟨fun _ _ => rfl, fun _ h => by cases h⟩
      · exact ⟨fun _ _ => rfl, fun _ h => by cases h⟩
      · split
        · simp only []
          rename_i n _ _ st map _ _
          obtain ⟨h1, h2⟩ := iterInner_behind T (idx + map) n0 (min (n + 1) map) it w.mem idx h (by omega)
          split
          · have := writeIterLoop_behind I T n0 fuel ⟨st, (iterInner T (idx + map) (min (n + 1) map) it w.mem idx).mem⟩ _
              (iterInner T (idx + map) (min (n + 1) map) it w.mem idx).it h2
            exact ⟨fun j hj => by rw [this.mem j hj]; exact h1 j hj, this.idx⟩
          · exact ⟨h1, fun _ h => by cases h⟩
        · exact ⟨fun _ _ => rfl, fun _ h => by cases h⟩

theorem writeIter_behind {ι : Type} (I : WriteImpl σ) (T : Iter ι) (w : Writer σ) {n idx : Nat} (it : ι) (h : n ≤ idx) : Behind n w (writeIter I T w idx it) := by
  unfold writeIter
  split
  · exact ⟨fun _ _ => rfl, fun _ h => by cases h⟩
  · exact writeIterLoop_behind I T n _ w idx it h

/-! ## The encoder -/

/-- Where the lengths of the arrays are that are open, the innermost one first. -/
def slotsFrom : Level → List (Element × Level × Option Cursor) → List Nat
  | _, [] => []
  | l, (el, up, _) :: st => (if el = .array then [l.meta_] else []) ++ slotsFrom up st

def slots (e : Enc) : List Nat := slotsFrom e.level e.stack

/-- Which of what is open are arrays. -/
def kinds (e : Enc) : List Bool := e.stack.map fun x => decide (x.1 = .array)

theorem slotsFrom_meta {l l' : Level} (h : l.meta_ = l'.meta_) (st) : slotsFrom l st = slotsFrom l' st := by
  cases st with
  | nil => rfl
  | cons x st => obtain ⟨el, up, c⟩ := x; simp only [slotsFrom, h]

theorem slotsFrom_length : ∀ (l : Level) (st : List (Element × Level × Option Cursor)),
    (slotsFrom l st).length = (st.map fun x => decide (x.1 = .array)).count true
  | _, [] => rfl
  | l, (el, up, c) :: st => by
    rw [slotsFrom, List.length_append, slotsFrom_length up st, List.map_cons, List.count_cons]
    by_cases h : el = .array
    · simp [h]; omega
    · simp [h]

/-- Lengths do not overlap, and are in front of where the encoder is. -/
structure Inv (e : Enc) : Prop where
  apart : (slots e).Pairwise fun f g => g + 4 ≤ f
  front : ∀ s ∈ slots e, s + 4 ≤ e.level.idx

/-- Memory in front of the encoder is kept but for the lengths of arrays that are open. -/
def Kept (e : Enc) (w w' : Writer σ) : Prop := ∀ j, j < e.level.idx → (∀ s ∈ slots e, j < s ∨ s + 4 ≤ j) → w'.mem j = w.mem j

structure Moves (e e' : Enc) : Prop where
  idx : e.level.idx ≤ e'.level.idx
  slots : ∀ s ∈ slots e', s ∈ slots e ∨ e.level.idx ≤ s
  inv : Inv e → Inv e'
  handed : ∀ i, e'.handed = some i → e.handed = some i ∨ e.level.idx ≤ i

theorem Moves.refl (e : Enc) : Moves e e := ⟨Nat.le_refl _, fun _ h => .inl h, id, fun _ h => .inl h⟩

theorem Moves.trans {a b c : Enc} (h : Moves a b) (h' : Moves b c) : Moves a c :=
  ⟨Nat.le_trans h.idx h'.idx, fun s hs => by
    rcases h'.slots s hs with hs | hs
    · exact h.slots s hs
    · exact .inr (Nat.le_trans h.idx hs), fun i => h'.inv (h.inv i), fun i hi => by
    rcases h'.handed i hi with hi | hi
    · exact h.handed i hi
    · exact .inr (Nat.le_trans h.idx hi)⟩

theorem Kept.trans {a b : Enc} {w w' w'' : Writer σ} (h : Kept a w w') (hm : Moves a b) (h' : Kept b w' w'') : Kept a w w'' := by
  intro j hj hs
  rw [h' j (Nat.lt_of_lt_of_le hj hm.idx) ?_, h j hj hs]
  intro s hx
  rcases hm.slots s hx with hx | hx
  · exact hs s hx
  · exact .inl (Nat.lt_of_lt_of_le hj hx)

/-- What holds of every outcome of a call. -/
def Fine (e : Enc) (w : Writer σ) (r : Step σ) : Prop := ∀ e' w' x, r = some (e', w', x) → Kept e w w' ∧ Moves e e'

theorem Fine.none {e : Enc} {w : Writer σ} : Fine e w (Option.none : Step σ) := fun _ _ _ h => by cases h

theorem Fine.same {e : Enc} {w : Writer σ} {x : DRes} : Fine e w (some (e, w, x)) := by
  intro e' w' y h
  cases h
  exact ⟨fun _ _ _ => rfl, Moves.refl e⟩

theorem Fine.mem {e : Enc} {w w' : Writer σ} {r : Step σ} (hm : ∀ j, j < e.level.idx → w'.mem j = w.mem j) (h : Fine e w' r) : Fine e w r := by
  intro e' w'' x hx
  obtain ⟨h1, h2⟩ := h e' w'' x hx
  exact ⟨fun j hj hs => by rw [h1 j hj hs, hm j hj], h2⟩

theorem Fine.io {e : Enc} {w : Writer σ} {r : WriteOut σ} {k : Writer σ → Nat → Step σ} (hr : Behind e.level.idx w r)
    (hk : ∀ u, r.flow = .cont u → e.level.idx ≤ r.idx → Fine e r.w (k r.w r.idx)) : Fine e w (e.io r k) := by
  unfold Enc.io
  cases h : r.flow with
  | cont u => exact Fine.mem hr.mem (hk u h (hr.idx u h))
  | brk x => exact Fine.mem hr.mem Fine.same
  | fault => exact Fine.none

theorem Fine.expect {e : Enc} {w : Writer σ} {el : Element} {k : Step σ} (h : Fine e w k) : Fine e w (e.expect w el k) := by
  unfold Enc.expect
  split
  · exact Fine.none
  · split
    · exact Fine.same
    · exact h

theorem fine_advance {e : Enc} {w : Writer σ} {idx : Nat} (h : e.level.idx ≤ idx) : Fine e w (e.advance w idx) := by
  unfold Enc.advance
  split
  · exact Fine.none
  · intro e' w' x hx
    cases hx
    have hs : ∀ c, slots { e with level := { e.level with idx := idx }, cursor := c } = slots e := fun c => slotsFrom_meta (l := { e.level with idx := idx }) (l' := e.level) rfl e.stack
    refine ⟨fun _ _ _ => rfl, h, fun s hx => .inl (by rw [hs] at hx; exact hx), fun i => ⟨by rw [hs]; exact i.apart, fun s hx => ?_⟩, fun _ h => .inl h⟩
    rw [hs] at hx
    exact Nat.le_trans (i.front s hx) h

theorem fine_fixed (I : WriteImpl σ) (e : Enc) (w : Writer σ) (el : Element) (data : List UInt8) : Fine e w (e.fixed I w el data) :=
  Fine.expect <| Fine.io (align_behind I w _ (Nat.le_refl _)) fun _ _ h => Fine.io (write_behind I _ _ h) fun _ _ h => fine_advance h

theorem fine_str8 (I : WriteImpl σ) (e : Enc) (w : Writer σ) (el : Element) (data : List UInt8) : Fine e w (e.str8 I w el data) := by
  refine Fine.expect ?_
  split
  · exact Fine.io (align_behind I w _ (Nat.le_refl _)) fun _ _ h => Fine.io (write_behind I _ _ h) fun _ _ h => Fine.io (write_behind I _ _ h) fun _ _ h =>
      Fine.io (zero_behind I _ _ h) fun _ _ h => fine_advance h
  · exact Fine.same

theorem fine_str32 (I : WriteImpl σ) (e : Enc) (w : Writer σ) (el : Element) (data : List UInt8) : Fine e w (e.str32 I w el data) := by
  refine Fine.expect ?_
  split
  · exact Fine.io (align_behind I w _ (Nat.le_refl _)) fun _ _ h => Fine.io (write_behind I _ _ h) fun _ _ h => Fine.io (write_behind I _ _ h) fun _ _ h =>
      Fine.io (zero_behind I _ _ h) fun _ _ h => fine_advance h
  · exact Fine.same

/-- Something is opened that is no array. -/
theorem fine_enter {e : Enc} {w : Writer σ} {idx : Nat} (h : e.level.idx ≤ idx) {c : Cursor} {el : Element} (hel : el ≠ .array) {up : Option Cursor} {x : DRes} :
    Fine e w (some ({ e with cursor := c, level := ⟨idx, idx, idx⟩, stack := (el, e.level, up) :: e.stack }, w, x)) := by
  intro e' w' x hx
  cases hx
  have hs : slots { e with cursor := c, level := ⟨idx, idx, idx⟩, stack := (el, e.level, up) :: e.stack } = slots e := by
    simp only [slots, slotsFrom, if_neg hel, List.nil_append]
  refine ⟨fun _ _ _ => rfl, h, fun s hx => .inl (by rw [hs] at hx; exact hx), fun i => ⟨by rw [hs]; exact i.apart, fun s hx => ?_⟩, fun _ h => .inl h⟩
  rw [hs] at hx
  exact Nat.le_trans (i.front s hx) h

theorem fine_variant (I : WriteImpl σ) (e : Enc) (w : Writer σ) (s : Sig) : Fine e w (e.variant I w s) := by
  refine Fine.expect ?_
  split
  · exact Fine.none
  · split
    · refine Fine.io (align_behind I w _ (Nat.le_refl _)) fun _ _ h => Fine.io (write_behind I _ _ h) fun _ _ h => ?_
      split
      · exact Fine.none
      · exact Fine.io (writeIter_behind I _ _ _ h) fun _ _ h => Fine.io (zero_behind I _ _ h) fun _ _ h => fine_enter h (by decide)
    · exact Fine.same

theorem fine_bracket (I : WriteImpl σ) (e : Enc) (w : Writer σ) (el : Element) (hel : el ≠ .array) : Fine e w (e.bracket I w el) := by
  refine Fine.expect ?_
  split
  · exact Fine.none
  · exact Fine.none
  · refine Fine.io (align_behind I w _ (Nat.le_refl _)) fun _ _ h => ?_
    split
    · exact Fine.none
    · exact fine_enter h hel

theorem fine_array (I : WriteImpl σ) (e : Enc) (w : Writer σ) : Fine e w (e.array I w) := by
  refine Fine.expect ?_
  split
  · exact Fine.none
  · exact Fine.none
  · rename_i el _
    refine Fine.io (align_behind I w _ (Nat.le_refl _)) fun _ _ h => ?_
    generalize alignExp2 I w e.level.idx Element.u32.dvarExp = r at h
    refine Fine.io (write_behind I _ _ h) fun u hu h' => ?_
    have h4 := (write_else I r.w r.idx (enNum e.be 4 0)).2 u hu
    have hl : (enNum e.be 4 0).length = 4 := by cases e.be <;> rfl
    rw [hl] at h4
    generalize write I r.w r.idx (enNum e.be 4 0) = r2 at h4 h'
    have h6 := align_behind I r2.w el.dvarExp (n := r.idx + 4) (idx := r2.idx) (by omega)
    refine Fine.io (align_behind I r2.w _ h') fun u hu h5 => ?_
    have h6 := h6.idx u hu
    generalize alignExp2 I r2.w r2.idx el.dvarExp = r3 at h5 h6
    split
    · exact Fine.none
    · rename_i c _
      intro e' w' x hx
      cases hx
      have hs : slots { e with cursor := c, level := ⟨r3.idx, r3.idx, r.idx⟩, stack := (.array, e.level, none) :: e.stack } = r.idx :: slots e := by
        simp only [slots, slotsFrom, if_true, List.singleton_append]
      refine ⟨fun _ _ _ => rfl, h5, fun s hx => ?_, fun i => ⟨?_, fun s hx => ?_⟩, fun _ h => .inl h⟩
      · rw [hs] at hx
        rcases List.mem_cons.mp hx with rfl | hx
        · exact .inr h
        · exact .inl hx
      · rw [hs, List.pairwise_cons]
        exact ⟨fun s hx => Nat.le_trans (i.front s hx) h, i.apart⟩
      · rw [hs] at hx
        show s + 4 ≤ r3.idx
        rcases List.mem_cons.mp hx with rfl | hx
        · exact h6
        · exact Nat.le_trans (i.front s hx) h5

theorem moves_pop {e : Enc} {w : Writer σ} {el : Element} {up : Level} {uc : Option Cursor} {st : List (Element × Level × Option Cursor)} (hst : e.stack = (el, up, uc) :: st)
    {e' : Enc} {w' : Writer σ} {x : DRes} (h : e.pop w up uc st = some (e', w', x)) : w' = w ∧ Moves e e' := by
  have go : ∀ c : Option Cursor, (match c with
      | none => none
      | some c =>
        match c.move_step with
        | none => none
        | some c => some (({ e with level := { up with idx := e.level.idx }, cursor := c, stack := st } : Enc), w, DRes.ok)) = some (e', w', x) → w' = w ∧ Moves e e' := by
    intro c h
    cases c with
    | none => cases h
    | some c =>
      simp only [] at h
      split at h
      · cases h
      · cases h
        rename_i c' _
        have hs : ∀ s ∈ slots { e with level := { up with idx := e.level.idx }, cursor := c', stack := st }, s ∈ slots e := by
          intro s hs
          have hs : s ∈ slotsFrom up st := by
            rw [slotsFrom_meta (l := up) (l' := { up with idx := e.level.idx }) rfl st]; exact hs
          simp only [slots, hst, slotsFrom]
          exact List.mem_append_right _ hs
        refine ⟨rfl, Nat.le_refl _, fun s h => .inl (hs s h), fun i => ⟨?_, fun s h => i.front s (hs s h)⟩, fun _ h => .inl h⟩
        have := i.apart
        simp only [slots, hst, slotsFrom] at this
        have := (List.pairwise_append.mp this).2.1
        show (slotsFrom { up with idx := e.level.idx } st).Pairwise _
        rw [← slotsFrom_meta (l := up) (l' := { up with idx := e.level.idx }) rfl st]
        exact this
  unfold Enc.pop at h
  exact go _ h

theorem fine_pop {e : Enc} {w : Writer σ} {el : Element} {up : Level} {uc : Option Cursor} {st : List (Element × Level × Option Cursor)} (hst : e.stack = (el, up, uc) :: st) :
    Fine e w (e.pop w up uc st) := by
  intro e' w' x h
  obtain ⟨rfl, h2⟩ := moves_pop hst h
  exact ⟨fun _ _ _ => rfl, h2⟩

theorem fine_close (I : WriteImpl σ) (e : Enc) (w : Writer σ) : Fine e w (e.close I w) := by
  unfold Enc.close
  split
  · exact Fine.none
  · exact Fine.same
  · split
    · exact Fine.same
    · rename_i el up uc st hst
      split
      · exact fine_pop hst
      · split
        · exact Fine.none
        · rename_i n _
          split
          · split
            · have hl : (enNum e.be 4 n).length = 4 := by cases e.be <;> rfl
              have hw := (write_else I w e.level.meta_ (enNum e.be 4 n)).1
              rw [hl] at hw
              have hm : e.level.meta_ ∈ slots e := by simp only [slots, hst, slotsFrom, if_true]; simp
              have hk : Kept e w (write I w e.level.meta_ (enNum e.be 4 n)).w := fun j _ hs => hw j (hs _ hm)
              unfold Enc.io
              split
              · intro e' w' x h
                obtain ⟨rfl, h2⟩ := moves_pop hst h
                exact ⟨hk, h2⟩
              · intro e' w' x h
                cases h
                exact ⟨hk, Moves.refl e⟩
              · exact Fine.none
            · exact Fine.same
          · exact fine_pop hst
      · exact fine_pop hst
      · exact fine_pop hst
      · exact Fine.none

theorem fine_commit (I : WriteImpl σ) (e : Enc) (w : Writer σ) : Fine e w (e.commit I w) := by
  unfold Enc.commit
  split
  · exact Fine.none
  · split
    · exact Fine.same
    · split
      · intro e' w' x h
        cases h
        exact ⟨fun _ _ _ => rfl, Nat.le_refl _, fun s h => .inl h, fun i => ⟨i.apart, i.front⟩, fun _ h => .inr (by cases h; exact Nat.le_refl _)⟩
      · split
        · intro e' w' x h
          cases h
          exact ⟨fun _ _ _ => rfl, Nat.le_refl _, fun s h => .inl h, fun i => ⟨i.apart, i.front⟩, fun _ h => .inl h⟩
        · exact Fine.same

theorem fine_map {e : Enc} {w : Writer σ} {r : Step σ} (h : Fine e w r) {e' : Enc} {w' : Writer σ} {o : Out}
    (hr : (r.map fun (e, w, x) => (e, w, Out.res x)) = some (e', w', o)) : Kept e w w' ∧ Moves e e' := by
  cases r with
  | none => cases hr
  | some y => obtain ⟨e1, w1, x⟩ := y; cases hr; exact h _ _ _ rfl

theorem sub_begins {p x : Enc} (h : p.sub = some (some x)) : x.stack = [] ∧ x.level.idx = p.level.idx ∧ x.handed = none := by
  unfold Enc.sub at h
  cases h1 : p.cursor.idx_step with
  | none => rw [h1] at h; cases h
  | some st =>
    cases h2 : p.cursor.sigAt with
    | none => rw [h1, h2] at h; cases h
    | some v =>
      cases v with
      | none => rw [h1, h2] at h; cases h
      | some v =>
        cases h3 : Cursor.new v with
        | none =>
          rw [h1, h2] at h
          simp only [Option.bind_eq_bind, Option.bind_some, h3, Option.bind_none] at h
          cases h
        | some c =>
          rw [h1, h2] at h
          simp only [Option.bind_eq_bind, Option.bind_some, h3] at h
          cases h
          exact ⟨rfl, rfl, rfl⟩

theorem subWith_sub {p x : Enc} {s : Sig} (h : p.subWith s = some (some x)) : p.sub = some (some x) := by
  unfold Enc.subWith at h
  cases h2 : p.cursor.sigAt with
  | none => rw [h2] at h; cases h
  | some v =>
    cases v with
    | none => rw [h2] at h; cases h
    | some v =>
      rw [h2] at h
      simp only [Option.bind_eq_bind, Option.bind_some] at h
      cases h3 : s.eq v with
      | none => rw [h3] at h; cases h
      | some b =>
        rw [h3] at h
        cases b with
        | true => exact h
        | false => cases h

theorem slots_begins {e : Enc} (h : e.stack = []) : slots e = [] := by
  simp only [slots, h, slotsFrom]

theorem moves_merge {p x x' : Enc} (hx : p.sub = some (some x)) (hm : Moves x x') (step : Option Nat) : Moves p (p.merge x' step) := by
  obtain ⟨_, h2, h3⟩ := sub_begins hx
  unfold Enc.merge
  split
  · exact Moves.refl p
  · rename_i idx hi
    have hle : p.level.idx ≤ idx := by
      rcases hm.handed idx hi with h | h
      · rw [h3] at h; cases h
      · omega
    have hs : ∀ c, slots { p with level := { p.level with idx := idx }, cursor := c } = slots p := fun c =>
      slotsFrom_meta (l := { p.level with idx := idx }) (l' := p.level) rfl p.stack
    refine ⟨hle, fun s hx => .inl (by rw [hs] at hx; exact hx), fun i => ⟨by rw [hs]; exact i.apart, fun s hx => ?_⟩, fun _ h => .inl h⟩
    rw [hs] at hx
    exact Nat.le_trans (i.front s hx) hle

mutual
theorem run_fine (I : WriteImpl σ) : ∀ (op : Op) (e : Enc) (w : Writer σ) (e' : Enc) (w' : Writer σ) (o : Out),
    Op.run I op e w = some (e', w', o) → Kept e w w' ∧ Moves e e'
  | .u16 _, e, w, e', w', o, h => fine_map (fine_fixed I e w _ _) (by rw [Op.run] at h; exact h)
  | .u32 _, e, w, e', w', o, h => fine_map (fine_fixed I e w _ _) (by rw [Op.run] at h; exact h)
  | .u64 _, e, w, e', w', o, h => fine_map (fine_fixed I e w _ _) (by rw [Op.run] at h; exact h)
  | .string _, e, w, e', w', o, h => fine_map (fine_str32 I e w _ _) (by rw [Op.run] at h; exact h)
  | .object _, e, w, e', w', o, h => fine_map (fine_str32 I e w _ _) (by rw [Op.run] at h; exact h)
  | .signature _, e, w, e', w', o, h => fine_map (fine_str8 I e w _ _) (by rw [Op.run] at h; exact h)
  | .variant _, e, w, e', w', o, h => fine_map (fine_variant I e w _) (by rw [Op.run] at h; exact h)
  | .array, e, w, e', w', o, h => fine_map (fine_array I e w) (by rw [Op.run] at h; exact h)
  | .structure, e, w, e', w', o, h => fine_map (fine_bracket I e w .structOpen (by decide)) (by rw [Op.run] at h; exact h)
  | .dict, e, w, e', w', o, h => fine_map (fine_bracket I e w .dictOpen (by decide)) (by rw [Op.run] at h; exact h)
  | .close, e, w, e', w', o, h => fine_map (fine_close I e w) (by rw [Op.run] at h; exact h)
  | .commit, e, w, e', w', o, h => fine_map (fine_commit I e w) (by rw [Op.run] at h; exact h)
  | .sub s ops, e, w, e', w', o, h => by
    unfold Op.run at h
    have hsub : ∀ x, (match s with | none => e.sub | some s => e.subWith s) = some (some x) → e.sub = some (some x) := by
      intro x hx
      cases s with
      | none => exact hx
      | some s => exact subWith_sub hx
    split at h
    · cases h
    · cases h; exact ⟨fun _ _ _ => rfl, Moves.refl _⟩
    · rename_i x hq
      have hx := hsub x hq
      split at h
      · cases h
      · rename_i x' w1 outs hr
        cases h
        obtain ⟨h1, h2⟩ := runs_fine I ops x w x' _ outs hr
        obtain ⟨hb1, hb2, _⟩ := sub_begins hx
        exact ⟨fun j hj _ => h1 j (by omega) (by rw [slots_begins hb1]; nofun), moves_merge hx h2 _⟩
theorem runs_fine (I : WriteImpl σ) : ∀ (ops : List Op) (e : Enc) (w : Writer σ) (e' : Enc) (w' : Writer σ) (os : List Out),
    Op.runs I ops e w = some (e', w', os) → Kept e w w' ∧ Moves e e'
  | [], e, w, e', w', os, h => by
    rw [Op.runs] at h
    cases h
    exact ⟨fun _ _ _ => rfl, Moves.refl _⟩
  | op :: ops, e, w, e', w', os, h => by
    rw [Op.runs] at h
    split at h
    · cases h
    · rename_i e1 w1 o1 h1
      split at h
      · cases h
      · rename_i e2 w2 os2 h2
        cases h
        obtain ⟨k1, m1⟩ := run_fine I op e w e1 w1 o1 h1
        obtain ⟨k2, m2⟩ := runs_fine I ops e1 w1 _ _ os2 h2
        exact ⟨k1.trans m1 k2, m1.trans m2⟩
end

/-! ## What is open -/

/-- What a call does to what is open: `f` if it is accepted. -/
def Opens (e : Enc) (f : List Bool → List Bool) (r : Step σ) : Prop :=
  ∀ e' w' x, r = some (e', w', x) → (x = .ok → kinds e' = f (kinds e)) ∧ (x ≠ .ok → kinds e' = kinds e)

variable {e : Enc} {w : Writer σ} {f : List Bool → List Bool}

theorem Opens.none : Opens e f (Option.none : Step σ) := fun _ _ _ h => by cases h

theorem Opens.refused {x : Option DErr} : Opens e f (some (e, w, .brk x)) := by
  intro e' w' y h
  cases h
  exact ⟨nofun, fun _ => rfl⟩

theorem Opens.ok {e' : Enc} (h : kinds e' = f (kinds e)) : Opens e f (some (e', w, .ok)) := by
  intro e'' w' y hy
  cases hy
  exact ⟨fun _ => h, fun h => absurd rfl h⟩

theorem Opens.io {r : WriteOut σ} {k : Writer σ → Nat → Step σ} (hk : ∀ w i, Opens e f (k w i)) : Opens e f (e.io r k) := by
  unfold Enc.io
  split
  · exact hk _ _
  · exact Opens.refused
  · exact Opens.none

theorem Opens.expect {el : Element} {k : Step σ} (h : Opens e f k) : Opens e f (e.expect w el k) := by
  unfold Enc.expect
  split
  · exact Opens.none
  · split
    · exact Opens.refused
    · exact h

theorem opens_advance {idx : Nat} : Opens e id (e.advance w idx) := by
  unfold Enc.advance
  split
  · exact Opens.none
  · exact Opens.ok rfl

theorem opens_fixed (I : WriteImpl σ) (el : Element) (data : List UInt8) : Opens e id (e.fixed I w el data) :=
  Opens.expect <| Opens.io fun _ _ => Opens.io fun _ _ => opens_advance

theorem opens_str8 (I : WriteImpl σ) (el : Element) (data : List UInt8) : Opens e id (e.str8 I w el data) := by
  refine Opens.expect ?_
  split
  · exact Opens.io fun _ _ => Opens.io fun _ _ => Opens.io fun _ _ => Opens.io fun _ _ => opens_advance
  · exact Opens.refused

theorem opens_str32 (I : WriteImpl σ) (el : Element) (data : List UInt8) : Opens e id (e.str32 I w el data) := by
  refine Opens.expect ?_
  split
  · exact Opens.io fun _ _ => Opens.io fun _ _ => Opens.io fun _ _ => Opens.io fun _ _ => opens_advance
  · exact Opens.refused

theorem opens_variant (I : WriteImpl σ) (s : Sig) : Opens e (false :: ·) (e.variant I w s) := by
  refine Opens.expect ?_
  split
  · exact Opens.none
  · split
    · refine Opens.io fun _ _ => Opens.io fun _ _ => ?_
      split
      · exact Opens.none
      · exact Opens.io fun _ _ => Opens.io fun _ _ => Opens.ok rfl
    · exact Opens.refused

theorem opens_bracket (I : WriteImpl σ) {el : Element} (hel : el ≠ .array) : Opens e (false :: ·) (e.bracket I w el) := by
  refine Opens.expect ?_
  split
  · exact Opens.none
  · exact Opens.none
  · refine Opens.io fun _ _ => ?_
    split
    · exact Opens.none
    · exact Opens.ok (by simp only [kinds, List.map_cons, decide_eq_false hel])

theorem opens_array (I : WriteImpl σ) : Opens e (true :: ·) (e.array I w) := by
  refine Opens.expect ?_
  split
  · exact Opens.none
  · exact Opens.none
  · refine Opens.io fun _ _ => Opens.io fun _ _ => Opens.io fun _ _ => ?_
    split
    · exact Opens.none
    · exact Opens.ok rfl

theorem opens_pop {el : Element} {up : Level} {uc : Option Cursor} {st : List (Element × Level × Option Cursor)} (hst : e.stack = (el, up, uc) :: st) :
    Opens e List.tail (e.pop w up uc st) := by
  intro e' w' x h
  have go : ∀ c : Option Cursor, (match c with
      | none => none
      | some c =>
        match c.move_step with
        | none => none
        | some c => some (({ e with level := { up with idx := e.level.idx }, cursor := c, stack := st } : Enc), w, DRes.ok)) = some (e', w', x) → x = .ok ∧ e'.stack = st := by
    intro c h
    cases c with
    | none => cases h
    | some c =>
      simp only [] at h
      split at h
      · cases h
      · cases h
        exact ⟨rfl, rfl⟩
  unfold Enc.pop at h
  obtain ⟨h1, h2⟩ := go _ h
  exact ⟨fun _ => by simp only [kinds, h2, hst, List.map_cons, List.tail_cons], fun h => absurd h1 h⟩

theorem opens_close (I : WriteImpl σ) : Opens e List.tail (e.close I w) := by
  unfold Enc.close
  split
  · exact Opens.none
  · exact Opens.refused
  · split
    · exact Opens.refused
    · rename_i el up uc st hst
      split
      · exact opens_pop hst
      · split
        · exact Opens.none
        · split
          · split
            · exact Opens.io fun _ _ => opens_pop hst
            · exact Opens.refused
          · exact opens_pop hst
      · exact opens_pop hst
      · exact opens_pop hst
      · exact Opens.none

theorem opens_commit (I : WriteImpl σ) : Opens e id (e.commit I w) := by
  unfold Enc.commit
  split
  · exact Opens.none
  · split
    · exact Opens.refused
    · split
      · exact Opens.ok rfl
      · split
        · exact Opens.ok rfl
        · exact Opens.ok rfl

theorem opens_map {r : Step σ} (h : Opens e f r) {e' : Enc} {w' : Writer σ} {o : Out}
    (hr : (r.map fun (e, w, x) => (e, w, Out.res x)) = some (e', w', o)) : ∃ x, o = .res x ∧ (x = .ok → kinds e' = f (kinds e)) ∧ (x ≠ .ok → kinds e' = kinds e) := by
  cases r with
  | none => cases hr
  | some y => obtain ⟨e1, w1, x⟩ := y; cases hr; exact ⟨x, rfl, h _ _ _ rfl⟩

theorem opens_same {r : Step σ} (h : Opens e id r) {e' : Enc} {w' : Writer σ} {o : Out}
    (hr : (r.map fun (e, w, x) => (e, w, Out.res x)) = some (e', w', o)) : kinds e' = kinds e := by
  obtain ⟨x, _, h1, h2⟩ := opens_map h hr
  by_cases hx : x = .ok
  · exact h1 hx
  · exact h2 hx

theorem run_kinds (I : WriteImpl σ) (op : Op) {e' : Enc} {w' : Writer σ} {o : Out} (h : Op.run I op e w = some (e', w', o)) :
    kinds e' = track (kinds e) op o := by
  cases op with
  | u16 v => rw [Op.run] at h; exact opens_same (opens_fixed I _ _) h
  | u32 v => rw [Op.run] at h; exact opens_same (opens_fixed I _ _) h
  | u64 v => rw [Op.run] at h; exact opens_same (opens_fixed I _ _) h
  | string v => rw [Op.run] at h; exact opens_same (opens_str32 I _ _) h
  | object v => rw [Op.run] at h; exact opens_same (opens_str32 I _ _) h
  | signature v => rw [Op.run] at h; exact opens_same (opens_str8 I _ _) h
  | commit => rw [Op.run] at h; exact opens_same (opens_commit I) h
  | variant s =>
    rw [Op.run] at h
    obtain ⟨x, rfl, h1, h2⟩ := opens_map (opens_variant I s) h
    cases x with
    | ok => exact h1 rfl
    | brk x => exact h2 nofun
  | array =>
    rw [Op.run] at h
    obtain ⟨x, rfl, h1, h2⟩ := opens_map (opens_array I) h
    cases x with
    | ok => exact h1 rfl
    | brk x => exact h2 nofun
  | «structure» =>
    rw [Op.run] at h
    obtain ⟨x, rfl, h1, h2⟩ := opens_map (opens_bracket I (by decide)) h
    cases x with
    | ok => exact h1 rfl
    | brk x => exact h2 nofun
  | dict =>
    rw [Op.run] at h
    obtain ⟨x, rfl, h1, h2⟩ := opens_map (opens_bracket I (by decide)) h
    cases x with
    | ok => exact h1 rfl
    | brk x => exact h2 nofun
  | close =>
    rw [Op.run] at h
    obtain ⟨x, rfl, h1, h2⟩ := opens_map (opens_close I) h
    cases x with
    | ok => exact h1 rfl
    | brk x => exact h2 nofun
  | sub s ops =>
    unfold Op.run at h
    split at h
    · cases h
    · cases h; rfl
    · split at h
      · cases h
      · rename_i x' w1 outs hr
        cases h
        show kinds (e.merge x' _) = kinds e
        unfold Enc.merge
        split <;> rfl

theorem runs_kinds (I : WriteImpl σ) : ∀ (ops : List Op) (e : Enc) (w : Writer σ) (e' : Enc) (w' : Writer σ) (os : List Out),
    Op.runs I ops e w = some (e', w', os) → kinds e' = tracks (kinds e) ops os
  | [], e, w, e', w', os, h => by
    rw [Op.runs] at h
    cases h
    rfl
  | op :: ops, e, w, e', w', os, h => by
    rw [Op.runs] at h
    split at h
    · cases h
    · rename_i e1 w1 o1 h1
      split at h
      · cases h
      · rename_i e2 w2 os2 h2
        cases h
        rw [runs_kinds I ops e1 w1 _ _ os2 h2, run_kinds I op h1]
        rfl

theorem begins_stack {e : Enc} (h : Begins e) : e.stack = [] := by
  rcases h with ⟨s, be, h⟩ | ⟨p, h⟩
  · unfold Enc.with_ at h
    cases h1 : Cursor.new s with
    | none => rw [h1] at h; cases h
    | some c => rw [h1] at h; cases h; rfl
  · exact (sub_begins h).1

theorem committed_stack (I : WriteImpl σ) : ∀ (a : List Op) (e : Enc) (w : Writer σ) (e1 : Enc) (w1 : Writer σ) (o1 : List Out),
    Op.runs I (a ++ [.commit]) e w = some (e1, w1, o1) → o1.getLast? = some (.res .ok) → e1.stack = []
  | [], e, w, e1, w1, o1, h, hc => by
    rw [List.nil_append, Op.runs] at h
    split at h
    · cases h
    · rename_i e' w' o hr
      rw [Op.runs] at h
      cases h
      have hc : o = .res .ok := by simpa using hc
      subst hc
      rw [Op.run] at hr
      unfold Enc.commit at hr
      split at hr
      · cases hr
      · split at hr
        · cases hr
        · rename_i hn
          have hn : e.stack = [] := by
            cases hst : e.stack with
            | nil => rfl
            | cons x l => rw [hst] at hn; simp at hn
          split at hr
          · cases hr; exact hn
          · split at hr
            · cases hr; exact hn
            · cases hr; exact hn
  | op :: a, e, w, e1, w1, o1, h, hc => by
    rw [List.cons_append, Op.runs] at h
    split at h
    · cases h
    · rename_i e' w' o hr
      split at h
      · cases h
      · rename_i e2 w2 os2 h2
        cases h
        refine committed_stack I a e' w' _ _ os2 h2 ?_
        cases os2 with
        | nil =>
          exfalso
          cases a with
          | nil =>
            rw [List.nil_append, Op.runs] at h2
            split at h2
            · cases h2
            · rw [Op.runs] at h2; cases h2
          | cons op' a =>
            rw [List.cons_append, Op.runs] at h2
            split at h2
            · cases h2
            · split at h2 <;> cases h2
        | cons o' os => rw [List.getLast?_cons_cons] at hc; exact hc

end Verif.Dbus.Final
