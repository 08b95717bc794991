import Verif.Dbus.SpecOrder
/-! # Lemmas: encoders do not look at values -/
namespace Verif.Dbus.Shape
open Verif.Io

variable {σ : Type} {I : WriteImpl σ}

/-- Writers that differ in the contents of the memory. -/
def LikeW (w w' : Writer σ) : Prop := w.st = w'.st ∧ SameCells w.mem w'.mem

theorem likeW (st : σ) {m m' : Mem} (h : SameCells m m') : LikeW ⟨st, m⟩ ⟨st, m'⟩ := ⟨rfl, h⟩

/-- Outcomes of writes that differ in the contents of the memory. -/
def LikeO (r r' : WriteOut σ) : Prop := LikeW r.w r'.w ∧ r.idx = r'.idx ∧ r.flow = r'.flow

/-- Encoders that differ in their byte order. -/
def LikeE (e e' : Enc) : Prop := { e with be := false } = { e' with be := false }

theorem LikeE.refl (e : Enc) : LikeE e e := rfl

/-- Results that differ in these. -/
def LikeR {ρ : Type} : Option (Enc × Writer σ × ρ) → Option (Enc × Writer σ × ρ) → Prop
  | none, none => True
  | some (e, w, r), some (e', w', r') => LikeE e e' ∧ LikeW w w' ∧ r = r'
  | _, _ => False

theorem put_like {m m' : Mem} (h : SameCells m m') (i : Nat) {d d' : List UInt8} (hd : d.length = d'.length) :
    SameCells (put m i d) (put m' i d') := by
  intro j
  unfold put
  rw [← hd]
  split
  · rename_i hj
    rw [List.getElem?_eq_getElem (by omega), List.getElem?_eq_getElem (by omega)]
    rfl
  · exact h j

theorem writeLoop_like : ∀ (fuel : Nat) {w w' : Writer σ} (_ : LikeW w w') (idx : Nat) {d d' : List UInt8} (_ : d.length = d'.length),
    LikeO (writeLoop I fuel w idx d) (writeLoop I fuel w' idx d') := by
  intro fuel
  induction fuel with
  | zero =>
    intro w w' hw idx d d' hd
    unfold writeLoop
    rw [← hd]
    split
    · exact ⟨hw, rfl, rfl⟩
    · exact ⟨hw, rfl, rfl⟩
  | succ fuel ih =>
    intro w w' hw idx d d' hd
    unfold writeLoop
    rw [← hd, ← hw.1]
    split
    · simp only
      split
      · exact ⟨⟨rfl, hw.2⟩, rfl, rfl⟩
      · exact ⟨⟨rfl, hw.2⟩, rfl, rfl⟩
      · rename_i st map _
        have hp : SameCells (put w.mem idx (d.take (min map d.length))) (put w'.mem idx (d'.take (min map d.length))) :=
          put_like hw.2 idx (by simp [hd])
        split
        · split
          · exact ih (likeW st hp) _ (by simp [hd])
          · exact ⟨⟨rfl, hp⟩, rfl, rfl⟩
        · exact ⟨⟨rfl, hw.2⟩, rfl, rfl⟩
    · exact ⟨hw, rfl, rfl⟩

theorem write_like {w w' : Writer σ} (h : LikeW w w') (idx : Nat) {d d' : List UInt8} (hd : d.length = d'.length) :
    LikeO (write I w idx d) (write I w' idx d') := by
  unfold write
  rw [← hd]
  exact writeLoop_like _ h idx hd

theorem fillLoop_like (b : UInt8) : ∀ (fuel : Nat) {w w' : Writer σ} (_ : LikeW w w') (idx len : Nat),
    LikeO (fillLoop I fuel w idx len b) (fillLoop I fuel w' idx len b) := by
  intro fuel
  induction fuel with
  | zero =>
    intro w w' hw idx len
    unfold fillLoop
    split
    · exact ⟨hw, rfl, rfl⟩
    · exact ⟨hw, rfl, rfl⟩
  | succ fuel ih =>
    intro w w' hw idx len
    unfold fillLoop
    rw [← hw.1]
    split
    · simp only
      split
      · exact ⟨⟨rfl, hw.2⟩, rfl, rfl⟩
      · exact ⟨⟨rfl, hw.2⟩, rfl, rfl⟩
      · rename_i st map _
        have hp : SameCells (put w.mem idx (List.replicate (min map len) b)) (put w'.mem idx (List.replicate (min map len) b)) :=
          put_like hw.2 idx rfl
        split
        · split
          · exact ih (likeW st hp) _ _
          · exact ⟨⟨rfl, hp⟩, rfl, rfl⟩
        · exact ⟨⟨rfl, hw.2⟩, rfl, rfl⟩
    · exact ⟨hw, rfl, rfl⟩

theorem zero_like {w w' : Writer σ} (h : LikeW w w') (idx len : Nat) : LikeO (zero I w idx len) (zero I w' idx len) :=
  fillLoop_like 0 len h idx len

theorem align_like {w w' : Writer σ} (h : LikeW w w') (idx exp : Nat) : LikeO (alignExp2 I w idx exp) (alignExp2 I w' idx exp) := by
  unfold alignExp2
  split
  · exact ⟨h, rfl, rfl⟩
  · split
    · exact ⟨h, rfl, rfl⟩
    · exact zero_like h _ _

theorem inner_like {ι : Type} (T : Iter ι) (stop : Nat) : ∀ (n : Nat) (it : ι) {m m' : Mem} (_ : SameCells m m') (idx : Nat),
    SameCells (iterInner T stop n it m idx).mem (iterInner T stop n it m' idx).mem
    ∧ (iterInner T stop n it m idx).it = (iterInner T stop n it m' idx).it
    ∧ (iterInner T stop n it m idx).idx = (iterInner T stop n it m' idx).idx
    ∧ (iterInner T stop n it m idx).ok = (iterInner T stop n it m' idx).ok := by
  intro n
  induction n with
  | zero => exact fun it m m' h idx => ⟨h, rfl, rfl, rfl⟩
  | succ n ih =>
    intro it m m' h idx
    unfold iterInner
    cases hx : T.next it with
    | none => exact ⟨h, rfl, rfl, rfl⟩
    | some p =>
      obtain ⟨o, it'⟩ := p
      cases o with
      | none => exact ⟨h, rfl, rfl, rfl⟩
      | some b =>
        simp only
        split
        · exact ih it' (put_like h _ rfl) _
        · exact ⟨put_like h _ rfl, rfl, rfl, rfl⟩

theorem iterLoop_like {ι : Type} (T : Iter ι) : ∀ (fuel : Nat) {w w' : Writer σ} (_ : LikeW w w') (idx : Nat) (it : ι),
    LikeO (writeIterLoop I T fuel w idx it) (writeIterLoop I T fuel w' idx it) := by
  intro fuel
  induction fuel with
  | zero => exact fun h idx it => ⟨h, rfl, rfl⟩
  | succ fuel ih =>
    intro w w' h idx it
    unfold writeIterLoop
    rw [← h.1]
    cases T.hint it with
    | none => exact ⟨h, rfl, rfl⟩
    | some n =>
      cases n with
      | zero =>
        simp only
        split
        · exact ⟨h, rfl, rfl⟩
        · exact ⟨h, rfl, rfl⟩
      | succ n =>
        simp only
        split
        · exact ⟨⟨rfl, h.2⟩, rfl, rfl⟩
        · exact ⟨⟨rfl, h.2⟩, rfl, rfl⟩
        · rename_i st map _
          have q := inner_like T (idx + map) (min (n + 1) map) it h.2 idx
          rw [← q.2.1, ← q.2.2.1, ← q.2.2.2]
          split
          · split
            · exact ih (likeW st q.1) _ _
            · exact ⟨⟨rfl, q.1⟩, rfl, rfl⟩
          · exact ⟨⟨rfl, h.2⟩, rfl, rfl⟩

theorem iter_like {ι : Type} (T : Iter ι) {w w' : Writer σ} (h : LikeW w w') (idx : Nat) (it : ι) :
    LikeO (writeIter I T w idx it) (writeIter I T w' idx it) := by
  unfold writeIter
  split
  · exact ⟨h, rfl, rfl⟩
  · exact iterLoop_like T _ h idx it

theorem io_like {e e' : Enc} (he : LikeE e e') {r r' : WriteOut σ} (hr : LikeO r r') {k k' : Writer σ → Nat → Step σ}
    (hk : ∀ w w' idx, LikeW w w' → LikeR (k w idx) (k' w' idx)) : LikeR (e.io r k) (e'.io r' k') := by
  obtain ⟨hw, hi, hf⟩ := hr
  unfold Enc.io
  rw [← hf, ← hi]
  split
  · exact hk _ _ _ hw
  · exact ⟨he, hw, rfl⟩
  · trivial

theorem LikeE.parts {e e' : Enc} (h : LikeE e e') : ∃ b, e' = { e with be := b } := by
  refine ⟨e'.be, ?_⟩
  unfold LikeE at h
  cases e; cases e'
  simp only [Enc.mk.injEq] at h
  obtain ⟨rfl, _, rfl, rfl, rfl, rfl, rfl⟩ := h
  rfl

theorem num_len (be : Bool) (w v : Nat) : (enNum be w v).length = w := by
  have h : ∀ w v, (leBytes w v).length = w := by
    intro w
    induction w with
    | zero => intro; rfl
    | succ w ih => intro v; simp [leBytes, ih]
  unfold enNum
  cases be <;> simp [h]

theorem expect_like {e e' : Enc} (he : LikeE e e') {w w' : Writer σ} (hw : LikeW w w') (el : Element) {k k' : Step σ}
    (hk : LikeR k k') : LikeR (e.expect w el k) (e'.expect w' el k') := by
  obtain ⟨b, rfl⟩ := he.parts
  unfold Enc.expect
  simp only
  split
  · trivial
  · split
    · exact ⟨rfl, hw, rfl⟩
    · exact hk

theorem advance_like {e e' : Enc} (he : LikeE e e') {w w' : Writer σ} (hw : LikeW w w') (idx : Nat) :
    LikeR (e.advance w idx) (e'.advance w' idx) := by
  obtain ⟨b, rfl⟩ := he.parts
  unfold Enc.advance
  simp only
  split
  · trivial
  · exact ⟨rfl, hw, rfl⟩

theorem fixed_like {e e' : Enc} (he : LikeE e e') {w w' : Writer σ} (hw : LikeW w w') (el : Element) {d d' : List UInt8}
    (hd : d.length = d'.length) : LikeR (e.fixed I w el d) (e'.fixed I w' el d') := by
  have hl : e'.level = e.level := by obtain ⟨b, rfl⟩ := he.parts; rfl
  unfold Enc.fixed
  rw [hl]
  exact expect_like he hw el <| io_like he (align_like hw _ _) fun w w' idx hw =>
    io_like he (write_like hw _ hd) fun w w' idx hw => advance_like he hw idx

theorem str8_like {e e' : Enc} (he : LikeE e e') {w w' : Writer σ} (hw : LikeW w w') (el : Element) {d d' : List UInt8}
    (hd : d.length = d'.length) : LikeR (e.str8 I w el d) (e'.str8 I w' el d') := by
  have hl : e'.level = e.level := by obtain ⟨b, rfl⟩ := he.parts; rfl
  unfold Enc.str8
  rw [hl, ← hd]
  refine expect_like he hw el ?_
  split
  · exact io_like he (align_like hw _ _) fun w w' idx hw =>
      io_like he (write_like hw _ (by rw [num_len, num_len])) fun w w' idx hw =>
      io_like he (write_like hw _ hd) fun w w' idx hw =>
      io_like he (zero_like hw _ _) fun w w' idx hw => advance_like he hw idx
  · exact ⟨he, hw, rfl⟩

theorem str32_like {e e' : Enc} (he : LikeE e e') {w w' : Writer σ} (hw : LikeW w w') (el : Element) {d d' : List UInt8}
    (hd : d.length = d'.length) : LikeR (e.str32 I w el d) (e'.str32 I w' el d') := by
  have hl : e'.level = e.level := by obtain ⟨b, rfl⟩ := he.parts; rfl
  unfold Enc.str32
  rw [hl, ← hd]
  refine expect_like he hw el ?_
  split
  · exact io_like he (align_like hw _ _) fun w w' idx hw =>
      io_like he (write_like hw _ (by rw [num_len, num_len])) fun w w' idx hw =>
      io_like he (write_like hw _ hd) fun w w' idx hw =>
      io_like he (zero_like hw _ _) fun w w' idx hw => advance_like he hw idx
  · exact ⟨he, hw, rfl⟩

theorem variant_like {e e' : Enc} (he : LikeE e e') {w w' : Writer σ} (hw : LikeW w w') (s : Sig) :
    LikeR (e.variant I w s) (e'.variant I w' s) := by
  have hl : e'.level = e.level := by obtain ⟨b, rfl⟩ := he.parts; rfl
  have hu : ∀ c lv st, LikeE { e with cursor := c, level := lv, stack := (.variant, e.level, some e.cursor) :: st }
      { e' with cursor := c, level := lv, stack := (.variant, e'.level, some e'.cursor) :: st } := by
    intro c lv st
    obtain ⟨b, rfl⟩ := he.parts; rfl
  have hs : e'.stack = e.stack := by obtain ⟨b, rfl⟩ := he.parts; rfl
  unfold Enc.variant
  refine expect_like he hw _ ?_
  cases s.len with
  | none => trivial
  | some n =>
    simp only
    split
    · rw [hl]
      refine io_like he (align_like hw _ _) fun w w' idx hw =>
        io_like he (write_like hw _ (by rw [num_len, num_len])) fun w w' idx hw => ?_
      cases Cursor.new s with
      | none => trivial
      | some c =>
        refine io_like he (iter_like _ hw _ _) fun w w' idx hw => io_like he (zero_like hw _ _) fun w w' idx hw => ⟨?_, hw, rfl⟩
        rw [hs, ← hl]
        have := hu c ⟨idx, idx, idx⟩ e.stack
        rwa [hl] at this ⊢
    · exact ⟨he, hw, rfl⟩

theorem array_like {e e' : Enc} (he : LikeE e e') {w w' : Writer σ} (hw : LikeW w w') :
    LikeR (e.array I w) (e'.array I w') := by
  obtain ⟨b, rfl⟩ := he.parts
  unfold Enc.array
  refine expect_like he hw _ ?_
  simp only
  split
  · trivial
  · trivial
  · refine io_like he (align_like hw _ _) fun w w' idx hw =>
      io_like he (write_like hw _ (by rw [num_len, num_len])) fun w w' idx hw =>
      io_like he (align_like hw _ _) fun w w' idx hw => ?_
    split
    · trivial
    · exact ⟨rfl, hw, rfl⟩

theorem bracket_like {e e' : Enc} (he : LikeE e e') {w w' : Writer σ} (hw : LikeW w w') (el : Element) :
    LikeR (e.bracket I w el) (e'.bracket I w' el) := by
  obtain ⟨b, rfl⟩ := he.parts
  unfold Enc.bracket
  refine expect_like he hw _ ?_
  simp only
  split
  · trivial
  · trivial
  · refine io_like he (align_like hw _ _) fun w w' idx hw => ?_
    split
    · trivial
    · exact ⟨rfl, hw, rfl⟩

theorem pop_like {e e' : Enc} (he : LikeE e e') {w w' : Writer σ} (hw : LikeW w w') (l : Level) (c : Option Cursor)
    (st : List (Element × Level × Option Cursor)) : LikeR (e.pop w l c st) (e'.pop w' l c st) := by
  obtain ⟨b, rfl⟩ := he.parts
  unfold Enc.pop
  simp only
  split
  · trivial
  · split
    · trivial
    · exact ⟨rfl, hw, rfl⟩

theorem close_like {e e' : Enc} (he : LikeE e e') {w w' : Writer σ} (hw : LikeW w w') :
    LikeR (e.close I w) (e'.close I w') := by
  obtain ⟨b, rfl⟩ := he.parts
  unfold Enc.close
  simp only
  split
  · trivial
  · exact ⟨rfl, hw, rfl⟩
  · split
    · exact ⟨rfl, hw, rfl⟩
    · split
      · exact pop_like he hw _ _ _
      · split
        · trivial
        · split
          · split
            · exact io_like he (write_like hw _ (by rw [num_len, num_len])) fun w w' _ hw => pop_like he hw _ _ _
            · exact ⟨rfl, hw, rfl⟩
          · exact pop_like he hw _ _ _
      · exact pop_like he hw _ _ _
      · exact pop_like he hw _ _ _
      · trivial

theorem commit_like {e e' : Enc} (he : LikeE e e') {w w' : Writer σ} (hw : LikeW w w') :
    LikeR (e.commit I w) (e'.commit I w') := by
  obtain ⟨b, rfl⟩ := he.parts
  unfold Enc.commit
  simp only [hw.1]
  split
  · trivial
  · split
    · exact ⟨rfl, hw, rfl⟩
    · split
      · exact ⟨rfl, hw, rfl⟩
      · split
        · exact ⟨rfl, ⟨rfl, hw.2⟩, rfl⟩
        · exact ⟨rfl, hw, rfl⟩

/-- Sub-encoders of both. -/
theorem sub_like {e : Enc} (b : Bool) : ({ e with be := b } : Enc).sub = e.sub.map fun x => x.map fun x => { x with be := b } := by
  unfold Enc.sub
  simp only
  cases e.cursor.idx_step with
  | none => rfl
  | some step =>
    cases e.cursor.sigAt with
    | none => rfl
    | some v =>
      cases v with
      | none => rfl
      | some v =>
        simp only [Option.bind_eq_bind, Option.bind_some]
        cases Cursor.new v <;> rfl

theorem subWith_like {e : Enc} (b : Bool) (s : Sig) :
    ({ e with be := b } : Enc).subWith s = (e.subWith s).map fun x => x.map fun x => { x with be := b } := by
  unfold Enc.subWith
  simp only [sub_like]
  cases e.cursor.sigAt with
  | none => rfl
  | some v =>
    cases v with
    | none => rfl
    | some v =>
      simp only [Option.bind_eq_bind, Option.bind_some]
      cases s.eq v with
      | none => rfl
      | some c => cases c <;> rfl

theorem merge_like {e e' x x' : Enc} (he : LikeE e e') (hx : LikeE x x') (step : Option Nat) :
    LikeE (e.merge x step) (e'.merge x' step) := by
  obtain ⟨b, rfl⟩ := he.parts
  obtain ⟨c, rfl⟩ := hx.parts
  unfold Enc.merge
  simp only
  split
  · rfl
  · rfl

theorem LikeR.map {a b : Step σ} (h : LikeR a b) :
    LikeR (a.map fun (e, w, r) => (e, w, Out.res r)) (b.map fun (e, w, r) => (e, w, Out.res r)) := by
  match a, b, h with
  | none, none, _ => trivial
  | some (e, w, r), some (e', w', r'), ⟨h1, h2, h3⟩ => exact ⟨h1, h2, by rw [h3]⟩
  | none, some _, h => exact h.elim
  | some _, none, h => exact h.elim

mutual
theorem run_like : (op : Op) → ∀ {op' : Op} {e e' : Enc} {w w' : Writer σ}, op.shape = op'.shape → LikeE e e' → LikeW w w' →
    LikeR (op.run I e w) (op'.run I e' w')
  | .u16 v, op', e, e', w, w', hs, he, hw => by
    cases op' <;> simp [Op.shape] at hs
    exact (fixed_like he hw _ (by rw [num_len, num_len])).map
  | .u32 v, op', e, e', w, w', hs, he, hw => by
    cases op' <;> simp [Op.shape] at hs
    exact (fixed_like he hw _ (by rw [num_len, num_len])).map
  | .u64 v, op', e, e', w, w', hs, he, hw => by
    cases op' <;> simp [Op.shape] at hs
    exact (fixed_like he hw _ (by rw [num_len, num_len])).map
  | .string s, op', e, e', w, w', hs, he, hw => by
    cases op' <;> simp [Op.shape] at hs
    exact (str32_like he hw _ hs).map
  | .object s, op', e, e', w, w', hs, he, hw => by
    cases op' <;> simp [Op.shape] at hs
    exact (str32_like he hw _ hs).map
  | .signature s, op', e, e', w, w', hs, he, hw => by
    cases op' <;> simp [Op.shape] at hs
    exact (str8_like he hw _ hs).map
  | .variant s, op', e, e', w, w', hs, he, hw => by
    cases op' <;> simp [Op.shape] at hs
    subst hs
    exact (variant_like he hw s).map
  | .array, op', e, e', w, w', hs, he, hw => by
    cases op' <;> simp [Op.shape] at hs
    exact (array_like he hw).map
  | .structure, op', e, e', w, w', hs, he, hw => by
    cases op' <;> simp [Op.shape] at hs
    exact (bracket_like he hw _).map
  | .dict, op', e, e', w, w', hs, he, hw => by
    cases op' <;> simp [Op.shape] at hs
    exact (bracket_like he hw _).map
  | .close, op', e, e', w, w', hs, he, hw => by
    cases op' <;> simp [Op.shape] at hs
    exact (close_like he hw).map
  | .commit, op', e, e', w, w', hs, he, hw => by
    cases op' <;> simp [Op.shape] at hs
    exact (commit_like he hw).map
  | .sub s ops, op', e, e', w, w', hs, he, hw => by
    cases op' with
    | sub s' ops' =>
      simp only [Op.shape, Op.sub.injEq] at hs
      obtain ⟨rfl, hs⟩ := hs
      have ih := @runs_like ops ops'
      obtain ⟨b, rfl⟩ := id he.parts
      have key : ∀ o : Option (Option Enc), LikeR
          (match o with
            | none => none
            | some none => some (e, w, Out.res (.brk (some .mismatch)))
            | some (some x) =>
              match Op.runs I ops x w with
              | none => none
              | some (x', w, outs) => some (e.merge x' (x.link.bind id), w, .sub outs))
          (match o.map fun x => x.map fun x => { x with be := b } with
            | none => none
            | some none => some ({ e with be := b }, w', Out.res (.brk (some .mismatch)))
            | some (some x) =>
              match Op.runs I ops' x w' with
              | none => none
              | some (x', w, outs) => some (({ e with be := b } : Enc).merge x' (x.link.bind id), w, .sub outs)) := by
        intro o
        match o with
        | none => trivial
        | some none => exact ⟨he, hw, rfl⟩
        | some (some x) =>
          have q := @ih x { x with be := b } w w' hs rfl hw
          simp only [Option.map_some]
          revert q
          generalize Op.runs I ops x w = A
          generalize Op.runs I ops' { x with be := b } w' = B
          intro q
          match A, B, q with
          | none, none, _ => trivial
          | some (e, w, r), some (e', w', r'), ⟨h1, h2, h3⟩ => exact ⟨merge_like he h1 _, h2, by rw [h3]⟩
          | none, some _, h => exact h.elim
          | some _, none, h => exact h.elim
      cases s with
      | none =>
        have := key e.sub
        rw [← sub_like] at this
        exact this
      | some s =>
        have := key (e.subWith s)
        rw [← subWith_like] at this
        exact this
    | _ => simp [Op.shape] at hs
theorem runs_like : (ops : List Op) → ∀ {ops' : List Op} {e e' : Enc} {w w' : Writer σ}, Op.shapes ops = Op.shapes ops' → LikeE e e' →
    LikeW w w' → LikeR (Op.runs I ops e w) (Op.runs I ops' e' w')
  | [], ops', e, e', w, w', hs, he, hw => by
    cases ops' with
    | nil => exact ⟨he, hw, rfl⟩
    | cons => simp [Op.shapes] at hs
  | op :: ops, ops', e, e', w, w', hs, he, hw => by
    cases ops' with
    | nil => simp [Op.shapes] at hs
    | cons op' ops' =>
      simp only [Op.shapes, List.cons.injEq] at hs
      have q := @run_like op op' e e' w w' hs.1 he hw
      have ih := fun {e e' w w'} => @runs_like ops ops' e e' w w' hs.2
      unfold Op.runs
      revert q
      generalize op.run I e w = A
      generalize op'.run I e' w' = B
      intro q
      match A, B, q with
      | none, none, _ => trivial
      | some (e, w, r), some (e', w', r'), ⟨h1, h2, h3⟩ =>
        have q := ih h1 h2
        simp only
        revert q
        generalize Op.runs I ops e w = A
        generalize Op.runs I ops' e' w' = B
        intro q
        match A, B, q with
        | none, none, _ => trivial
        | some (e, w, r), some (e', w', r'), ⟨h1, h2, h4⟩ => exact ⟨h1, h2, by rw [h3, h4]⟩
        | none, some _, h => exact h.elim
        | some _, none, h => exact h.elim
      | none, some _, h => exact h.elim
      | some _, none, h => exact h.elim
end

end Verif.Dbus.Shape
