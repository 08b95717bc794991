import Verif.Dbus.LemmasIter
/-! # Properties of cursors as iterators (C81) -/
namespace Verif.Dbus

/-- C81. From every index, `next` yields the codes of the signature from there on, in order, each exactly once, and nothing
ever after: the iterator is fused. This holds for every signature, for sub-signatures, and for indices past the end. -/
theorem iterates {s : Sig} {t : Ty} (h : View s t) (n i : Nat) : ∃ l, Cursor.yields n ⟨s, i⟩ = some l
    ∧ l.map (·.map Element.code) = (List.range n).map fun k => t.bytes[i + k]? := by
  induction n generalizing i with
  | zero => exact ⟨[], rfl, rfl⟩
  | succ n ih =>
    have hsz := h.rep.size_le_len
    by_cases hi : i < s.kind.coeff * t.size
    · obtain ⟨l, hl, hm⟩ := ih (i + 1)
      refine ⟨t.els[i]? :: l, ?_, ?_⟩
      · unfold Cursor.yields
        rw [next_eq h, if_pos hi, Option.bind_some, hl]; rfl
      · rw [List.map_cons, hm, els_get, List.range_succ_eq_map, List.map_cons, List.map_map]
        congr 1
        apply List.map_congr_left
        intro k _
        rw [Function.comp, Nat.add_right_comm, Nat.add_assoc]
    · obtain ⟨l, hl, hm⟩ := ih i
      refine ⟨t.els[i]? :: l, ?_, ?_⟩
      · unfold Cursor.yields
        rw [next_eq h, if_neg hi, Option.bind_some, hl]; rfl
      · rw [List.map_cons, hm, els_get, List.range_succ_eq_map, List.map_cons, List.map_map]
        congr 1
        apply List.map_congr_left
        intro k _
        rw [Function.comp, List.getElem?_eq_none (by rw [bytes_length]; omega),
          List.getElem?_eq_none (by rw [bytes_length]; omega)]

/-- C81. No move ever panics, and cursors that begin within the signature never leave what it reports as its length, in
every history of moves. -/
theorem moves_stay {s : Sig} {t : Ty} (h : View s t) (n : Nat) (hn : s.len = some n) (ms : List Move) :
    ∀ i, i ≤ n → ∃ j, Move.runs ms ⟨s, i⟩ = some ⟨s, j⟩ ∧ j ≤ n := by
  have hl := h.rep.len
  rw [hn, Option.some.injEq] at hl
  have hsz := h.rep.size_le_len
  rw [← hl] at hsz
  induction ms with
  | nil => intro i hi; exact ⟨i, rfl, hi⟩
  | cons m ms ih =>
    intro i hi
    suffices hm : ∃ j, m.run ⟨s, i⟩ = some ⟨s, j⟩ ∧ j ≤ n by
      obtain ⟨j, hj, hle⟩ := hm
      obtain ⟨k, hk⟩ := ih j hle
      exact ⟨k, by rw [Move.runs, hj]; exact hk.1, hk.2⟩
    obtain ⟨⟨r1, s1, b1⟩, ⟨r2, s2, b2⟩, ⟨r3, s3, b3⟩⟩ := moves_total h i
    have hnx := next_eq h i
    rw [← hl] at hnx
    cases m with
    | next =>
      refine ⟨_, by rw [Move.run, hnx]; rfl, ?_⟩
      split <;> omega
    | moveNext =>
      unfold Cursor.next at hnx
      simp only [Option.bind_eq_bind, Option.bind_eq_some_iff, Option.some.injEq, Prod.mk.injEq] at hnx
      obtain ⟨_, _, c, hc, _, hcc⟩ := hnx
      refine ⟨_, by rw [Move.run, hc, hcc], ?_⟩
      split <;> omega
    | movePrev =>
      unfold Move.run Cursor.move_prev Cursor.idx_prev
      simp only [Option.map_some]
      obtain ⟨j, hj, hle⟩ := move_ok (c := ⟨s, i⟩) h rfl (if i > 0 then some (i - 1) else none) hi (fun j hj => by
        split at hj
        · cases hj; omega
        · cases hj)
      exact ⟨j, by rw [hj], hle⟩
    | moveStep =>
      obtain ⟨j, hj, hle⟩ := move_ok (c := ⟨s, i⟩) h rfl r1 hi fun j hj => Nat.le_trans (b1 j hj) hsz
      exact ⟨j, by rw [Move.run, Cursor.move_step, s1, Option.map_some, hj], hle⟩
    | moveDown =>
      obtain ⟨j, hj, hle⟩ := move_ok (c := ⟨s, i⟩) h rfl r2 hi fun j hj => Nat.le_trans (b2 j hj) hsz
      exact ⟨j, by rw [Move.run, Cursor.move_down, s2, Option.map_some, hj], hle⟩
    | moveUp =>
      obtain ⟨j, hj, hle⟩ := move_ok (c := ⟨s, i⟩) h rfl r3 hi fun j hj => Nat.le_trans (b3 j hj) hsz
      exact ⟨j, by rw [Move.run, Cursor.move_up, s3, Option.map_some, hj], hle⟩

/-- C81. The hint of a cursor is the reported length without what was passed; for an index past it, which `move_to` can
set, asking for the hint overflows. -/
theorem hint_is {s : Sig} {t : Ty} (h : View s t) (n : Nat) (hn : s.len = some n) (c : Cursor) (hc : c.sig = s) (i : Nat) :
    (c.move_to i).size_hint = if i ≤ n then some (n - i) else none := by
  subst hc
  unfold Cursor.size_hint Cursor.move_to
  simp only [hn, Option.bind_eq_bind, Option.bind_some, strictSub]

/-- C81, partial. On signatures of at most 31 codes, and all signatures taken from them, the hint is exact in every history of
moves: it is the number of elements that are left. -/
theorem hint_exact_partial (bs : List UInt8) (h : bs.length ≤ 31) (r s : Sig) (hr : Sig.new bs = .ok r) (hw : Within r s)
    (ms : List Move) : ∃ t, View s t ∧ ∃ c, Cursor.new s = some c ∧ ∃ j, Move.runs ms c = some ⟨s, j⟩
      ∧ Cursor.size_hint ⟨s, j⟩ = some (t.bytes.drop j).length := by
  have hm : bs.length ≤ maxLength := Nat.le_trans h (by decide)
  obtain ⟨t, rfl⟩ := (accepts_iff bs hm).mp ⟨r, hr⟩
  have hv : View r t := .parsed hm hr
  obtain ⟨u, hu, hk⟩ := within_rep hw hv
  have hk8 : r.kind = .node8 := by
    rw [maxLength_eq, bytes_length] at hm
    rw [new_bytes t hm, Res.ok.injEq] at hr
    rw [← hr]
    simp only [ofTy]; unfold kindFor; rw [if_pos]
    rw [bytes_length] at h
    exact h
  have hl : s.len = some u.size := by rw [hu.rep.len, hk, hk8]; simp [Kind.coeff]
  refine ⟨u, hu, _, hu.rep.new, ?_⟩
  obtain ⟨j, hj, hle⟩ := moves_stay hu u.size hl ms 0 (Nat.zero_le _)
  refine ⟨j, hj, ?_⟩
  have := hint_is hu u.size hl ⟨s, j⟩ rfl j
  rw [if_pos hle] at this
  rw [List.length_drop, bytes_length]
  exact this

/-- C81, disagreement. On longer signatures, and all signatures taken from them, however short, the hint at the beginning is
six times the number of elements; and `next` moves the cursor past the end of the signature. -/
theorem hint_wrong (bs : List UInt8) (h : bs.length ≤ maxLength) (h8 : 31 < bs.length) (r s : Sig) (hr : Sig.new bs = .ok r)
    (hw : Within r s) : ∃ t, View s t ∧ Cursor.size_hint ⟨s, 0⟩ = some (6 * t.bytes.length)
      ∧ Cursor.next ⟨s, t.bytes.length⟩ = some (none, ⟨s, t.bytes.length + 1⟩) := by
  obtain ⟨t, rfl⟩ := (accepts_iff bs h).mp ⟨r, hr⟩
  have hv : View r t := .parsed h hr
  obtain ⟨u, hu, hk⟩ := within_rep hw hv
  have hk64 : r.kind = .node64 := by
    rw [maxLength_eq, bytes_length] at h
    rw [new_bytes t h, Res.ok.injEq] at hr
    rw [← hr]
    simp only [ofTy]; unfold kindFor; rw [if_neg]
    have : Kind.node8.lengthMax = 31 := by decide
    rw [bytes_length] at h8
    omega
  have hc : s.kind.coeff = 6 := by rw [hk, hk64]; rfl
  have hl : s.len = some (6 * u.size) := by rw [hu.rep.len, hc]
  refine ⟨u, hu, ?_, ?_⟩
  · have := hint_is hu _ hl ⟨s, 0⟩ rfl 0
    rw [if_pos (Nat.zero_le _)] at this
    rw [bytes_length]
    exact this
  · have hp := size_pos u
    rw [next_eq hu, hc, bytes_length, if_pos (by omega), List.getElem?_eq_none (by rw [els_length]; exact Nat.le_refl _)]

-- A signature, one taken from it, and a cursor that was moved.
example : ∃ r s, Sig.new (sb "(sas)") = .ok r ∧ Within r s ∧ s.text = some (sb "as")
    ∧ Move.runs [.moveDown] ⟨s, 0⟩ = some ⟨s, 1⟩ ∧ Cursor.size_hint ⟨s, 1⟩ = some 1 ∧ Cursor.size_hint ⟨s, 3⟩ = none :=
  ⟨_, _, rfl, .sub .self (i := 2) rfl, by decide, by rfl, by decide, by decide⟩

/-- Instances of `iterates` and `moves_stay`. -/
example := iterates (s := ofTy (.array (.struct [.basic .string, .variant]))) (.parsed (by decide) (new_bytes _ (by decide))) 9 2
example := moves_stay (s := ofTy (.array (.struct [.basic .string, .variant]))) (.parsed (by decide) (new_bytes _ (by decide))) 5 (by decide)
  [.moveDown, .moveDown, .moveStep, .moveUp]

end Verif.Dbus
