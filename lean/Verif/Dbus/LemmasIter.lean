import Verif.Dbus.SpecIter
import Verif.Dbus.PropsCursor
/-! # Lemmas: cursors as iterators -/
namespace Verif.Dbus

theorem next_eq {s : Sig} {t : Ty} (h : View s t) (i : Nat) :
    Cursor.next ⟨s, i⟩ = some (t.els[i]?, ⟨s, if i < s.kind.coeff * t.size then i + 1 else i⟩) := by
  unfold Cursor.next Cursor.element Cursor.move_next Cursor.idx_next
  simp only [h.rep.element_at, h.rep.len, Option.bind_eq_bind, Option.bind_some]
  by_cases hi : i < s.kind.coeff * t.size
  · simp only [hi, if_true, Option.map_some, Cursor.maybe_move, Option.bind_some]
  · simp only [hi, if_false, Option.map_some, Cursor.maybe_move, Option.bind_some]

theorem els_get (t : Ty) (i : Nat) : t.els[i]?.map Element.code = t.bytes[i]? := by
  rw [← els_code, List.getElem?_map]

theorem moves_total {s : Sig} {t : Ty} (h : View s t) (i : Nat) :
    (∃ r, Cursor.idx_step ⟨s, i⟩ = some r ∧ ∀ j, r = some j → j ≤ t.size)
    ∧ (∃ r, Cursor.idx_down ⟨s, i⟩ = some r ∧ ∀ j, r = some j → j ≤ t.size)
    ∧ ∃ r, Cursor.idx_up ⟨s, i⟩ = some r ∧ ∀ j, r = some j → j ≤ t.size := by
  by_cases hi : i < t.bytes.length
  · rcases every_index t i hi with ⟨u, ho⟩ | ⟨u, j, ho, hb, rfl⟩
    · have hd := (move_down h ho).1
      rw [bytes_length] at hi
      have hdown : ∃ r, Cursor.idx_down ⟨s, i⟩ = some r ∧ ∀ j, r = some j → j ≤ t.size := by
        refine ⟨_, hd, fun j hj => ?_⟩
        cases hc : u.container with
        | false => rw [hc] at hj; cases hj
        | true =>
          rw [hc] at hj
          have : j = i + 1 := by simpa using hj.symm
          omega
      cases ho with
      | root =>
        obtain ⟨_, h2, _, _, h5⟩ := at_root h
        refine ⟨⟨_, h5, fun j hj => ?_⟩, hdown, ⟨_, h2, fun j hj => by cases hj⟩⟩
        cases hj; rw [bytes_length]; exact Nat.le_refl _
      | @child u' _ i' o p ho' hc =>
        obtain ⟨h1, _, _, _, h5, _⟩ := at_member h ho' hc
        refine ⟨⟨_, h5, fun j hj => ?_⟩, hdown, ⟨_, h1, fun j hj => by cases hj; omega⟩⟩
        have hbound := occ_bound (Occ.child ho' hc)
        cases hb : u'.bracketed with
        | false => rw [hb] at hj; cases hj
        | true =>
          rw [hb] at hj
          have : j = i' + o + u.bytes.length := by simpa using hj.symm
          rw [bytes_length] at this
          omega
    · obtain ⟨h1, h2, h3, _⟩ := at_close h ho hb
      refine ⟨⟨_, h2, fun j hj => by cases hj⟩, ⟨_, h3, fun j hj => by cases hj⟩, ⟨_, h1, fun k hj => ?_⟩⟩
      cases hj
      rw [bytes_length t] at hi
      omega
  · obtain ⟨_, h1, h2, h3, _⟩ := at_end h (Nat.le_of_not_lt hi)
    exact ⟨⟨_, h3, fun j hj => by cases hj⟩, ⟨_, h2, fun j hj => by cases hj⟩, ⟨_, h1, fun j hj => by cases hj⟩⟩

theorem move_ok {s : Sig} {t : Ty} (h : View s t) {c : Cursor} (hc : c.sig = s) (r : Option Nat) {n : Nat} (hi : c.idx ≤ n)
    (hr : ∀ j, r = some j → j ≤ n) : ∃ j, c.maybe_move r = ⟨s, j⟩ ∧ j ≤ n := by
  subst hc
  cases r with
  | none => exact ⟨c.idx, rfl, hi⟩
  | some j => exact ⟨j, rfl, hr j rfl⟩

theorem within_rep {r s : Sig} (hw : Within r s) : ∀ {t : Ty}, View r t → ∃ u, View s u ∧ s.kind = r.kind := by
  induction hw with
  | self => exact fun h => ⟨_, h, rfl⟩
  | @sub s s' i _ hs ih =>
    intro t h
    obtain ⟨u, hu, hk⟩ := ih h
    have hb : i < u.bytes.length := by
      apply Nat.lt_of_not_le
      intro hle
      rw [bytes_length] at hle
      have := (sub_signature hu (Occ.root u)).2.2 i hle
      unfold Cursor.sigAt at this
      rw [this] at hs
      cases hs
    rcases every_index u i hb with ⟨w, ho⟩ | ⟨w, j, ho, hbr, rfl⟩
    · obtain ⟨s'', h1, h2, _⟩ := occ_at hu.rep ho
      refine ⟨w, .sub hu ho hs, ?_⟩
      rw [h1, Option.some.injEq, Option.some.injEq] at hs
      rw [← hs, h2, hk]
    · have := (sub_signature hu ho).2.1 hbr
      unfold Cursor.sigAt at this
      rw [bytes_length] at hs
      rw [this] at hs
      cases hs

end Verif.Dbus
