import Verif.Dbus.LemmasRep
import Verif.Dbus.PropsSig
/-! # Properties of cursors (C30)

`View s t`: `s` was obtained by parsing the signature of `t`, or is the sub-signature of another view. -/
namespace Verif.Dbus

inductive View : Sig → Ty → Prop
  | parsed {s : Sig} {t : Ty} : t.bytes.length ≤ maxLength → Sig.new t.bytes = .ok s → View s t
  | sub {s s' : Sig} {t u : Ty} {i : Nat} : View s t → Occ t i u → s.at_ i = some (some s') → View s' u

theorem View.rep {s : Sig} {t : Ty} (h : View s t) : Rep s t := by
  induction h with
  | @parsed s t h hs =>
    rw [maxLength_eq, bytes_length] at h
    rw [new_bytes t h, Res.ok.injEq] at hs
    exact hs ▸ rep_ofTy t
  | sub _ ho hs ih =>
    obtain ⟨s'', h1, _, h2⟩ := occ_at ih ho
    rw [h1, Option.some.injEq, Option.some.injEq] at hs
    exact hs ▸ h2

/-- C30. Sub-signatures exist for every sub-type and print as the sub-type; there is none for closing elements and
past the end. -/
theorem sub_signature {s : Sig} {t : Ty} (h : View s t) {i : Nat} {u : Ty} (ho : Occ t i u) :
    (∃ s', Cursor.sigAt ⟨s, i⟩ = some (some s') ∧ s'.text = some u.bytes)
    ∧ (u.bracketed = true → Cursor.sigAt ⟨s, i + (u.size - 1)⟩ = some none)
    ∧ ∀ j, t.size ≤ j → Cursor.sigAt ⟨s, j⟩ = some none := by
  obtain ⟨s', h1, _, h2⟩ := occ_at h.rep ho
  refine ⟨⟨s', h1, h2.text⟩, fun hb => ?_, fun j hj => ?_⟩
  · obtain ⟨d, hd, _⟩ := occ_close_node h.rep ho hb
    unfold Cursor.sigAt Sig.at_
    simp only [h.rep.node_at, hd, Option.bind_eq_bind, Option.bind_some]
    rw [all_core (show _ = mkF s.kind (clsEl d) &&& CORE from closeN_core _ d _ _) (by decide)]
    have : FlagSet.all (mkF s.kind (clsEl d)) FLAG_PREFIX = false := by
      rw [mkF_all _ _ (by decide)]; cases d <;> decide
    simp [this]
  · unfold Cursor.sigAt Sig.at_
    simp only [h.rep.node_at, Option.bind_eq_bind, Option.bind_some]
    rw [List.getElem?_eq_none (by rw [h.rep.length]; exact hj)]


/-! ## Moving -/

theorem child_pos {u w : Ty} {o p : Nat} (h : Child u o p w) : 0 < o ∧ u.container = true := by
  cases h <;> simp [Ty.container] <;> omega

theorem open_el (u : Ty) : FlagSet.all u.el.flags FLAG_OPEN = u.container ∧ FlagSet.all u.el.flags FLAG_CLOSE = false
    ∧ u.el.pair.isSome = u.bracketed := by
  cases u with
  | basic b => cases b <;> decide
  | _ => simp only [Ty.el, Ty.container, Ty.bracketed]; decide

/-- C30. Moving down from a container goes to its first code; there is no way down from other types. -/
theorem move_down {s : Sig} {t : Ty} (h : View s t) {i : Nat} {u : Ty} (ho : Occ t i u) :
    Cursor.idx_down ⟨s, i⟩ = some (if u.container then some (i + 1) else none)
    ∧ Cursor.move_down ⟨s, i⟩ = some ⟨s, if u.container then i + 1 else i⟩ := by
  have : Cursor.idx_down ⟨s, i⟩ = some (if u.container then some (i + 1) else none) := by
    obtain ⟨n, hn, hc⟩ := h.rep.node (occ_el ho)
    unfold Cursor.idx_down Cursor.flags_at
    simp only [h.rep.node_at, hn, Option.bind_eq_bind, Option.bind_some, Option.map_some]
    rw [open_of_core hc, (open_el u).1]
  refine ⟨this, ?_⟩
  unfold Cursor.move_down
  rw [this]
  cases u.container <;> rfl

/-- C30. Member number `p` of a container: moving up goes to the container, the position is `p`, the length is that
of the member's signature, and moving on goes past the member, unless the container holds a single type. -/
theorem at_member {s : Sig} {t : Ty} (h : View s t) {i o p : Nat} {u w : Ty} (ho : Occ t i u) (hc : Child u o p w) :
    Cursor.idx_up ⟨s, i + o⟩ = some (some i) ∧ Cursor.move_up ⟨s, i + o⟩ = some ⟨s, i⟩
    ∧ Cursor.position ⟨s, i + o⟩ = some (some p)
    ∧ Cursor.length ⟨s, i + o⟩ = some (some w.bytes.length)
    ∧ Cursor.idx_step ⟨s, i + o⟩ = some (if u.bracketed then some (i + o + w.bytes.length) else none)
    ∧ Cursor.move_step ⟨s, i + o⟩ = some ⟨s, if u.bracketed then i + o + w.bytes.length else i + o⟩ := by
  obtain ⟨hpos, _⟩ := child_pos hc
  have hn := occ_child_node h.rep ho hc
  have hne : i + o ≠ 0 := by omega
  have hoff : Cursor.offset_at ⟨s, i + o⟩ (i + o) = some (some o) := by
    unfold Cursor.offset_at
    rw [if_neg hne]
    simp only [h.rep.node_at, hn, Option.bind_eq_bind, Option.bind_some, Option.map_some, liftN, headN_offset]
  have hsub : strictSub (i + o) o = some i := by unfold strictSub; rw [if_pos (by omega)]; simp
  have hup : Cursor.idx_up ⟨s, i + o⟩ = some (some i) := by
    unfold Cursor.idx_up
    simp only [hoff, Option.bind_eq_bind, Option.bind_some]
    rw [if_pos hpos, hsub]; rfl
  have hlen : Cursor.length_at ⟨s, i + o⟩ (i + o) = some (some w.bytes.length) := by
    unfold Cursor.length_at
    simp only [h.rep.node_at, hn, Option.bind_eq_bind, Option.bind_some, Option.map_some, liftN, headN_length, bytes_length]
  have hfl : Cursor.flags_at ⟨s, i + o⟩ (i + o) = some (some (liftN (headN s.kind w o p)).flags) := by
    unfold Cursor.flags_at
    simp only [h.rep.node_at, hn, Option.bind_eq_bind, Option.bind_some, Option.map_some]
  have hcl : FlagSet.all (liftN (headN s.kind w o p)).flags FLAG_CLOSE = false := by
    rw [liftN, all_core (liftF_core _) (by decide), all_core (headN_core _ _ _ _) (by decide), mkF_all _ _ (by decide),
      (open_el w).2.1]
  have hstep : Cursor.idx_step ⟨s, i + o⟩ = some (if u.bracketed then some (i + o + w.bytes.length) else none) := by
    unfold Cursor.idx_step
    simp only [hoff, hfl, hlen, hsub, h.rep.element_at, occ_el ho, Option.bind_eq_bind, Option.bind_some, hcl]
    rw [if_neg (by omega)]
    have := (open_el u).2.2
    cases hb : u.bracketed with
    | false =>
      rw [hb] at this
      rw [if_pos (by rw [Option.isNone_iff_eq_none]; exact Option.not_isSome_iff_eq_none.mp (by simp [this]))]; rfl
    | true =>
      rw [hb] at this
      rw [if_neg (by intro hh; rw [Option.isNone_iff_eq_none] at hh; rw [hh] at this; cases this), if_neg (by simp)]; rfl
  refine ⟨hup, ?_, ?_, hlen, hstep, ?_⟩
  · unfold Cursor.move_up; rw [hup]; rfl
  · unfold Cursor.position Cursor.position_at
    simp only []
    rw [if_neg hne]
    simp only [h.rep.node_at, hn, Option.bind_eq_bind, Option.bind_some, Option.map_some, liftN, headN_position]
  · unfold Cursor.move_step; rw [hstep]; cases u.bracketed <;> rfl

/-- C30. The root: there is no way up, and moving on goes to the end. -/
theorem at_root {s : Sig} {t : Ty} (h : View s t) :
    Cursor.new s = some ⟨s, 0⟩ ∧ Cursor.idx_up ⟨s, 0⟩ = some none ∧ Cursor.position ⟨s, 0⟩ = some (some 0)
    ∧ Cursor.length ⟨s, 0⟩ = some (some t.bytes.length) ∧ Cursor.idx_step ⟨s, 0⟩ = some (some t.bytes.length) := by
  obtain ⟨n, hn, hc, hl⟩ := h.rep.split
  have h0 : s.nodes[0]? = some n := by rw [hn]; rfl
  have hlen : Cursor.length_at ⟨s, 0⟩ 0 = some (some t.bytes.length) := by
    unfold Cursor.length_at
    simp only [h.rep.node_at, h0, Option.bind_eq_bind, Option.bind_some, Option.map_some, hl, bytes_length]
  refine ⟨h.rep.new, rfl, rfl, hlen, ?_⟩
  unfold Cursor.idx_step Cursor.flags_at
  have e0 : t.els[0]? = some t.el := by rw [els_head]; rfl
  simp only [Cursor.offset_at, if_true, hlen, h.rep.node_at, h0, h.rep.element_at, strictSub, Nat.le_refl, Nat.sub_self,
    e0, Option.bind_eq_bind, Option.bind_some, Option.map_some]
  simp

/-- C30. The closing element of a structure or dict entry: moving up goes to its opening element, there is no way
down or on, and its position is the number of members. -/
theorem at_close {s : Sig} {t : Ty} (h : View s t) {i : Nat} {u : Ty} (ho : Occ t i u) (hb : u.bracketed = true) :
    Cursor.idx_up ⟨s, i + (u.bytes.length - 1)⟩ = some (some i)
    ∧ Cursor.idx_step ⟨s, i + (u.bytes.length - 1)⟩ = some none
    ∧ Cursor.idx_down ⟨s, i + (u.bytes.length - 1)⟩ = some none
    ∧ Cursor.position ⟨s, i + (u.bytes.length - 1)⟩ = some (some u.count)
    ∧ Cursor.length ⟨s, i + (u.bytes.length - 1)⟩ = some (some 1)
    ∧ ∃ e, Cursor.element ⟨s, i + (u.bytes.length - 1)⟩ = some (some e) ∧ e.pair = some u.el := by
  rw [bytes_length]
  obtain ⟨d, hn, hd⟩ := occ_close_node h.rep ho hb
  obtain ⟨_, _, _, _, hsz⟩ := tail_close s.kind hb
  generalize hq : u.size - 1 = q at *
  have hq0 : 0 < q := by omega
  have hne : i + q ≠ 0 := by omega
  have hco : (closeN s.kind d q u.count).flags &&& CORE = mkF s.kind (clsEl d) &&& CORE := closeN_core _ _ _ _
  have hfields : (closeN s.kind d q u.count).offset = q ∧ (closeN s.kind d q u.count).position = u.count
      ∧ (closeN s.kind d q u.count).length = 1 := by
    unfold closeN; simp only []; split <;> exact ⟨rfl, rfl, rfl⟩
  have hoff : Cursor.offset_at ⟨s, i + q⟩ (i + q) = some (some q) := by
    unfold Cursor.offset_at
    rw [if_neg hne]
    simp only [h.rep.node_at, hn, Option.bind_eq_bind, Option.bind_some, Option.map_some, hfields.1]
  have hsub : strictSub (i + q) q = some i := by unfold strictSub; rw [if_pos (by omega)]; simp
  have hfl : Cursor.flags_at ⟨s, i + q⟩ (i + q) = some (some (closeN s.kind d q u.count).flags) := by
    unfold Cursor.flags_at
    simp only [h.rep.node_at, hn, Option.bind_eq_bind, Option.bind_some, Option.map_some]
  have hlen : Cursor.length_at ⟨s, i + q⟩ (i + q) = some (some 1) := by
    unfold Cursor.length_at
    simp only [h.rep.node_at, hn, Option.bind_eq_bind, Option.bind_some, Option.map_some, hfields.2.2]
  have hcl : FlagSet.all (closeN s.kind d q u.count).flags FLAG_CLOSE = true := by
    rw [close_of_core hco]; cases d <;> decide
  have hop : FlagSet.all (closeN s.kind d q u.count).flags FLAG_OPEN = false := by
    rw [open_of_core hco]; cases d <;> decide
  refine ⟨?_, ?_, ?_, ?_, hlen, clsEl d, ?_, by rw [cls_pair, hd]⟩
  · unfold Cursor.idx_up
    simp only [hoff, Option.bind_eq_bind, Option.bind_some]
    rw [if_pos hq0, hsub]; rfl
  · unfold Cursor.idx_step
    simp only [hoff, hfl, hlen, hsub, h.rep.element_at, occ_el ho, Option.bind_eq_bind, Option.bind_some, hcl]
    rw [if_neg (by omega)]
    simp
  · unfold Cursor.idx_down
    simp only [hfl, Option.bind_eq_bind, Option.bind_some, hop]; rfl
  · unfold Cursor.position Cursor.position_at
    simp only []
    rw [if_neg hne]
    simp only [h.rep.node_at, hn, Option.bind_eq_bind, Option.bind_some, Option.map_some, hfields.2.1]
  · unfold Cursor.element Cursor.element_at
    simp only [h.rep.node_at, hn, Option.bind_eq_bind, Option.bind_some]
    rw [element_core hco, mkF_element]; rfl

/-- C30. Past the end there is nothing. -/
theorem at_end {s : Sig} {t : Ty} (h : View s t) {i : Nat} (hi : t.bytes.length ≤ i) :
    Cursor.element ⟨s, i⟩ = some none ∧ Cursor.idx_up ⟨s, i⟩ = some none ∧ Cursor.idx_down ⟨s, i⟩ = some none
    ∧ Cursor.idx_step ⟨s, i⟩ = some none ∧ Cursor.position ⟨s, i⟩ = some none ∧ Cursor.length ⟨s, i⟩ = some none := by
  rw [bytes_length] at hi
  have hn : s.nodes[i]? = none := List.getElem?_eq_none (by rw [h.rep.length]; exact hi)
  have hne : i ≠ 0 := by have := size_pos t; omega
  refine ⟨?_, ?_, ?_, ?_, ?_, ?_⟩
  all_goals
    simp [Cursor.element, Cursor.element_at, Cursor.idx_up, Cursor.idx_down, Cursor.idx_step, Cursor.position,
      Cursor.position_at, Cursor.length, Cursor.length_at, Cursor.offset_at, Cursor.flags_at, h.rep.node_at, hn, hne]

/-! ## Completeness: which indices there are, and where moves lead -/

theorem occ_trans {t u w : Ty} {i j : Nat} (h : Occ t i u) (h' : Occ u j w) : Occ t (i + j) w := by
  induction h' with
  | root => exact h
  | child _ hc ih => rw [← Nat.add_assoc]; exact .child ih hc

/-- What an index of a signature is: the beginning of a sub-type, or a closing element. -/
def Spot (t : Ty) (i : Nat) : Prop :=
  (∃ u, Occ t i u) ∨ ∃ u j, Occ t j u ∧ u.bracketed = true ∧ i = j + (u.size - 1)

theorem spot_child {u w : Ty} {o p i : Nat} (hc : Child u o p w) (h : Spot w i) : Spot u (o + i) := by
  have hu : Occ u o w := by have := Occ.child (.root u) hc; rwa [Nat.zero_add] at this
  rcases h with ⟨v, hv⟩ | ⟨v, j, hv, hb, rfl⟩
  · exact .inl ⟨v, occ_trans hu hv⟩
  · exact .inr ⟨v, o + j, occ_trans hu hv, hb, by omega⟩

mutual
theorem spots : (t : Ty) → (i : Nat) → i < t.size → Spot t i
  | t, 0, _ => .inl ⟨t, .root t⟩
  | .basic _, i + 1, h => by simp at h
  | .variant, i + 1, h => by simp at h
  | .array t, i + 1, h => by
    rw [Nat.add_comm]
    exact spot_child (.array t) (spots t i (by simp at h; omega))
  | .maybe t, i + 1, h => by
    rw [Nat.add_comm]
    exact spot_child (.maybe t) (spots t i (by simp at h; omega))
  | .struct ts, i + 1, h => by
    simp at h
    by_cases hi : i < sizes ts
    · obtain ⟨as, w, bs, j, hts, hj, hs⟩ := spotss ts i hi
      subst hts
      have := spot_child (.member as w bs) hs
      have e : 1 + (Ty.texts as).length + j = i + 1 := by rw [hj]; unfold sizes; omega
      rwa [e] at this
    · exact .inr ⟨.struct ts, 0, .root _, rfl, by simp; omega⟩
  | .dict b v, i + 1, h => by
    simp at h
    match i with
    | 0 => exact .inl ⟨.basic b, by have := Occ.child (.root (.dict b v)) (.key b v); rwa [Nat.zero_add] at this⟩
    | i + 1 =>
      by_cases hi : i < v.size
      · have := spot_child (.value b v) (spots v i hi)
        rwa [show 2 + i = i + 1 + 1 by omega] at this
      · exact .inr ⟨.dict b v, 0, .root _, rfl, by simp; omega⟩
theorem spotss : (ts : List Ty) → (i : Nat) → i < sizes ts →
    ∃ as w bs j, ts = as ++ w :: bs ∧ i = sizes as + j ∧ Spot w j
  | [], i, h => by simp at h
  | t :: ts, i, h => by
    simp at h
    by_cases hi : i < t.size
    · exact ⟨[], t, ts, i, rfl, by simp, spots t i hi⟩
    · obtain ⟨as, w, bs, j, hts, hj, hs⟩ := spotss ts (i - t.size) (by omega)
      exact ⟨t :: as, w, bs, j, by rw [hts]; rfl, by simp; omega, hs⟩
end

/-- C30. Every index of a signature is the beginning of a sub-type or the closing element of one, so that the
theorems above describe every position of a cursor. -/
theorem every_index (t : Ty) (i : Nat) (h : i < t.bytes.length) :
    (∃ u, Occ t i u) ∨ ∃ u j, Occ t j u ∧ u.bracketed = true ∧ i = j + (u.bytes.length - 1) := by
  rw [bytes_length] at h
  rcases spots t i h with h | ⟨u, j, h1, h2, h3⟩
  · exact .inl h
  · exact .inr ⟨u, j, h1, h2, by rw [bytes_length]; exact h3⟩

/-- C30. Moving down and on visits the members in order: the first member is one code after the opening one, the
end of each member is the beginning of the next, and the end of the last one is the closing element. -/
theorem members_adjacent {u w : Ty} {o p : Nat} (h : Child u o p w) :
    (p = 0 → o = 1)
    ∧ (∀ o' w', Child u o' (p + 1) w' → o' = o + w.bytes.length)
    ∧ (u.bracketed = true → p + 1 = u.count → o + w.bytes.length = u.bytes.length - 1)
    ∧ (u.bracketed = true → p + 1 < u.count → ∃ o' w', Child u o' (p + 1) w') := by
  simp only [bytes_length]
  cases h with
  | array t => exact ⟨fun _ => rfl, fun _ _ h => (by cases h), fun h => (by cases h), fun h => (by cases h)⟩
  | maybe t => exact ⟨fun _ => rfl, fun _ _ h => (by cases h), fun h => (by cases h), fun h => (by cases h)⟩
  | key b v =>
    refine ⟨fun _ => rfl, fun o' w' h => ?_, fun _ h => ?_, fun _ _ => ⟨2, v, .value b v⟩⟩
    · cases h; simp
    · simp [Ty.count] at h
  | value b v =>
    refine ⟨fun h => ?_, fun o' w' h => ?_, fun _ h => ?_, fun _ h => ?_⟩
    · cases h
    · cases h
    · simp; omega
    · simp [Ty.count] at h
  | member as t bs =>
    refine ⟨fun h => ?_, fun o' w' h => ?_, fun _ h => ?_, fun _ h => ?_⟩
    · have : as = [] := List.eq_nil_of_length_eq_zero h
      subst this; simp [Ty.texts]
    · generalize hu : Ty.struct (as ++ w :: bs) = u' at h
      generalize hp : as.length + 1 = p' at h
      cases h with
      | member as' t' bs' =>
        simp only [Ty.struct.injEq] at hu
        have h1 := congrArg (List.take as'.length) hu
        rw [List.take_left' rfl, ← hp, List.take_append] at h1
        simp only [Nat.add_sub_cancel_left, List.take_succ_cons, List.take_zero,
          List.take_of_length_le (Nat.le_succ as.length)] at h1
        have : sizes as' = sizes as + w.size := by rw [← h1]; simp
        unfold sizes at this
        omega
      | _ => simp at hu
    · simp only [Ty.count, List.length_append, List.length_cons] at h
      have : bs = [] := List.eq_nil_of_length_eq_zero (by omega)
      subst this
      have e : (Ty.texts (as ++ [w])).length = (Ty.texts as).length + w.size := by
        show sizes (as ++ [w]) = sizes as + w.size
        simp
      simp [sizes, e]; omega
    · simp only [Ty.count, List.length_append, List.length_cons] at h
      cases bs with
      | nil => simp at h
      | cons b bs =>
        refine ⟨1 + (Ty.texts (as ++ [w])).length, b, ?_⟩
        have := Child.member (as ++ [w]) b bs
        simpa using this

/-- C30. Single steps: forward through all elements, and backward. Past the end of long signatures `move_next` goes
on, since their length is wrong (`len_wrong`). -/
theorem single_steps {s : Sig} {t : Ty} (h : View s t) {i : Nat} (hi : i < t.bytes.length) :
    Cursor.move_next ⟨s, i⟩ = some ⟨s, i + 1⟩ ∧ Cursor.move_prev ⟨s, i + 1⟩ = some ⟨s, i⟩
    ∧ Cursor.move_prev ⟨s, 0⟩ = some ⟨s, 0⟩ ∧ Cursor.with_ s i = some ⟨s, i⟩
    ∧ ∃ e, Cursor.element ⟨s, i⟩ = some (some e) ∧ t.bytes[i]? = some e.code := by
  have hsz := h.rep.size_le_len
  rw [bytes_length] at hi
  have hl : i < s.kind.coeff * t.size := by omega
  have he : i < t.els.length := by rw [els_length]; exact hi
  refine ⟨?_, rfl, rfl, ?_, t.els[i], ?_, ?_⟩
  · unfold Cursor.move_next Cursor.idx_next
    simp only [h.rep.len, Option.bind_eq_bind, Option.bind_some, Option.map_some]
    rw [if_pos hl]; rfl
  · unfold Cursor.with_
    simp only [h.rep.len, Option.bind_eq_bind, Option.bind_some]
    rw [if_pos hl]
  · unfold Cursor.element
    rw [h.rep.element_at, List.getElem?_eq_getElem he]
  · rw [← els_code, List.getElem?_map, List.getElem?_eq_getElem he]; rfl

example : ∃ s, View s (.array (.struct [.basic .string, .maybe (.basic .unixFd)])) :=
  ⟨ofTy _, .parsed (by decide) (new_bytes _ (by decide))⟩

/-- The signature of `(sa{sv})` and its dict entry, at index 3. -/
def cursorTy : Ty := .struct [.basic .string, .array (.dict .string .variant)]

theorem cursor_view : View (ofTy cursorTy) cursorTy := .parsed (by decide) (new_bytes _ (by decide))

theorem cursor_occ : Occ cursorTy 3 (.dict .string .variant) :=
  .child (i := 2) (o := 1) (.child (i := 0) (o := 2) (.root _) (.member [.basic .string] _ [])) (.array _)

/-- Instances of `sub_signature`, `move_down`, `at_member`, `at_root`, `at_close` and `at_end`. -/
example := sub_signature cursor_view cursor_occ
example := move_down cursor_view cursor_occ
example := at_member cursor_view (.root _) (.member [.basic .string] (.array (.dict .string .variant)) [])
example := at_root cursor_view
example := at_close cursor_view cursor_occ rfl
example := at_end cursor_view (i := 8) (by decide)

end Verif.Dbus
