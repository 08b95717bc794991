import Verif.Dbus.SpecDec
import Verif.Dbus.LemmasRun
/-! # Lemmas about the D-Bus decoder -/
namespace Verif.Dbus
open Verif.Io

variable {σ : Type} {I : ReadImpl σ} {be : Bool} {data : List UInt8}

/-! ## Reading -/

theorem Short.mono {n m : Nat} (h : Short I n) (hm : n ≤ m) : Short I m := by
  rcases h with h | ⟨st, i, k, e, h1, h2⟩
  · exact .inl (by omega)
  · exact .inr ⟨st, i, k, e, by omega, h2⟩

theorem ans_isIo_map (x : Option IoErr) : (Ans.brk (x.map .io)).isIo := by cases x <;> trivial

theorem io_cases (hL : Linear I data) (d : Dec) (st : σ) (idx len : Nat) (hi : 0 < len ∨ idx ≤ data.length)
    (k : σ → Nat → List UInt8 → DStep σ) :
    (∃ st' r, Short I (idx + len) ∧ Ans.isIo r ∧ d.io (read I st idx len) k = some (d, st', r))
    ∨ ∃ st' out, field data idx len = some out ∧ d.io (read I st idx len) k = k st' (idx + len) out := by
  have h := read_spec I data hL st idx len
  unfold Dec.io
  split at h <;> rename_i hf <;> rw [hf]
  · obtain ⟨h1, h2, h3⟩ := h
    refine .inr ⟨(read I st idx len).st, (read I st idx len).out, ?_, by simp only [h3]⟩
    unfold field
    rw [if_pos, h1]
    rw [h1, List.length_take, List.length_drop] at h2
    omega
  · obtain ⟨k, st', h1, _, _, _, h5⟩ := h
    exact .inl ⟨_, _, .inr ⟨st', _, _, _, by omega, h5⟩, ans_isIo_map _, rfl⟩
  · exact h.elim

theorem dec_align_cases (d : Dec) (st : σ) (idx exp : Nat) (he : exp < 31) (k : Nat → DStep σ) :
    (∃ r, usizeMax < up idx (2 ^ exp) ∧ Ans.isIo r ∧ d.align st idx exp k = some (d, st, r))
    ∨ d.align st idx exp k = k (up idx (2 ^ exp)) := by
  unfold Dec.align shl1
  rw [if_pos he]
  simp only []
  rw [checkedNext_spec _ _ (Nat.two_pow_pos exp)]
  by_cases h : idx + padding idx (2 ^ exp) ≤ usizeMax ∨ padding idx (2 ^ exp) = 0
  · rw [if_pos h]; exact .inr rfl
  · rw [if_neg h]
    refine .inl ⟨_, ?_, ?_, rfl⟩
    · unfold up; omega
    · trivial

theorem field_le {off n : Nat} {bs : List UInt8} (h : field data off n = some bs) : off + n ≤ data.length := by
  unfold field at h
  split at h
  · assumption
  · cases h

/-! ## Positions -/

/-- How the cursor, the positions and the stack of a decoder belong to the arrays being read. -/
inductive DTrack (t : Ty) : List (Ty × Nat) → Bool → Cursor → Level → List (Element × Level × Option Cursor) → Prop
  | root {s : Sig} {L : Level} : View s t → L.meta_ ≤ L.idx → DTrack t [] false ⟨s, 0⟩ L []
  | full {s : Sig} {L : Level} : View s t → L.meta_ ≤ L.idx → DTrack t [] true ⟨s, t.size⟩ L []
  | array {l : List (Ty × Nat)} {f : Bool} {c : Cursor} {L L' : Level} {S : List (Element × Level × Option Cursor)} {u : Ty}
      {n : Nat} {i j : Nat} {b : Bool} : DTrack t l f c L S → DSt.next ⟨t, f, l, i, b⟩ = some (.array u) → L'.meta_ = n →
      L.idx ≤ L'.idx → DTrack t ((u, n) :: l) f ⟨c.sig, c.idx + 1⟩ L' ((.array, L, none) :: S)

variable {t u : Ty} {l : List (Ty × Nat)} {f b : Bool} {c : Cursor} {L L' : Level}
  {S : List (Element × Level × Option Cursor)} {i : Nat}

theorem DTrack.view (h : DTrack t l f c L S) : View c.sig t := by
  induction h <;> assumption

theorem DTrack.occ (h : DTrack t l f c L S) : ∀ u i b, DSt.next ⟨t, f, l, i, b⟩ = some u → Occ t c.idx u := by
  induction h with
  | root => intro u i b h; simp [DSt.next] at h; subst h; exact .root _
  | full => intro u i b h; simp [DSt.next] at h
  | array _ hn _ _ ih =>
    intro u i b h
    simp [DSt.next] at h; subst h
    exact .child (ih _ _ _ hn) (.array _)

theorem DTrack.element (h : DTrack t l f c L S) (hn : DSt.next ⟨t, f, l, i, b⟩ = some u) : c.element = some (some u.el) := by
  unfold Cursor.element
  rw [h.view.rep.element_at c.idx, occ_el (h.occ u i b hn)]

theorem DTrack.down (h : DTrack t l f c L S) (hn : DSt.next ⟨t, f, l, i, b⟩ = some (.array u)) :
    c.down = some (some u.el) ∧ c.move_down = some ⟨c.sig, c.idx + 1⟩ := by
  have ho := h.occ _ _ _ hn
  constructor
  · unfold Cursor.down
    rw [(Verif.Dbus.move_down h.view ho).1]
    simp only [Ty.container, if_true, Option.bind_eq_bind, Option.bind_some]
    rw [h.view.rep.element_at, occ_el (.child ho (.array u))]
  · exact (Verif.Dbus.move_down h.view ho).2

theorem DTrack.sigAt (h : DTrack t l f c L S) (hn : DSt.next ⟨t, f, l, i, b⟩ = some u) :
    ∃ s, c.sigAt = some (some s) ∧ View s u := by
  have ho := h.occ _ _ _ hn
  obtain ⟨⟨s, h1, _⟩, _⟩ := sub_signature h.view ho
  exact ⟨s, h1, .sub h.view ho h1⟩

/-- Moving on behind a value. -/
theorem DTrack.past (h : DTrack t l f c L S) (hn : DSt.next ⟨t, f, l, i, b⟩ = some u) :
    ∃ x, c.idx_step = some x ∧ x.isSome = l.isEmpty ∧ ∀ L', L'.meta_ = L.meta_ → L.idx ≤ L'.idx →
      DTrack t l (f || l.isEmpty) (c.maybe_move x) L' S := by
  cases h with
  | root hv hm =>
    refine ⟨_, (at_root hv).2.2.2.2, rfl, fun L' h1 h2 => ?_⟩
    rw [bytes_length]
    exact .full hv (by omega)
  | full => simp [DSt.next] at hn
  | array h0 hn0 hm hi =>
    refine ⟨_, (at_member h0.view (h0.occ _ _ _ hn0) (.array _)).2.2.2.2.1, rfl, fun L' h1 h2 => ?_⟩
    simp only [Ty.bracketed, Cursor.maybe_move, List.isEmpty_cons, Bool.or_false]
    exact .array (j := 0) h0 hn0 (h1.trans hm) (by omega)

/-- Nothing is left. -/
theorem DTrack.ended (h : DTrack t l f c L S) (hn : DSt.next ⟨t, f, l, i, b⟩ = none) :
    c.element = some none ∧ c.idx_step = some none ∧ c.sigAt = some none ∧ l = [] ∧ f = true ∧ S = [] := by
  cases h with
  | root => simp [DSt.next] at hn
  | full hv hm =>
    have h1 := at_end hv (i := t.size) (by rw [bytes_length]; exact Nat.le_refl _)
    have h2 := (sub_signature hv (.root t)).2.2 t.size (Nat.le_refl _)
    exact ⟨h1.1, h1.2.2.2.1, h2, rfl, rfl, rfl⟩
  | array => simp [DSt.next] at hn

theorem DTrack.stack (h : DTrack t l f c L S) : S.isEmpty = l.isEmpty := by
  cases h <;> rfl

theorem DTrack.step (h : DTrack t l f c L S) : ∃ x, c.idx_step = some x ∧ x.isSome = (l.isEmpty && !f) := by
  cases hn : DSt.next ⟨t, f, l, 0, false⟩ with
  | some u =>
    obtain ⟨x, h1, h2, _⟩ := h.past hn
    refine ⟨x, h1, h2.trans ?_⟩
    cases l with
    | nil => cases f with
      | false => rfl
      | true => simp [DSt.next] at hn
    | cons => rfl
  | none =>
    obtain ⟨_, h1, _, rfl, rfl, _⟩ := h.ended hn
    exact ⟨none, h1, rfl⟩

theorem DTrack.more (h : DTrack t l f c L S) :
    decide (L.idx < L.meta_) = match (generalizing := false) l with | [] => false | (_, n) :: _ => decide (L.idx < n) := by
  cases h with
  | root hv hm => simp; omega
  | full hv hm => simp; omega
  | array h0 hn0 hm hi => simp [hm]

/-! ## Simulation -/

/-- A decoder is in the state `a`. -/
structure DSim (be : Bool) (link : Option (Option Nat)) (a : DSt) (d : Dec) : Prop where
  order : d.be = be
  track : DTrack a.ty a.arrays a.full d.cursor d.level d.stack
  idx : d.level.idx = a.idx
  new : a.committed = false → d.link = link ∧ d.handed = none
  old : a.committed = true → d.link = none ∧ (link.isSome = true → d.handed = some a.idx) ∧ a.arrays = [] ∧ a.full = true

variable {link : Option (Option Nat)} {a : DSt} {d : Dec}

theorem DSim.fresh (h : DSim be link a d) (hn : a.next = some u) : a.committed = false := by
  cases hc : a.committed with
  | false => rfl
  | true =>
    obtain ⟨_, _, h1, h2⟩ := h.old hc
    unfold DSt.next at hn
    rw [h1, h2] at hn
    cases hn

theorem dexpect_ok {el : Element} {st : σ} {k : DStep σ} (h : d.cursor.element = some (some el)) : d.expect st el k = k := by
  unfold Dec.expect; rw [h]; simp

theorem dexpect_not {el : Element} {st : σ} {k : DStep σ} {x : Option Element} (h : d.cursor.element = some x) (hx : x ≠ some el) :
    d.expect st el k = some (d, st, .brk (some .mismatch)) := by
  unfold Dec.expect; rw [h]; simp [hx]

theorem DSim.advance (h : DSim be link a d) (hn : a.next = some u) (st : σ) (idx : Nat) (hi : a.idx ≤ idx) (r : Ans) :
    ∃ d', d.advance st idx r = some (d', st, r) ∧ DSim be link (a.past idx) d' := by
  obtain ⟨x, h1, h2, h3⟩ := h.track.past (i := a.idx) (b := a.committed) hn
  unfold Dec.advance Cursor.move_step
  rw [h1]
  refine ⟨_, rfl, h.order, ?_, rfl, ?_, ?_⟩
  · exact h3 _ rfl (by show d.level.idx ≤ idx; rw [h.idx]; exact hi)
  · intro hc; exact h.new hc
  · intro hc
    have := h.fresh hn
    rw [show a.committed = true from hc] at this
    cases this

theorem el_uint16 {u : Ty} (h : u.el = .u16) : u = .basic .uint16 := by
  cases u with
  | basic b => cases b <;> first | rfl | (exfalso; revert h; decide)
  | _ => simp [Ty.el] at h

theorem el_string {u : Ty} (h : u.el = .string) : u = .basic .string := by
  cases u with
  | basic b => cases b <;> first | rfl | (exfalso; revert h; decide)
  | _ => simp [Ty.el] at h

theorem el_signature {u : Ty} (h : u.el = .signature) : u = .basic .signature := by
  cases u with
  | basic b => cases b <;> first | rfl | (exfalso; revert h; decide)
  | _ => simp [Ty.el] at h

theorem el_array {u : Ty} (h : u.el = .array) : ∃ v, u = .array v := by
  cases u with
  | basic b => cases b <;> (exfalso; revert h; decide)
  | array v => exact ⟨v, rfl⟩
  | _ => simp [Ty.el] at h

/-- The element a call is for. -/
def Ask.element : Ask → Element
  | .u16 => .u16
  | .string => .string
  | .signature => .signature
  | _ => .array

theorem ask_suits {x : Ask} (hx : x.isValue = true) (u : Ty) : x.suits u = true ↔ u.el = x.element := by
  constructor
  · intro h
    cases x <;> simp [Ask.isValue] at hx
    all_goals
      cases u with
      | basic b => cases b <;> first | rfl | (simp [Ask.suits] at h)
      | _ => first | rfl | (simp [Ask.suits] at h)
  · intro h
    cases x <;> simp [Ask.isValue] at hx
    · rw [el_uint16 h]; rfl
    · rw [el_string h]; rfl
    · rw [el_signature h]; rfl
    · obtain ⟨v, rfl⟩ := el_array h; rfl

/-- Does the next type suit, and what the check of the element does. -/
theorem DSim.expect (h : DSim be link a d) (x : Ask) (hx : x.isValue = true) (st : σ) (k : DStep σ) :
    ((∀ u, a.next = some u → x.suits u = false) ∧ d.expect st x.element k = some (d, st, .brk (some .mismatch)))
    ∨ ∃ u, a.next = some u ∧ x.suits u = true ∧ d.expect st x.element k = k := by
  cases hn : a.next with
  | none =>
    obtain ⟨h1, _⟩ := h.track.ended (i := a.idx) (b := a.committed) hn
    exact .inl ⟨fun u hu => (by cases hu), dexpect_not h1 (by simp)⟩
  | some u =>
    have h1 := h.track.element (i := a.idx) (b := a.committed) hn
    cases hs : x.suits u with
    | true =>
      refine .inr ⟨u, rfl, hs, dexpect_ok ?_⟩
      rw [h1, (ask_suits hx u).mp hs]
    | false =>
      refine .inl ⟨fun v hv => by cases hv; exact hs, dexpect_not h1 ?_⟩
      intro he
      rw [Option.some.injEq] at he
      rw [(ask_suits hx u).mpr he] at hs
      cases hs

/-- What is to be shown of a call. -/
def DGoal (I : ReadImpl σ) (be : Bool) (data : List UInt8) (link : Option (Option Nat)) (a : DSt) (x : Ask) (s : DStep σ) : Prop :=
  ∃ d' st' r b, s = some (d', st', r) ∧ Gives (Short I) be data a x r b ∧ DSim be link b d'

theorem le_up (i n : Nat) : i ≤ up i n := Nat.le_add_right _ _

theorem u16_sim (hL : Linear I data) (h : DSim be link a d) (st : σ) : DGoal I be data link a .u16 (d.u16 I st) := by
  unfold Dec.u16
  rcases h.expect .u16 rfl st _ with ⟨h1, h2⟩ | ⟨u, hn, hs, h2⟩
  · exact ⟨_, _, _, _, h2, .mismatch _ _ rfl h1, h⟩
  · have hu := el_uint16 ((ask_suits rfl u).mp hs)
    subst hu
    rw [show Ask.element .u16 = Element.u16 from rfl] at h2
    rw [h2, h.idx]
    have e : 2 ^ Element.u16.dvarExp = 2 := by decide
    rcases dec_align_cases d st a.idx Element.u16.dvarExp (by decide) _ with ⟨r, h3, h4, h5⟩ | h5
    · rw [h5]
      rw [e] at h3
      exact ⟨_, _, _, _, rfl, .u16Io _ _ hn (Short.mono (I := I) (.inl h3) (by omega)) h4, h⟩
    · rw [h5, e]
      rcases io_cases hL d st (up a.idx 2) 2 (.inl (by omega)) _ with ⟨st', r, h6, h7, h8⟩ | ⟨st', out, h6, h8⟩
      · rw [h8]
        exact ⟨_, _, _, _, rfl, .u16Io _ _ hn h6 h7, h⟩
      · rw [h8, h.order]
        have := le_up a.idx 2
        obtain ⟨d', h9, h10⟩ := h.advance hn st' (up a.idx 2 + 2) (by omega) (.u16 (BitVec.ofNat 16 (deNum be out)))
        exact ⟨_, _, _, _, h9, .u16 _ _ hn h6, h10⟩

theorem text_sim (hL : Linear I data) (hd : data.length < usizeMax) (h : DSim be link a d) (st : σ) (x : Ask)
    (hn : a.next = some u) (hs : x.suits u = true) (w : Nat) (hw : x.width = some w) (bs : List UInt8)
    (hb : field data (up a.idx w) w = some bs) :
    DGoal I be data link a x (d.text I st (up a.idx w + w) (deNum d.be bs)) := by
  unfold Dec.text
  have hle := field_le hb
  rw [h.order]
  rcases io_cases hL d st (up a.idx w + w) (deNum be bs) (.inr hle) _ with ⟨st', r, h6, h7, h8⟩ | ⟨st', out, h6, h8⟩
  · rw [h8]
    exact ⟨_, _, _, _, rfl, .textIo _ _ _ _ _ hn hs hw (.inr ⟨_, hb, h6⟩) h7, h⟩
  · rw [h8]
    have hle' := field_le h6
    cases hu : Args.isUtf8 out with
    | true =>
      rw [if_pos rfl, if_pos (by omega)]
      have := le_up a.idx w
      obtain ⟨d', h9, h10⟩ := h.advance hn st' (up a.idx w + w + deNum be bs + 1) (by omega) (.str out)
      exact ⟨_, _, _, _, h9, .text _ _ _ _ _ _ hn hs hw hb h6 hu, h10⟩
    | false =>
      rw [if_neg (by simp)]
      exact ⟨_, _, _, _, rfl, .textBad _ _ _ _ _ _ hn hs hw hb h6 hu, h⟩

theorem string_sim (hL : Linear I data) (hd : data.length < usizeMax) (h : DSim be link a d) (st : σ) :
    DGoal I be data link a .string (d.str32 I st .string) := by
  unfold Dec.str32
  rcases h.expect .string rfl st _ with ⟨h1, h2⟩ | ⟨u, hn, hs, h2⟩
  · exact ⟨_, _, _, _, h2, .mismatch _ _ rfl h1, h⟩
  · rw [show Ask.element .string = Element.string from rfl] at h2
    rw [h2, h.idx]
    have e : 2 ^ Element.u32.dvarExp = 4 := by decide
    rcases dec_align_cases d st a.idx Element.u32.dvarExp (by decide) _ with ⟨r, h3, h4, h5⟩ | h5
    · rw [h5]
      rw [e] at h3
      exact ⟨_, _, _, _, rfl, .textIo _ _ _ _ _ hn hs rfl (.inl (Short.mono (I := I) (.inl h3) (by omega))) h4, h⟩
    · rw [h5, e]
      rcases io_cases hL d st (up a.idx 4) 4 (.inl (by omega)) _ with ⟨st', r, h6, h7, h8⟩ | ⟨st', out, h6, h8⟩
      · rw [h8]
        exact ⟨_, _, _, _, rfl, .textIo _ _ _ _ _ hn hs rfl (.inl h6) h7, h⟩
      · rw [h8]
        exact text_sim hL hd h st' .string hn hs 4 rfl out h6

theorem signature_sim (hL : Linear I data) (hd : data.length < usizeMax) (h : DSim be link a d) (st : σ) :
    DGoal I be data link a .signature (d.str8 I st .signature) := by
  unfold Dec.str8
  rcases h.expect .signature rfl st _ with ⟨h1, h2⟩ | ⟨u, hn, hs, h2⟩
  · exact ⟨_, _, _, _, h2, .mismatch _ _ rfl h1, h⟩
  · rw [show Ask.element .signature = Element.signature from rfl] at h2
    rw [h2, h.idx]
    have e : 2 ^ Element.u8.dvarExp = 1 := by decide
    rcases dec_align_cases d st a.idx Element.u8.dvarExp (by decide) _ with ⟨r, h3, h4, h5⟩ | h5
    · rw [h5]
      rw [e] at h3
      exact ⟨_, _, _, _, rfl, .textIo _ _ _ _ _ hn hs rfl (.inl (Short.mono (I := I) (.inl h3) (by omega))) h4, h⟩
    · rw [h5, e]
      rcases io_cases hL d st (up a.idx 1) 1 (.inl (by omega)) _ with ⟨st', r, h6, h7, h8⟩ | ⟨st', out, h6, h8⟩
      · rw [h8]
        exact ⟨_, _, _, _, rfl, .textIo _ _ _ _ _ hn hs rfl (.inl h6) h7, h⟩
      · rw [h8]
        exact text_sim hL hd h st' .signature hn hs 1 rfl out h6

theorem dvarAlign_lt (u : Ty) : u.dvarAlign < 31 := by
  cases u with
  | basic b => cases b <;> decide
  | _ => simp only [Ty.dvarAlign]; decide

theorem array_sim (hL : Linear I data) (h : DSim be link a d) (st : σ) : DGoal I be data link a .array (d.array I st) := by
  unfold Dec.array
  rcases h.expect .array rfl st _ with ⟨h1, h2⟩ | ⟨u, hn, hs, h2⟩
  · exact ⟨_, _, _, _, h2, .mismatch _ _ rfl h1, h⟩
  · obtain ⟨v, rfl⟩ := el_array ((ask_suits rfl u).mp hs)
    rw [show Ask.element .array = Element.array from rfl] at h2
    obtain ⟨hd1, hd2⟩ := h.track.down (i := a.idx) (b := a.committed) hn
    rw [h2, h.idx, hd1]
    simp only []
    have e : 2 ^ Element.u32.dvarExp = 4 := by decide
    have hfe : firstElement a.idx v = up (up a.idx 4 + 4) (2 ^ v.dvarAlign) := rfl
    have hle := le_up (up a.idx 4 + 4) (2 ^ v.dvarAlign)
    have hle' := le_up a.idx 4
    rcases dec_align_cases d st a.idx Element.u32.dvarExp (by decide) _ with ⟨r, h3, h4, h5⟩ | h5
    · rw [h5]
      rw [e] at h3
      exact ⟨_, _, _, _, rfl, .arrayIo _ _ _ hn (.inl (Short.mono (I := I) (.inl h3) (by omega))) h4, h⟩
    · rw [h5, e]
      rcases io_cases hL d st (up a.idx 4) 4 (.inl (by omega)) _ with ⟨st', r, h6, h7, h8⟩ | ⟨st', out, h6, h8⟩
      · rw [h8]
        exact ⟨_, _, _, _, rfl, .arrayIo _ _ _ hn (.inl h6) h7, h⟩
      · rw [h8, el_dvar]
        rcases dec_align_cases d st' (up a.idx 4 + 4) v.dvarAlign (dvarAlign_lt v) _ with ⟨r, h3, h4, h9⟩ | h9
        · rw [h9]
          exact ⟨_, _, _, _, rfl, .arrayIo _ _ _ hn (.inr h3) h4, h⟩
        · rw [h9, hd2, h.order, ← hfe]
          refine ⟨_, _, _, _, rfl, .array _ _ _ hn h6, rfl, ?_, rfl, ?_, ?_⟩
          · refine .array (i := a.idx) (j := 0) (b := a.committed) h.track hn rfl ?_
            show d.level.idx ≤ firstElement a.idx v
            rw [h.idx]; omega
          · intro hc; exact h.new hc
          · intro hc
            have := h.fresh hn
            rw [show a.committed = true from hc] at this
            cases this

theorem dclose_sim (h : DSim be link a d) (st : σ) : DGoal I be data link a .close (d.close st) := by
  obtain ⟨x, hx1, hx2⟩ := h.track.step
  unfold Dec.close
  rw [hx1]
  have ht := h.track
  obtain ⟨ty, full, arrays, idx, com⟩ := a
  cases arrays with
  | nil =>
    refine ⟨d, st, _, _, ?_, .closeMismatch _ rfl, h⟩
    have hS := ht.stack
    simp only [List.isEmpty_nil, List.isEmpty_iff] at hS
    rw [hS]
    cases x <;> rfl
  | cons y l =>
    obtain ⟨u, n⟩ := y
    have hxn : x = none := by simpa using hx2
    subst hxn
    simp only at ht
    obtain ⟨dbe, cur, lev, stk, lk, hd⟩ := d
    simp only at ht
    have hc : com = false := by
      cases hc : com with
      | false => rfl
      | true => obtain ⟨_, _, h1, _⟩ := h.old hc; cases h1
    cases ht with
    | @array _ _ c L _ S _ _ i j b h0 hn0 hm hi =>
      have hup := (at_member h0.view (h0.occ _ _ _ hn0) (.array u)).2.1
      obtain ⟨x, h1, h2, h3⟩ := h0.past hn0
      simp only [Dec.pop]
      rw [show (⟨c.sig, c.idx + 1⟩ : Cursor).move_up = some c from hup]
      simp only [Cursor.move_step, h1, Option.map_some]
      refine ⟨_, _, _, _, rfl, .close _ u n l rfl, h.order, ?_, h.idx, ?_, ?_⟩
      · exact h3 _ rfl hi
      · intro hc'; exact h.new hc'
      · intro hc'; subst hc; cases hc'

theorem dcommit_sim (h : DSim be link a d) (st : σ) : DGoal I be data link a .commit (d.commit st) := by
  obtain ⟨x, hx1, hx2⟩ := h.track.step
  have hS := h.track.stack
  unfold Dec.commit
  rw [hx1]
  simp only []
  rw [hx2, hS]
  by_cases hp : a.arrays ≠ [] ∨ a.full = false
  · rw [if_pos]
    · exact ⟨_, _, _, _, rfl, .pending _ hp, h⟩
    · rcases hp with hp | hp
      · cases hl : a.arrays with
        | nil => exact absurd hl hp
        | cons => rfl
      · rw [hp]; cases a.arrays <;> rfl
  · have h1 : a.arrays = [] := Classical.byContradiction fun h => hp (.inl h)
    have h2 : a.full = true := by
      cases hf : a.full with
      | true => rfl
      | false => exact absurd (.inr hf) hp
    rw [if_neg (by rw [h1, h2]; decide)]
    cases hc : a.committed with
    | true =>
      obtain ⟨h3, h4, h5, h6⟩ := h.old hc
      rw [if_neg (by rw [h3]; decide)]
      refine ⟨_, _, _, _, rfl, .commit _ h1 h2, h.order, h.track, h.idx, fun hc => (by cases hc), fun _ => ⟨h3, h4, h5, h6⟩⟩
    | false =>
      obtain ⟨h3, h4⟩ := h.new hc
      rw [h3]
      cases hlk : link with
      | none =>
        rw [if_neg (by decide)]
        refine ⟨_, _, _, _, rfl, .commit _ h1 h2, h.order, h.track, h.idx, fun hc => (by cases hc),
          fun _ => ⟨by rw [h3, hlk], (by intro h; cases h), h1, h2⟩⟩
      | some y =>
        rw [if_pos (show (some y).isSome = true from rfl)]
        refine ⟨_, _, _, _, rfl, .commit _ h1 h2, h.order, h.track, h.idx, fun hc => (by cases hc),
          fun _ => ⟨rfl, fun _ => by rw [h.idx], h1, h2⟩⟩

theorem dsub_start (h : DSim be link a d) (hn : a.next = some u) :
    ∃ x step, d.sub = some (some x) ∧ d.cursor.idx_step = some step ∧ x.link = some step
      ∧ DSim be (some step) (DSt.new u a.idx) x := by
  obtain ⟨step, hs, _⟩ := h.track.step
  obtain ⟨s, h1, h2⟩ := h.track.sigAt (i := a.idx) (b := a.committed) hn
  refine ⟨⟨d.be, ⟨s, 0⟩, ⟨d.level.idx, d.level.idx, d.level.idx⟩, [], some step, none⟩, step, ?_, hs, rfl, ?_⟩
  · unfold Dec.sub
    rw [hs, h1]
    simp only [Option.bind_eq_bind, Option.bind_some, h2.rep.new]
  · exact ⟨h.order, .root h2 (Nat.le_refl _), h.idx, fun _ => ⟨rfl, rfl⟩, fun hc => by cases hc⟩

mutual
theorem Gives.le {R : Nat → Prop} : {x : Ask} → {a b : DSt} → {r : Ans} → Gives R be data a x r b → a.idx ≤ b.idx
  | _, _, _, _, .mismatch .. => Nat.le_refl _
  | _, a, _, _, .u16 .. => by have := le_up a.idx 2; simp only [DSt.past]; omega
  | _, _, _, _, .u16Io .. => Nat.le_refl _
  | _, a, _, _, .text _ _ _ w .. => by have := le_up a.idx w; simp only [DSt.past]; omega
  | _, _, _, _, .textBad .. => Nat.le_refl _
  | _, _, _, _, .textIo .. => Nat.le_refl _
  | _, a, _, _, .array .. => by simp only [firstElement]; omega
  | _, _, _, _, .arrayIo .. => Nat.le_refl _
  | _, _, _, _, .close .. => Nat.le_refl _
  | _, _, _, _, .closeMismatch .. => Nat.le_refl _
  | _, _, _, _, .pending .. => Nat.le_refl _
  | _, _, _, _, .commit .. => Nat.le_refl _
  | _, _, _, _, .more .. => Nat.le_refl _
  | _, _, _, _, .subMismatch .. => Nat.le_refl _
  | _, _, _, _, .subDropped .. => Nat.le_refl _
  | _, _, _, _, .subCommitted _ _ _ _ _ _ _ _ h _ => by have := GivesAll.le h; exact this
theorem GivesAll.le {R : Nat → Prop} : {l : List Ask} → {a b : DSt} → {rs : List Ans} → GivesAll R be data a l rs b → a.idx ≤ b.idx
  | _, _, _, _, .nil _ => Nat.le_refl _
  | _, _, _, _, .cons _ _ _ _ _ _ _ h h' => Nat.le_trans (Gives.le h) (GivesAll.le h')
end

mutual
/-- A call does what its specification says. -/
theorem ask_sim (hL : Linear I data) (hd : data.length < usizeMax) : (x : Ask) → {link : Option (Option Nat)} →
    {a : DSt} → {d : Dec} → (st : σ) → x.sane → DSim be link a d → DGoal I be data link a x (x.run I d st)
  | .u16, _, _, _, st, _, h => u16_sim hL h st
  | .string, _, _, _, st, _, h => string_sim hL hd h st
  | .signature, _, _, _, st, _, h => signature_sim hL hd h st
  | .array, _, _, _, st, _, h => array_sim hL h st
  | .close, _, _, _, st, _, h => dclose_sim h st
  | .commit, _, _, _, st, _, h => dcommit_sim h st
  | .more, _, a, d, st, _, h => by
    refine ⟨d, st, _, a, rfl, ?_, h⟩
    have := h.track.more
    rw [h.idx] at this
    have e : d.more = match a.arrays with | [] => false | (_, n) :: _ => decide (a.idx < n) := by
      unfold Dec.more
      rw [h.idx]
      exact this
    rw [e]
    exact .more a
  | .sub s l, link, a, d, st, hs, h => by
    obtain ⟨hs1, hs2⟩ := hs
    by_cases hmis : ∀ u, a.next = some u → ∃ s', s = some s' ∧ s'.text ≠ some u.bytes
    · refine ⟨d, st, _, _, ?_, .subMismatch _ _ _ hmis, h⟩
      have hx : (match s with | none => d.sub | some s => d.subWith s) = some none := by
        cases hn : a.next with
        | none =>
          obtain ⟨_, h2, h3, _⟩ := h.track.ended (i := a.idx) (b := a.committed) hn
          cases s with
          | none => simp only [Dec.sub, h2, h3, Option.bind_eq_bind, Option.bind_some]
          | some s => simp only [Dec.subWith, h3, Option.bind_eq_bind, Option.bind_some]
        | some u =>
          obtain ⟨s', rfl, htx⟩ := hmis u hn
          obtain ⟨t1, hv1⟩ := hs1 s' rfl
          obtain ⟨s2, h2, hv2⟩ := h.track.sigAt (i := a.idx) (b := a.committed) hn
          simp only [Dec.subWith, h2, Option.bind_eq_bind, Option.bind_some, sig_eq hv1 hv2]
          simp [htx]
      simp only [Ask.run]
      cases s <;> simp only [] at hx <;> simp only [hx]
    · have ⟨u, hn, htx⟩ : ∃ u, a.next = some u ∧ ∀ s', s = some s' → s'.text = some u.bytes := by
        apply Classical.byContradiction
        intro hne
        apply hmis
        intro u hn
        apply Classical.byContradiction
        intro hne'
        apply hne
        refine ⟨u, hn, fun s' hs' => ?_⟩
        apply Classical.byContradiction
        intro h'
        exact hne' ⟨s', hs', h'⟩
      obtain ⟨x, step, hx, hst, hlink, hsim⟩ := dsub_start h hn
      have hx : (match s with | none => d.sub | some s => d.subWith s) = some (some x) := by
        cases s with
        | none => exact hx
        | some s =>
          obtain ⟨t1, hv1⟩ := hs1 s rfl
          obtain ⟨s2, h2, hv2⟩ := h.track.sigAt (i := a.idx) (b := a.committed) hn
          simp only [Dec.subWith, h2, Option.bind_eq_bind, Option.bind_some, sig_eq hv1 hv2]
          simp [htx s rfl, hx]
      obtain ⟨x', st', rs, b, hr, hg, hb⟩ := asks_sim hL hd l st hs2 hsim
      have hrun : Ask.run I (.sub s l) d st = some (d.merge x' step, st', .sub rs) := by
        simp only [Ask.run]
        cases s <;> simp only [] at hx <;> simp only [hx, hr, hlink] <;> rfl
      rw [hrun]
      cases hc : b.committed with
      | false =>
        refine ⟨_, _, _, _, rfl, .subDropped _ _ _ _ _ _ hn htx hg hc, ?_⟩
        unfold Dec.merge
        rw [(hb.new hc).2]
        exact h
      | true =>
        refine ⟨_, _, _, _, rfl, .subCommitted _ _ _ _ _ _ hn htx hg hc, ?_⟩
        unfold Dec.merge
        rw [(hb.old hc).2.1 rfl]
        have hfr := h.fresh hn
        obtain ⟨y, h1, h2, h3⟩ := h.track.past (i := a.idx) (b := a.committed) hn
        rw [hst, Option.some.injEq] at h1
        subst h1
        refine ⟨h.order, h3 _ rfl ?_, rfl, fun hc => h.new hc, fun hc' => ?_⟩
        · show d.level.idx ≤ b.idx
          rw [h.idx]; exact hg.le
        · rw [show a.committed = true from hc'] at hfr; cases hfr
/-- Several calls. -/
theorem asks_sim (hL : Linear I data) (hd : data.length < usizeMax) : (l : List Ask) → {link : Option (Option Nat)} →
    {a : DSt} → {d : Dec} → (st : σ) → Ask.sanes l → DSim be link a d →
    ∃ d' st' rs b, Ask.runs I l d st = some (d', st', rs) ∧ GivesAll (Short I) be data a l rs b ∧ DSim be link b d'
  | [], _, _, _, _, _, h => ⟨_, _, _, _, rfl, .nil _, h⟩
  | x :: l, _, _, _, st, hs, h => by
    obtain ⟨d1, st1, r, b, hr, hg, hb⟩ := ask_sim hL hd x st hs.1 h
    obtain ⟨d2, st2, rs, c, hr', hg', hc⟩ := asks_sim hL hd l st1 hs.2 hb
    refine ⟨d2, st2, r :: rs, c, ?_, .cons _ _ _ _ _ _ _ hg hg', hc⟩
    simp only [Ask.runs, hr, hr']
end

end Verif.Dbus
