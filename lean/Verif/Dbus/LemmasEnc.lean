import Verif.Dbus.LemmasDvar
/-! # Lemmas about the calls of the D-Bus encoder -/
namespace Verif.Dbus
open Verif.Io

variable {σ : Type} {I : WriteImpl σ} {be : Bool} {pre : Pat} {ps qs : List Part} {p : Part} {t u : Ty} {e : Enc}
  {w : Writer σ}

/-- An encoder and its writer have got the containers `ps`. -/
structure Inv (be : Bool) (pre : Pat) (ps : List Part) (e : Enc) (w : Writer σ) : Prop where
  order : e.be = be
  track : ∃ t, Track be pre ps t e.cursor e.level e.stack
  idx : e.level.idx = (Part.bytes be pre ps).length
  holds : Holds w.mem (Part.bytes be pre ps)
  max : e.level.idx ≤ usizeMax

/-- There is not enough room for `n` bytes: the address space ends, or the writer refuses something within them. -/
def Blocked (I : WriteImpl σ) (n : Nat) : Prop :=
  usizeMax < n ∨ ∃ st i k e, i + k ≤ n ∧ (I.map st i k).2 = .brk e

theorem Blocked.mono {n m : Nat} (h : Blocked I n) (hm : n ≤ m) : Blocked I m := by
  rcases h with h | ⟨st, i, k, e, h1, h2⟩
  · exact .inl (by omega)
  · exact .inr ⟨st, i, k, e, by omega, h2⟩

/-- A step from `ps` that leads to `qs`, unless the writer refuses. -/
def Outcome (I : WriteImpl σ) (be : Bool) (pre : Pat) (ps qs : List Part) (e : Enc) (s : Step σ) : Prop :=
  ∃ e' w' r, s = some (e', w', r) ∧
    ((r = .ok ∧ Inv be pre qs e' w' ∧ e'.done = e.done ∧ e'.link = e.link ∧ e'.handed = e.handed)
    ∨ (r.isIo ∧ e' = e ∧ Holds w'.mem (Part.bytes be pre ps) ∧ Blocked I (Part.bytes be pre qs).length))

theorem isIo_map (x : Option IoErr) : (DRes.brk (x.map .io)).isIo := by cases x <;> trivial

theorem Outcome.io {r : WriteOut σ} {k : Writer σ → Nat → Step σ} {x y : Pat} {data : List UInt8}
    (hw : Wrote I w x.length data r) (hx : Holds w.mem x) (hm : x.length ≤ usizeMax) (hp : x = Part.bytes be pre ps ++ y)
    (hle : x.length + data.length ≤ (Part.bytes be pre qs).length)
    (hk : ∀ w' : Writer σ, Holds w'.mem (x ++ known data) → (x ++ known data).length ≤ usizeMax →
      Outcome I be pre ps qs e (k w' (x ++ known data).length)) :
    Outcome I be pre ps qs e (e.io r k) := by
  cases hw with
  | all st hb =>
    have h1 := hx.put data
    have h2 : (x ++ known data).length = x.length + data.length := by simp
    have := hk ⟨st, put w.mem x.length data⟩ h1 (by rw [h2]; rcases hb with rfl | hb <;> simp_all)
    rw [h2] at this
    exact this
  | refused st st' j z hj hmap =>
    refine ⟨e, ⟨st', put w.mem x.length (data.take j)⟩, _, rfl, .inr ⟨isIo_map z, rfl, ?_, .inr ⟨st, _, _, z, ?_, by rw [hmap]⟩⟩⟩
    · have := hx.put_left (data.take j)
      show Holds (put w.mem x.length (data.take j)) _
      rw [hp] at this ⊢
      exact this.left
    · omega

theorem Outcome.align (hE : Exact I) {k : Writer σ → Nat → Step σ} {x y : Pat} {exp : Nat} (he : exp < 31)
    (hx : Holds w.mem x) (hm : x.length ≤ usizeMax) (hp : x = Part.bytes be pre ps ++ y)
    (hle : x.length + padding x.length (2 ^ exp) ≤ (Part.bytes be pre qs).length)
    (hk : ∀ w' : Writer σ, Holds w'.mem (x ++ known (pad x.length (2 ^ exp))) →
      (x ++ known (pad x.length (2 ^ exp))).length ≤ usizeMax →
      Outcome I be pre ps qs e (k w' (x ++ known (pad x.length (2 ^ exp))).length)) :
    Outcome I be pre ps qs e (e.io (alignExp2 I w x.length exp) k) := by
  have := align_spec I hE.toGood w x.length exp he hm
  split at this
  · exact Outcome.io (data := pad x.length (2 ^ exp)) this hx hm hp (by simpa using hle) hk
  · rename_i hb
    rw [this]
    refine ⟨e, w, _, rfl, .inr ⟨isIo_map (some .overflow), rfl, ?_, .inl (by omega)⟩⟩
    rw [hp] at hx
    exact hx.left

theorem expect_ok {el : Element} {k : Step σ} (h : e.cursor.element = some (some el)) : e.expect w el k = k := by
  unfold Enc.expect; rw [h]; simp

theorem expect_not {el : Element} {k : Step σ} {x : Option Element} (h : e.cursor.element = some x) (hx : x ≠ some el) :
    e.expect w el k = some (e, w, .brk (some .mismatch)) := by
  unfold Enc.expect; rw [h]; simp [hx]

/-- The value is complete. -/
theorem Outcome.advance (hi : Inv be pre (p :: ps) e w) (hn : p.next = some u) (v : Val) (hv : v.has u)
    (hf : v.fits be (Part.bytes be pre (p :: ps)).length) (w' : Writer σ)
    (hh : Holds w'.mem (Part.bytes be pre (p :: ps) ++ known (v.marshal be (Part.bytes be pre (p :: ps)).length)))
    (hm : (Part.bytes be pre (p :: ps) ++ known (v.marshal be (Part.bytes be pre (p :: ps)).length)).length ≤ usizeMax) (n : Nat)
    (hlen : n = (Part.bytes be pre (p :: ps) ++ known (v.marshal be (Part.bytes be pre (p :: ps)).length)).length) :
    Outcome I be pre (p :: ps) (p.add v :: ps) e (e.advance w' n) := by
  obtain ⟨t, ht⟩ := hi.track
  obtain ⟨x, hx, _, hadd⟩ := ht.add hn
  have hw := bytes_add be pre p ps v
  unfold Enc.advance
  rw [show e.cursor.move_step = some (e.cursor.maybe_move x) by unfold Cursor.move_step; rw [hx]; rfl]
  refine ⟨_, _, _, rfl, .inl ⟨rfl, ⟨hi.order, ⟨t, hadd v _ hv hf rfl rfl⟩, ?_, hw.holds hh, ?_⟩, rfl, rfl, rfl⟩⟩
  · rw [hw.1, hlen]
  · rw [hlen]; exact hm

theorem add_length (be : Bool) (pre : Pat) (p : Part) (ps : List Part) (v : Val) :
    (Part.bytes be pre (p.add v :: ps)).length
      = (Part.bytes be pre (p :: ps)).length + (v.marshal be (Part.bytes be pre (p :: ps)).length).length := by
  rw [(bytes_add be pre p ps v).1]; simp

theorem fixed_step (hE : Exact I) (hi : Inv be pre (p :: ps) e w) (hn : p.next = some u) (v : Val) (hv : v.has u)
    (hf : v.fits be (Part.bytes be pre (p :: ps)).length) (el : Element) (he : u.el = el) (data : List UInt8)
    (hm : ∀ off, v.marshal be off = pad off (2 ^ el.dvarExp) ++ data) (hx : el.dvarExp < 31) :
    Outcome I be pre (p :: ps) (p.add v :: ps) e (e.fixed I w el data) := by
  obtain ⟨t, ht⟩ := hi.track
  unfold Enc.fixed
  rw [expect_ok (by rw [ht.element hn, he]), hi.idx]
  have hlen := add_length be pre p ps v
  rw [hm] at hlen
  simp only [List.length_append, pad_length] at hlen
  refine Outcome.align hE hx hi.holds (by rw [← hi.idx]; exact hi.max) (y := []) (by simp) (by omega) fun w1 h1 m1 => ?_
  refine Outcome.io (write_spec I hE.toGood _ _ _) h1 m1 rfl (by simp; omega) fun w2 h2 m2 => ?_
  refine Outcome.advance hi hn v hv hf w2 ?_ ?_ _ ?_ <;> rw [hm, known_append, ← List.append_assoc] <;> assumption

theorem zero_spec (hE : Exact I) (w : Writer σ) (idx : Nat) : Wrote I w idx [0] (zero I w idx 1) :=
  fill_spec I hE.toGood w idx 1 0

theorem str32_step (hE : Exact I) (hi : Inv be pre (p :: ps) e w) (hn : p.next = some u) (v : Val) (hv : v.has u)
    (el : Element) (he : u.el = el) (s : List UInt8) (hs : s.length < 2 ^ 32)
    (hf : v.fits be (Part.bytes be pre (p :: ps)).length)
    (hm : ∀ off, v.marshal be off = pad off 4 ++ enNum be 4 s.length ++ s ++ [0]) :
    Outcome I be pre (p :: ps) (p.add v :: ps) e (e.str32 I w el s) := by
  obtain ⟨t, ht⟩ := hi.track
  unfold Enc.str32
  rw [expect_ok (by rw [ht.element hn, he]), hi.idx, if_pos (by omega), hi.order]
  have hlen := add_length be pre p ps v
  rw [hm] at hlen
  simp only [List.length_append, pad_length, enNum_length, List.length_singleton] at hlen
  have e4 : 2 ^ Element.u32.dvarExp = 4 := by decide
  refine Outcome.align hE (by decide) hi.holds (by rw [← hi.idx]; exact hi.max) (y := []) (by simp) (by rw [e4]; omega) fun w1 h1 m1 => ?_
  refine Outcome.io (write_spec I hE.toGood _ _ _) h1 m1 rfl (by simp [e4]; omega) fun w2 h2 m2 => ?_
  refine Outcome.io (write_spec I hE.toGood _ _ _) h2 m2 (by rw [List.append_assoc]) (by simp [e4]; omega) fun w3 h3 m3 => ?_
  refine Outcome.io (zero_spec hE _ _) h3 m3 (by rw [List.append_assoc, List.append_assoc]) (by simp [e4]; omega) fun w4 h4 m4 => ?_
  rw [e4] at h4 m4 ⊢
  refine Outcome.advance hi hn v hv hf w4 ?_ ?_ _ ?_ <;> rw [hm, known_append, known_append, known_append, ← List.append_assoc,
    ← List.append_assoc, ← List.append_assoc] <;> assumption

theorem padding_one (n : Nat) : padding n 1 = 0 := by unfold padding; omega

theorem str8_step (hE : Exact I) (hi : Inv be pre (p :: ps) e w) (hn : p.next = some u) (v : Val) (hv : v.has u)
    (el : Element) (he : u.el = el) (s : List UInt8) (hs : s.length < 2 ^ 8)
    (hf : v.fits be (Part.bytes be pre (p :: ps)).length)
    (hm : ∀ off, v.marshal be off = enNum be 1 s.length ++ s ++ [0]) :
    Outcome I be pre (p :: ps) (p.add v :: ps) e (e.str8 I w el s) := by
  obtain ⟨t, ht⟩ := hi.track
  unfold Enc.str8
  rw [expect_ok (by rw [ht.element hn, he]), hi.idx, if_pos (by omega), hi.order]
  have hlen := add_length be pre p ps v
  rw [hm] at hlen
  simp only [List.length_append, pad_length, enNum_length, List.length_singleton] at hlen
  have e4 : 2 ^ Element.u8.dvarExp = 1 := by decide
  have ep : ∀ n, pad n 1 = [] := fun n => by unfold pad; rw [padding_one]; rfl
  refine Outcome.align hE (by decide) hi.holds (by rw [← hi.idx]; exact hi.max) (y := []) (by simp)
    (by rw [e4, padding_one]; omega) fun w1 h1 m1 => ?_
  rw [e4, ep, known_nil, List.append_nil] at h1 m1 ⊢
  refine Outcome.io (write_spec I hE.toGood _ _ _) h1 m1 (y := []) (by simp) (by simp; omega) fun w2 h2 m2 => ?_
  refine Outcome.io (write_spec I hE.toGood _ _ _) h2 m2 rfl (by simp; omega) fun w3 h3 m3 => ?_
  refine Outcome.io (zero_spec hE _ _) h3 m3 (by rw [List.append_assoc]) (by simp; omega) fun w4 h4 m4 => ?_
  refine Outcome.advance hi hn v hv hf w4 ?_ ?_ _ ?_ <;> rw [hm, known_append, known_append, ← List.append_assoc,
    ← List.append_assoc] <;> assumption

/-! ## Opening containers -/

theorem codes_yield {s : Sig} (h : View s t) (hk : s.kind = .node8) : ∀ n i, i + n = t.size →
    Yields codeIter ⟨s, i⟩ (t.bytes.drop i) := by
  have hl : s.len = some t.size := by rw [h.rep.len, hk]; simp [Kind.coeff]
  intro n
  induction n with
  | zero =>
    intro i hi
    have : t.bytes.drop i = [] := List.drop_eq_nil_of_le (by rw [bytes_length]; omega)
    rw [this]
    refine .nil (it' := ⟨s, i⟩) ?_ ?_
    · simp only [codeIter, Cursor.size_hint, hl, Option.bind_eq_bind, Option.bind_some, strictSub]
      rw [if_pos (by omega), show t.size - i = 0 by omega]
    · simp only [codeIter, Cursor.next, Cursor.element, h.rep.element_at, Cursor.move_next, Cursor.idx_next, hl,
        Option.bind_eq_bind, Option.bind_some, Option.map_some]
      rw [if_neg (by omega), List.getElem?_eq_none (by rw [els_length]; omega)]
      rfl
  | succ n ih =>
    intro i hi
    have hi' : i < t.els.length := by rw [els_length]; omega
    have hb : i < t.bytes.length := by rw [bytes_length]; omega
    have hc : t.bytes[i] = t.els[i].code := by
      have : (t.els.map Element.code)[i]? = some t.els[i].code := by
        rw [List.getElem?_map, List.getElem?_eq_getElem hi']; rfl
      rw [els_code, List.getElem?_eq_getElem hb, Option.some.injEq] at this
      exact this
    rw [List.drop_eq_getElem_cons hb]
    refine .cons (it' := ⟨s, i + 1⟩) ?_ ?_ (ih (i + 1) (by omega))
    · simp only [codeIter, Cursor.size_hint, hl, Option.bind_eq_bind, Option.bind_some, strictSub]
      rw [if_pos (by omega), List.length_drop, bytes_length]
      congr 1; omega
    · simp only [codeIter, Cursor.next, Cursor.element, h.rep.element_at, Cursor.move_next, Cursor.idx_next, hl,
        Option.bind_eq_bind, Option.bind_some, Option.map_some]
      rw [if_pos (by omega), List.getElem?_eq_getElem hi', hc]
      rfl

theorem open_length (be : Bool) (pre : Pat) (p : Part) (ps : List Part) (hv : p.vals = []) :
    Part.bytes be pre (p :: ps) = Part.bytes be pre ps ++ p.head be (Part.bytes be pre ps).length := by
  simp [Part.bytes, Part.body, hv, Val.marshals]

theorem variant_step (hE : Exact I) (hi : Inv be pre (p :: ps) e w) (hn : p.next = some .variant) {s : Sig} {t' : Ty}
    (hs : View s t') (hk : s.kind = .node8) (hl : t'.size < 2 ^ 8) :
    Outcome I be pre (p :: ps) (⟨.variant t', [], [], [t']⟩ :: p :: ps) e (e.variant I w s) := by
  obtain ⟨t, ht⟩ := hi.track
  have hlen := open_length be pre ⟨.variant t', [], [], [t']⟩ (p :: ps) rfl
  simp only [Part.head] at hlen
  have hlen' := congrArg List.length hlen
  simp only [List.length_append, known_length, enNum_length, bytes_length, List.length_singleton] at hlen'
  unfold Enc.variant
  rw [expect_ok (by rw [ht.element hn]; rfl), hi.idx, hi.order, hs.rep.len, hk]
  simp only [Kind.coeff, Nat.one_mul, hs.rep.new]
  rw [if_pos (by omega)]
  have e4 : 2 ^ Element.u8.dvarExp = 1 := by decide
  have ep : ∀ n, pad n 1 = [] := fun n => by unfold pad; rw [padding_one]; rfl
  refine Outcome.align hE (by decide) hi.holds (by rw [← hi.idx]; exact hi.max) (y := []) (by simp)
    (by rw [e4, padding_one]; omega) fun w1 h1 m1 => ?_
  rw [e4, ep, known_nil, List.append_nil] at h1 m1 ⊢
  refine Outcome.io (write_spec I hE.toGood _ _ _) h1 m1 (y := []) (by simp) (by simp; omega) fun w2 h2 m2 => ?_
  have hy := codes_yield hs hk t'.size 0 (by omega)
  rw [List.drop_zero] at hy
  refine Outcome.io (writeIter_spec I hE codeIter _ _ _ _ hy) h2 m2 rfl (by simp [bytes_length]; omega) fun w3 h3 m3 => ?_
  refine Outcome.io (zero_spec hE _ _) h3 m3 (by rw [List.append_assoc]) (by simp [bytes_length]; omega) fun w4 h4 m4 => ?_
  rw [List.append_assoc, List.append_assoc, ← known_append, ← known_append, ← List.append_assoc, ← hlen] at h4 m4 ⊢
  refine ⟨_, _, _, rfl, .inl ⟨rfl, ⟨rfl, ⟨t', ?_⟩, rfl, h4, m4⟩, rfl, rfl, rfl⟩⟩
  exact .variant (vals := []) (tys := []) (todo := [t']) ht hn hs rfl trivial trivial hl

theorem array_step (hE : Exact I) (hi : Inv be pre (p :: ps) e w) (hn : p.next = some (.array u)) :
    Outcome I be pre (p :: ps) (⟨.array u, [], [], []⟩ :: p :: ps) e (e.array I w) := by
  obtain ⟨t, ht⟩ := hi.track
  have hlen := open_length be pre ⟨.array u, [], [], []⟩ (p :: ps) rfl
  simp only [Part.head, Part.body, Val.marshals, if_true] at hlen
  have hlen' := congrArg List.length hlen
  simp only [List.length_append, known_length, List.length_replicate, pad_length] at hlen'
  unfold Enc.array
  rw [expect_ok (by rw [ht.element hn]; rfl), hi.idx, hi.order, ht.down hn]
  simp only []
  rw [el_dvar, ht.move_down hn rfl]
  have ha : u.dvarAlign < 31 := by
    cases u with
    | basic b => cases b <;> decide
    | _ => simp only [Ty.dvarAlign]; decide
  have e4 : 2 ^ Element.u32.dvarExp = 4 := by decide
  have hstart : (Part.bytes be pre (p :: ps) ++ known (pad (Part.bytes be pre (p :: ps)).length 4)).length
      = (Part.bytes be pre (p :: ps)).length + padding (Part.bytes be pre (p :: ps)).length 4 := by simp
  refine Outcome.align hE (by decide) hi.holds (by rw [← hi.idx]; exact hi.max) (y := []) (by simp) (by rw [e4]; omega) fun w1 h1 m1 => ?_
  rw [e4] at h1 m1 ⊢
  refine Outcome.io (write_spec I hE.toGood _ _ _) h1 m1 rfl (by simp; omega) fun w2 h2 m2 => ?_
  have hl2 : (Part.bytes be pre (p :: ps) ++ known (pad (Part.bytes be pre (p :: ps)).length 4) ++ known (enNum be 4 0)).length
      = (Part.bytes be pre (p :: ps)).length + padding (Part.bytes be pre (p :: ps)).length 4 + 4 := by simp; omega
  refine Outcome.align hE ha h2 m2 (by rw [List.append_assoc]) (by rw [hl2]; omega) fun w3 h3 m3 => ?_
  rw [hl2] at h3 m3 ⊢
  rw [enNum_zero, List.append_assoc, List.append_assoc] at h3 m3 ⊢
  rw [List.append_assoc] at hlen
  rw [← hlen] at h3 m3 ⊢
  refine ⟨_, _, _, rfl, .inl ⟨rfl, ⟨rfl, ⟨t, ?_⟩, rfl, h3, m3⟩, rfl, rfl, rfl⟩⟩
  refine .array (vals := []) ht hn trivial rfl trivial ?_ ?_
  · exact hstart
  · show (Part.bytes be pre (⟨.array u, [], [], []⟩ :: p :: ps)).length = _
    rw [hlen']; unfold firstElement; omega

theorem bracket_step (hE : Exact I) (hi : Inv be pre (p :: ps) e w) (hn : p.next = some u) (q : Part) (el : Element)
    (he : u.el = el) (hq : (∃ ts, u = .struct ts ∧ q = ⟨.struct, [], [], ts⟩)
      ∨ ∃ k v, u = .dict k v ∧ q = ⟨.dict, [], [], [.basic k, v]⟩) :
    Outcome I be pre (p :: ps) (q :: p :: ps) e (e.bracket I w el) := by
  obtain ⟨t, ht⟩ := hi.track
  have hlen : Part.bytes be pre (q :: p :: ps) = Part.bytes be pre (p :: ps) ++ known (pad (Part.bytes be pre (p :: ps)).length 8) := by
    rcases hq with ⟨ts, rfl, rfl⟩ | ⟨k, v, rfl, rfl⟩ <;> rw [open_length _ _ _ _ rfl] <;> rfl
  have hlen' := congrArg List.length hlen
  simp only [List.length_append, known_length, pad_length] at hlen'
  have hd : u.dvarAlign = 3 := by rcases hq with ⟨ts, rfl, rfl⟩ | ⟨k, v, rfl, rfl⟩ <;> rfl
  have hcon : u.container = true := by rcases hq with ⟨ts, rfl, rfl⟩ | ⟨k, v, rfl, rfl⟩ <;> rfl
  unfold Enc.bracket
  rw [expect_ok (by rw [ht.element hn, he]), hi.idx, ht.dvarExp hn, hd]
  simp only []
  rw [ht.move_down hn hcon]
  refine Outcome.align hE (by decide) hi.holds (by rw [← hi.idx]; exact hi.max) (y := []) (by simp)
    (by rw [show 2 ^ 3 = 8 from rfl]; omega) fun w1 h1 m1 => ?_
  rw [show 2 ^ 3 = 8 from rfl, ← hlen] at h1 m1 ⊢
  refine ⟨_, _, _, rfl, .inl ⟨rfl, ⟨hi.order, ⟨t, ?_⟩, rfl, h1, m1⟩, rfl, rfl, rfl⟩⟩
  rcases hq with ⟨ts, rfl, rfl⟩ | ⟨k, v, rfl, rfl⟩
  · have := Track.struct (be := be) (pre := pre) (vals := []) (tys := []) (todo := ts) (L' := ⟨(Part.bytes be pre (⟨.struct, [], [], ts⟩ :: p :: ps)).length,
      (Part.bytes be pre (⟨.struct, [], [], ts⟩ :: p :: ps)).length, (Part.bytes be pre (⟨.struct, [], [], ts⟩ :: p :: ps)).length⟩) ht hn trivial rfl trivial
    subst he
    simpa [Ty.el] using this
  · have := Track.dict (be := be) (pre := pre) (vals := []) (tys := []) (todo := [.basic k, v]) (L' := ⟨(Part.bytes be pre (⟨.dict, [], [], [.basic k, v]⟩ :: p :: ps)).length,
      (Part.bytes be pre (⟨.dict, [], [], [.basic k, v]⟩ :: p :: ps)).length, (Part.bytes be pre (⟨.dict, [], [], [.basic k, v]⟩ :: p :: ps)).length⟩) ht hn rfl trivial rfl trivial
    subst he
    simpa [Ty.el] using this

/-! ## Closing containers -/

theorem pop_step (hi : Inv be pre (p :: ps) e w) (hc : p.closes = true)
    (hl : ¬ p.tooLong be (Part.bytes be pre ps).length) :
    ∃ q qs el L₀ oc S₀ v, ps = q :: qs ∧ e.stack = (el, L₀, oc) :: S₀ ∧ p.value = some v
      ∧ ∀ w' : Writer σ, Holds w'.mem (Part.bytes be pre ps ++ known (v.marshal be (Part.bytes be pre ps).length)) →
        e.level.idx = (Part.bytes be pre ps).length + (v.marshal be (Part.bytes be pre ps).length).length →
        Outcome I be pre (p :: ps) (q.add v :: qs) e (e.pop w' L₀ oc S₀) := by
  obtain ⟨t, ht⟩ := hi.track
  obtain ⟨q, qs, el, L₀, oc, S₀, t₀, c₀, v, u, rfl, hS, h0, hup, hn, hv, hhas, hfit, _⟩ := ht.closing hc
  refine ⟨q, qs, el, L₀, oc, S₀, v, rfl, hS, hv, fun w' hh hidx => ?_⟩
  obtain ⟨x, hx, _, hadd⟩ := h0.add hn
  have hw := bytes_add be pre q qs v
  have hst : c₀.move_step = some (c₀.maybe_move x) := by unfold Cursor.move_step; rw [hx]; rfl
  have hpop : e.pop w' L₀ oc S₀ = some ({ e with
      level := { L₀ with idx := e.level.idx }, cursor := c₀.maybe_move x, stack := S₀ }, w', .ok) := by
    cases oc with
    | none => simp only [] at hup; simp only [Enc.pop, hup, hst]
    | some c => simp only [Option.some.injEq] at hup; subst hup; simp only [Enc.pop, hst]
  rw [hpop]
  refine ⟨_, _, _, rfl, .inl ⟨rfl, ⟨hi.order, ⟨t₀, hadd v _ hhas (hfit hl) rfl rfl⟩, ?_, hw.holds hh, hi.max⟩, rfl, rfl, rfl⟩⟩
  rw [hw.1]
  simp [hidx]

theorem close_step (hE : Exact I) (hi : Inv be pre (p :: ps) e w) (hc : p.closes = true) :
    (p.tooLong be (Part.bytes be pre ps).length → e.close I w = some (e, w, .brk (some .dataOverflow)))
    ∧ (¬ p.tooLong be (Part.bytes be pre ps).length →
      ∃ q qs v, ps = q :: qs ∧ p.value = some v ∧ Outcome I be pre (p :: ps) (q.add v :: qs) e (e.close I w)) := by
  obtain ⟨t, ht⟩ := hi.track
  obtain ⟨x, hx, hxs⟩ := ht.step
  have hfull : p.full = true := by
    obtain ⟨k, vs, tys, todo⟩ := p
    cases k <;> simp_all [Part.closes, Part.full]
  rw [hfull] at hxs
  have hx0 : x = none := by cases x <;> simp_all
  subst hx0
  obtain ⟨q, qs, el, L₀, oc, S₀, t₀, c₀, v, u, hps, hS, h0, hup, hn, hv, hhas, hfit, hel⟩ := ht.closing hc
  rcases hel with ⟨b, rfl, hk, hmeta, hfrom⟩ | ⟨hel, hk⟩
  · -- arrays
    obtain ⟨hb, hval, hmar⟩ := array_bytes be pre p ps b hk _ rfl
    have hstart : p.start (Part.bytes be pre ps).length = firstElement (Part.bytes be pre ps).length b := by
      unfold Part.start; rw [hk]
    have hn' : e.level.idx - e.level.from_ = (p.body be (Part.bytes be pre ps).length).length := by
      rw [hi.idx, bytes_cons_length, hfrom, hstart]; omega
    have hsub : strictSub e.level.idx e.level.from_ = some (p.body be (Part.bytes be pre ps).length).length := by
      unfold strictSub
      rw [if_pos (by rw [hi.idx, bytes_cons_length, hfrom, hstart]; omega), hn']
    have htl : p.tooLong be (Part.bytes be pre ps).length ↔ 2 ^ 32 ≤ (p.body be (Part.bytes be pre ps).length).length := by
      unfold Part.tooLong; rw [hk]
    unfold Enc.close
    simp only [hx, hS, hsub]
    refine ⟨fun hl => ?_, fun hl => ?_⟩
    · rw [htl] at hl
      rw [if_pos (by omega), if_neg (by omega)]
    · obtain ⟨q', qs', el', L', oc', S', v', hps', hS', hv', hpop⟩ := pop_step (I := I) hi hc hl
      rw [hS'] at hS
      simp only [List.cons.injEq, Prod.mk.injEq] at hS
      obtain ⟨⟨rfl, rfl, rfl⟩, rfl⟩ := hS
      refine ⟨q', qs', v', hps', hv', ?_⟩
      rw [hval, Option.some.injEq] at hv'
      subst hv'
      rw [htl] at hl
      have hidx : e.level.idx = (Part.bytes be pre ps).length
          + ((Val.array b p.vals).marshal be (Part.bytes be pre ps).length).length := by
        rw [hi.idx, hb, hmar]; simp; omega
      by_cases h0 : (p.body be (Part.bytes be pre ps).length).length > 0
      · rw [if_pos h0, if_pos (by omega)]
        have hnb : p.body be (Part.bytes be pre ps).length ≠ [] := by intro h; rw [h] at h0; simp at h0
        have hh := hi.holds
        rw [hb, if_neg hnb] at hh
        have hml : e.level.meta_ = (Part.bytes be pre ps ++ known (pad (Part.bytes be pre ps).length 4)).length := by
          rw [hmeta]; simp
        rw [hi.order, hml]
        have hw := write_spec I hE.toGood w (Part.bytes be pre ps ++ known (pad (Part.bytes be pre ps).length 4)).length
          (enNum be 4 (p.body be (Part.bytes be pre ps).length).length)
        generalize write I w (Part.bytes be pre ps ++ known (pad (Part.bytes be pre ps).length 4)).length
          (enNum be 4 (p.body be (Part.bytes be pre ps).length).length) = r at hw
        cases hw with
        | all st _ =>
          refine hpop _ ?_ hidx
          have := hh.patch (enNum be 4 (p.body be (Part.bytes be pre ps).length).length) (by simp)
          rw [hmar]
          simpa [List.append_assoc] using this
        | refused st st' j z hj hmap =>
          refine ⟨e, _, _, rfl, .inr ⟨isIo_map z, rfl, ?_, .inr ⟨st, _, _, z, ?_, by rw [hmap]⟩⟩⟩
          · show Holds (put w.mem _ _) _
            rw [hb, if_neg hnb]
            exact hh.scratch _ (by simp; omega)
          · have := add_length be pre q' qs' (Val.array b p.vals)
            rw [← hps', hmar] at this
            rw [this]
            simp at hj ⊢; omega
      · rw [if_neg h0]
        have hnb : p.body be (Part.bytes be pre ps).length = [] := List.eq_nil_of_length_eq_zero (by omega)
        refine hpop _ ?_ hidx
        have hh := hi.holds
        rw [hb, if_pos hnb] at hh
        rw [hmar, hnb]
        simp only [List.length_nil, known_append, enNum_zero, known_nil, List.append_nil, hnb, List.append_assoc] at hh ⊢
        exact hh
  · have hl : ¬ p.tooLong be (Part.bytes be pre ps).length := by
      unfold Part.tooLong
      cases hk' : p.kind <;> simp_all
    refine ⟨fun h => absurd h hl, fun _ => ?_⟩
    obtain ⟨q', qs', el', L', oc', S', v', hps', hS', hv', hpop⟩ := pop_step (I := I) hi hc hl
    rw [hS'] at hS
    simp only [List.cons.injEq, Prod.mk.injEq] at hS
    obtain ⟨⟨rfl, rfl, rfl⟩, rfl⟩ := hS
    refine ⟨q', qs', v', hps', hv', ?_⟩
    have hb := bytes_value be pre p ps v' hv' hk
    have := hpop w (by rw [← hb]; exact hi.holds) (by rw [hi.idx, hb]; simp)
    unfold Enc.close
    simp only [hx, hS']
    rcases hel with rfl | rfl | rfl <;> exact this

theorem Track.outer {t c L S} (h : Track be pre (p :: ps) t c L S) (hf : p.full = true) (hc : p.closes = false) :
    ps = [] := by
  cases h <;> first
    | rfl
    | (simp only [Part.closes] at hc; rw [hc] at hf; cases hf)

theorem close_reject (hi : Inv be pre (p :: ps) e w) (hc : p.closes = false) :
    e.close I w = some (e, w, .brk (some .mismatch)) := by
  obtain ⟨t, ht⟩ := hi.track
  obtain ⟨x, hx, hxs⟩ := ht.step
  unfold Enc.close
  rw [hx]
  cases hf : p.full with
  | false => rw [hf] at hxs; cases x <;> simp_all
  | true =>
    rw [hf] at hxs
    cases x with
    | some _ => simp at hxs
    | none =>
      have := ht.stack.mpr (ht.outer hf hc)
      rw [List.isEmpty_iff] at this
      simp only [this]

/-! ## Calls for values -/

/-- The element a call is for. -/
def Op.element : Op → Element
  | .u16 _ => .u16
  | .u32 _ => .u32
  | .u64 _ => .u64
  | .string _ => .string
  | .object _ => .object
  | .signature _ => .signature
  | .variant _ => .variant
  | .array => .array
  | .structure => .structOpen
  | .dict => .dictOpen
  | _ => .u8

theorem suits_iff (op : Op) (u : Ty) (h : op.isValue = true) : op.suits u = true ↔ u.el = op.element := by
  cases op <;> first
    | (cases h; done)
    | (cases u with
      | basic b => cases b <;> simp [Op.suits, Op.element, Ty.el, Basic.el]
      | _ => simp [Op.suits, Op.element, Ty.el])

theorem element_ty (op : Op) : ∃ u : Ty, op.element = u.el := by
  cases op
  case u16 => exact ⟨.basic .uint16, rfl⟩
  case u32 => exact ⟨.basic .uint32, rfl⟩
  case u64 => exact ⟨.basic .uint64, rfl⟩
  case string => exact ⟨.basic .string, rfl⟩
  case object => exact ⟨.basic .objectPath, rfl⟩
  case signature => exact ⟨.basic .signature, rfl⟩
  case variant => exact ⟨.variant, rfl⟩
  case array => exact ⟨.array .variant, rfl⟩
  case «structure» => exact ⟨.struct [], rfl⟩
  case dict => exact ⟨.dict .byte .variant, rfl⟩
  all_goals exact ⟨.basic .byte, rfl⟩

/-- A call for a value. -/
theorem value_step (hE : Exact I) (hi : Inv be pre (p :: ps) e w) (op : Op) (hs : op.sane) (hv : op.isValue = true) :
    ((∀ u, p.next = some u → op.suits u = false) ∧ op.run I e w = some (e, w, .res (.brk (some .mismatch))))
    ∨ ∃ u, p.next = some u ∧ op.suits u = true ∧
      ((op.long ∧ op.run I e w = some (e, w, .res (.brk (some .dataOverflow))))
      ∨ (¬ op.long ∧ ∃ qs s, Effect op u (p :: ps) qs ∧ op.run I e w = s.map (fun (e, w, r) => (e, w, .res r))
        ∧ Outcome I be pre (p :: ps) qs e s)) := by
  obtain ⟨t, ht⟩ := hi.track
  by_cases hn : ∃ u, p.next = some u ∧ op.suits u = true
  · right
    obtain ⟨u, hn, hsu⟩ := hn
    have hel := ht.element hn
    refine ⟨u, hn, hsu, ?_⟩
    cases op with
    | u16 v =>
      right
      cases u <;> simp [Op.suits] at hsu
      rename_i b; cases b <;> simp at hsu
      refine ⟨id, _, _, .u16 v _ p ps, rfl, ?_⟩
      rw [hi.order]
      exact fixed_step hE hi hn (.u16 v) trivial trivial _ rfl _ (fun off => rfl) (by decide)
    | u32 v =>
      right
      cases u <;> simp [Op.suits] at hsu
      rename_i b; cases b <;> simp at hsu
      refine ⟨id, _, _, .u32 v _ p ps, rfl, ?_⟩
      rw [hi.order]
      exact fixed_step hE hi hn (.u32 v) trivial trivial _ rfl _ (fun off => rfl) (by decide)
    | u64 v =>
      right
      cases u <;> simp [Op.suits] at hsu
      rename_i b; cases b <;> simp at hsu
      refine ⟨id, _, _, .u64 v _ p ps, rfl, ?_⟩
      rw [hi.order]
      exact fixed_step hE hi hn (.u64 v) trivial trivial _ rfl _ (fun off => rfl) (by decide)
    | string s =>
      cases u <;> simp [Op.suits] at hsu
      rename_i b; cases b <;> simp at hsu
      by_cases hl : 2 ^ 32 ≤ s.length
      · left
        refine ⟨hl, ?_⟩
        simp only [Op.run, Enc.str32]
        rw [expect_ok (by rw [hel]; rfl), if_neg (by omega)]; rfl
      · right
        exact ⟨hl, _, _, .string s _ p ps, rfl, str32_step hE hi hn (.string s) trivial _ rfl s (by omega)
          (show s.length < 2 ^ 32 by omega) (fun off => rfl)⟩
    | object s =>
      cases u <;> simp [Op.suits] at hsu
      rename_i b; cases b <;> simp at hsu
      by_cases hl : 2 ^ 32 ≤ s.length
      · left
        refine ⟨hl, ?_⟩
        simp only [Op.run, Enc.str32]
        rw [expect_ok (by rw [hel]; rfl), if_neg (by omega)]; rfl
      · right
        exact ⟨hl, _, _, .object s _ p ps, rfl, str32_step hE hi hn (.object s) trivial _ rfl s (by omega)
          (show s.length < 2 ^ 32 by omega) (fun off => rfl)⟩
    | signature s =>
      cases u <;> simp [Op.suits] at hsu
      rename_i b; cases b <;> simp at hsu
      by_cases hl : 2 ^ 8 ≤ s.length
      · left
        refine ⟨hl, ?_⟩
        simp only [Op.run, Enc.str8]
        rw [expect_ok (by rw [hel]; rfl), if_neg (by omega)]; rfl
      · right
        exact ⟨hl, _, _, .signature s _ p ps, rfl, str8_step hE hi hn (.signature s) trivial _ rfl s (by omega)
          (show s.length < 2 ^ 8 by omega) (fun off => rfl)⟩
    | variant s =>
      cases u <;> simp [Op.suits] at hsu
      obtain ⟨t', hs, hk⟩ := hs
      by_cases hl : 2 ^ 8 ≤ s.kind.coeff * t'.size
      · left
        refine ⟨⟨_, hs.rep.len, hl⟩, ?_⟩
        simp only [Op.run, Enc.variant]
        rw [expect_ok (by rw [hel]; rfl), hs.rep.len]
        simp only []
        rw [if_neg (by omega)]; rfl
      · right
        have hk' : s.kind = .node8 := by
          rcases hk with hk | hk
          · exact hk
          · cases hkk : s.kind with
            | node8 => rfl
            | node64 => rw [hkk] at hl; exact absurd hk hl
        refine ⟨?_, _, _, .variant s t' _ _ hs, rfl, variant_step hE hi hn hs hk' ?_⟩
        · rintro ⟨n, hn1, hn2⟩
          rw [hs.rep.len, Option.some.injEq] at hn1
          omega
        · rw [hk'] at hl; simp [Kind.coeff] at hl; omega
    | array =>
      cases u <;> simp [Op.suits] at hsu
      exact .inr ⟨id, _, _, .array _ _, rfl, array_step hE hi hn⟩
    | «structure» =>
      cases u <;> simp [Op.suits] at hsu
      exact .inr ⟨id, _, _, .struct _ _, rfl, bracket_step hE hi hn _ _ rfl (.inl ⟨_, rfl, rfl⟩)⟩
    | dict =>
      cases u <;> simp [Op.suits] at hsu
      exact .inr ⟨id, _, _, .dict _ _ _, rfl, bracket_step hE hi hn _ _ rfl (.inr ⟨_, _, rfl, rfl⟩)⟩
    | close => cases hv
    | commit => cases hv
    | sub => cases hv
  · left
    have hno : ∀ u, p.next = some u → op.suits u = false := by
      intro u hu
      cases h : op.suits u with
      | false => rfl
      | true => exact absurd ⟨u, hu, h⟩ hn
    refine ⟨hno, ?_⟩
    have hx : ∃ x, e.cursor.element = some x ∧ x ≠ some op.element := by
      cases hn : p.next with
      | none =>
        obtain ⟨⟨x, h1, h2⟩, _⟩ := ht.ended hn
        obtain ⟨u, hu⟩ := element_ty op
        exact ⟨x, h1, hu ▸ h2 u⟩
      | some u =>
        refine ⟨_, ht.element hn, fun h => ?_⟩
        rw [Option.some.injEq] at h
        have := hno u hn
        simp [(suits_iff op u hv).mpr h] at this
    obtain ⟨x, h1, h2⟩ := hx
    cases op <;> first
      | (cases hv; done)
      | (simp only [Op.run, Enc.fixed, Enc.str32, Enc.str8, Enc.variant, Enc.array, Enc.bracket]
         simp only [Op.element] at h2
         rw [expect_not h1 h2]; rfl)

end Verif.Dbus
