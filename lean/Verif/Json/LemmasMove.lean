import Verif.Json.SpecMove
import Verif.Json.LemmasBuf
/-! # Lemmas: what the buffers of the JSON tokenizer cost -/
namespace Verif.Json
namespace Buffered

/-! ## What functions do to the buffers -/

/-- What a function does to the buffers with a character, and what it leaves of it. -/
inductive Shape (t : Buffered) (c : Option Char) : Buffered × Option Char → Prop
  | same (s : State) (rem : Option Char) : rem = none ∨ rem = c → Shape t c (t.to s, rem)
  | raw (s : State) (v : Char) : c = some v → Shape t c ((t.raw v).to s, none)
  | str (s : State) (v d : Char) : c = some v → Shape t c (((t.raw v).str d).to s, none)
  | num (s : State) (v : Char) (x : Buffered) : c = some v → x.capRaw = (t.raw v).capRaw → x.capStr = t.capStr →
    x.capNum = reserved t.capNum t.tok.accNum.length 1 → x.moved = (t.raw v).moved + growing t.capNum t.tok.accNum.length 1 →
    x.tok.acc = t.tok.acc ++ [v] → x.tok.accStr = t.tok.accStr → x.tok.accNum.length = t.tok.accNum.length + 1 → Shape t c (x.to s, none)
  | ends (rem : Option Char) : rem = none ∨ rem = c → Shape t c (t.prepare, rem)

/-- If the function returns. -/
def Shapes (t : Buffered) (c : Option Char) (r : Run (Buffered × Option Char)) : Prop := ∀ x, r.res = some x → Shape t c x

variable {t : Buffered} {c : Option Char} {v : Char}

theorem shapes_ret {x : Buffered × Option Char} (h : Shape t c x) : Shapes t c (.ret x) := by
  intro y hy
  cases hy
  exact h
theorem shapes_say (e : Ev) {r : Run (Buffered × Option Char)} (h : Shapes t c r) : Shapes t c (.say e r) := h
theorem shapes_panic : Shapes t c .panic := by intro y hy; cases hy
theorem shapes_ite {p : Prop} [Decidable p] {a b : Run (Buffered × Option Char)} (ha : Shapes t c a) (hb : Shapes t c b) :
    Shapes t c (if p then a else b) := by
  split
  · exact ha
  · exact hb

theorem shape_to {x : Buffered × Option Char} {s : State} (h : Shape (t.to s) c x) : Shape t c x := by
  cases h with
  | same s' rem h => exact .same s' rem h
  | raw s' v h => exact .raw s' v h
  | str s' v d h => exact .str s' v d h
  | num s' v x h h1 h2 h3 h4 h5 h6 h7 => exact .num s' v x h h1 h2 h3 h4 h5 h6 h7
  | ends rem h => exact .ends rem h

theorem shapes_to {r : Run (Buffered × Option Char)} {s : State} (h : Shapes (t.to s) c r) : Shapes t c r := fun x hx => shape_to (h x hx)

theorem shapes_same (s : State) : Shapes t c (.ret (t.to s, none)) := shapes_ret (.same s none (.inl rfl))
theorem shapes_stay : Shapes t c (.ret (t, none)) := shapes_same t.tok.state
theorem shapes_raw (s : State) : Shapes t (some v) (.ret ((t.raw v).to s, none)) := shapes_ret (.raw s v rfl)
theorem shapes_raw' : Shapes t (some v) (.ret (t.raw v, none)) := shapes_raw t.tok.state
theorem shapes_str (s : State) (d : Char) : Shapes t (some v) (.ret (((t.raw v).str d).to s, none)) := shapes_ret (.str s v d rfl)
theorem shapes_str' (d : Char) : Shapes t (some v) (.ret ((t.raw v).str d, none)) := shapes_str t.tok.state d
theorem shapes_end : Shapes t c (.ret (t.prepare, c)) := shapes_ret (.ends c (.inr rfl))
theorem shapes_last : Shapes t c (.ret (t.prepare, none)) := shapes_ret (.ends none (.inl rfl))

theorem shapes_digit (s : State) : Shapes t (some v) (t.digit v s) := by
  unfold digit num
  cases toDigit 10 v with
  | none => exact shapes_panic
  | some d =>
    refine shapes_ite (shapes_ret ?_) shapes_panic
    refine .num s v _ rfl rfl rfl rfl rfl rfl rfl ?_
    show (t.tok.accNum ++ [UInt8.ofNat d]).length = _
    rw [List.length_append]
    rfl

theorem shapes_number {s : Sign} {n m : Nat} {e : Sign} {k : Run (Buffered × Option Char)} (h : Shapes t c k) : Shapes t c (t.number s n m e k) := by
  unfold number Tokenizer.number
  exact shapes_ite (shapes_say _ h) shapes_panic

theorem shapes_endNumber (s : Sign) (n m : Nat) (e : Sign) : Shapes t c (t.endNumber s n m e c) := shapes_number shapes_end

theorem shapes_endIncomplete (s : Sign) (n m : Nat) (e : Sign) : Shapes t c (t.endIncomplete s n m e c) :=
  shapes_say _ (shapes_number shapes_end)

theorem shapes_keyword : Shapes t c (t.advanceKeyword c) := by
  cases c with
  | none => exact shapes_say _ shapes_last
  | some v =>
    have := shapes_say (t := t) t.tok.keyword (shapes_end (c := some v))
    exact shapes_ite this (shapes_ite this (shapes_ite this shapes_raw'))

theorem shapes_misc : Shapes t c (t.advanceMisc c) := by
  rcases t with ⟨⟨fl, st, a, b, n⟩, c1, c2, c3, m⟩
  cases st <;> cases c <;> simp only [advanceMisc] <;>
    first
    | exact shapes_panic
    | exact shapes_keyword
    | exact shapes_say _ shapes_last
    | exact shapes_ite (shapes_raw _) (shapes_to (shapes_keyword (t := to _ _)))
    | exact shapes_ite shapes_raw' (shapes_ite (shapes_say _ shapes_stay) (shapes_say _ shapes_end))
    | exact shapes_ite (shapes_say _ shapes_end) shapes_raw'

theorem shapes_num : Shapes t c (t.advanceNumber c) := by
  rcases t with ⟨⟨fl, st, a, b, n⟩, c1, c2, c3, m⟩
  cases st <;> cases c <;> simp only [advanceNumber] <;> repeat' with_reducible apply shapes_ite
  all_goals
    first
    | exact shapes_panic
    | exact shapes_digit _
    | exact shapes_say _ (shapes_digit _)
    | exact shapes_endNumber _ _ _ _
    | exact shapes_endIncomplete _ _ _ _
    | exact shapes_raw _

theorem shapes_char : Shapes t (some v) (t.advanceChar v) :=
  shapes_ite shapes_panic (shapes_ite (shapes_say _ shapes_last) (shapes_ite (shapes_raw _)
    (shapes_ite (shapes_say _ (shapes_str' _)) (shapes_str' _))))

theorem shapes_unicode (n : Nat) (x : BitVec 32) : Shapes t (some v) (t.advanceUnicode n x v) := by
  unfold advanceUnicode
  cases toDigit 16 v with
  | none => exact shapes_panic
  | some d =>
    refine shapes_ite (shapes_raw _) (shapes_ite (shapes_raw _) (shapes_ite (shapes_say _ (shapes_raw _)) ?_))
    cases fromU32 (x <<< 4 ||| BitVec.ofNat 32 d).toNat with
    | none => exact shapes_panic
    | some c => exact shapes_str _ _

theorem shapes_trail (l : BitVec 32) (n : Nat) (x : BitVec 32) : Shapes t (some v) (t.advanceTrail l n x v) := by
  unfold advanceTrail
  cases toDigit 16 v with
  | none => exact shapes_panic
  | some d =>
    refine shapes_ite (shapes_raw _) (shapes_ite (shapes_say _ (shapes_raw _)) (shapes_ite ?_ ?_))
    · cases Tokenizer.surrogates l (x <<< 4 ||| BitVec.ofNat 32 d) with
      | none => exact shapes_panic
      | some c => exact shapes_str _ _
    · cases fromU32 (x <<< 4 ||| BitVec.ofNat 32 d).toNat with
      | none => exact shapes_panic
      | some c => exact shapes_say _ (shapes_raw _)

theorem shapes_string : Shapes t c (t.advanceString c) := by
  cases c with
  | none => exact shapes_say _ shapes_last
  | some v =>
    rcases t with ⟨⟨fl, st, a, b, n⟩, c1, c2, c3, m⟩
    cases st <;> simp only [advanceString] <;> repeat' with_reducible apply shapes_ite
    all_goals
      first
      | exact shapes_char
      | exact shapes_unicode _ _
      | exact shapes_trail _ _ _
      | exact shapes_say _ (shapes_to (shapes_char (t := to _ _)))
      | exact shapes_raw _
      | exact shapes_str _ _
      | exact shapes_say _ (shapes_str _ _)
      | exact shapes_say _ (shapes_say _ (shapes_str _ _))

theorem shapes_start : Shapes t (some v) (t.start v) := by
  unfold start
  repeat' with_reducible apply shapes_ite
  all_goals
    first
    | exact shapes_raw _
    | exact shapes_same _
    | exact shapes_digit _
    | exact shapes_say _ shapes_stay
    | exact shapes_say _ (shapes_same _)
    | exact shapes_say _ (shapes_say _ shapes_stay)

theorem shapes_handle : Shapes t c (t.handle c) := by
  have h1 := shapes_misc (t := t) (c := c)
  have h2 := shapes_num (t := t) (c := c)
  have h3 := shapes_string (t := t) (c := c)
  have h4 : Shapes t c (.ret (t, c)) := shapes_ret (.same t.tok.state c (.inr rfl))
  rcases t with ⟨⟨fl, st, a, b, n⟩, c1, c2, c3, m⟩
  cases st <;> first | exact h1 | exact h2 | exact h3 | exact h4

/-! ## What that costs -/

/-- What has been put into a buffer since it was moved last, on account of the next move. -/
def credit (cap len : Nat) : Nat := 2 * len - cap

theorem credit_reserve (cap len add : Nat) (h : len ≤ cap) :
    growing cap len add + credit (reserved cap len add) (len + add) ≤ credit cap len + 2 * add := by
  unfold growing credit reserved
  split <;> omega

/-- The account of a tokenizer. -/
def Solvent (r k : Nat) (t : Buffered) : Prop :=
  t.moved + (credit t.capRaw (bytes t.tok.acc) + credit t.capStr (bytes t.tok.accStr) + credit t.capNum t.tok.accNum.length) + 12 * bytes t.tok.acc
    ≤ 12 * r + 2 * t.held + 2 * k

/-- What is told by the text of a token is no longer than that. -/
def Small (t : Buffered) : Prop := bytes t.tok.accStr ≤ bytes t.tok.acc ∧ t.tok.accNum.length ≤ bytes t.tok.acc

variable {r k : Nat}

theorem Solvent.mono {r' : Nat} (h : Solvent r k t) (hr : r ≤ r') : Solvent r' k t := by unfold Solvent at *; omega

theorem Solvent.raw (h : Solvent r k t) (hg : Good t) (v : Char) : Solvent (r + v.utf8Size) k (t.raw v) := by
  have := credit_reserve t.capRaw (bytes t.tok.acc) v.utf8Size hg.1.1
  unfold Solvent held at *
  simp only [Buffered.raw, Tokenizer.raw, bytes_append, bytes_one]
  omega

theorem Solvent.str (h : Solvent r k t) (hg : Good t) (v : Char) : Solvent r k (t.str v) := by
  have := credit_reserve t.capStr (bytes t.tok.accStr) v.utf8Size hg.2.1.1
  unfold Solvent held at *
  simp only [Buffered.str, Tokenizer.str, bytes_append, bytes_one]
  omega

theorem shrinking_le {cap len : Nat} (h : Sized cap len) : shrinking cap 0 4096 ≤ 2 * len := by
  unfold Sized at h
  unfold shrinking
  split <;> omega

theorem Solvent.prepare (h : Solvent r k t) (hg : Good t) (hs : Small t) : Solvent r k t.prepare := by
  have h1 := shrinking_le hg.1
  have h2 := shrinking_le hg.2.1
  have h3 := shrinking_le hg.2.2
  obtain ⟨s1, s2⟩ := hs
  unfold Solvent held at *
  simp only [Buffered.prepare, Tokenizer.prepare, bytes, List.length_nil, credit]
  omega

theorem small_prepare (t : Buffered) : Small t.prepare := ⟨Nat.le_refl _, Nat.le_refl _⟩

theorem solvent_shape {v : Char} {x : Buffered × Option Char} (h : Solvent r k t) (hg : Good t) (hs : Small t) (hx : Shape t (some v) x) :
    Solvent (r + v.utf8Size) k x.1 ∧ (∀ u, x.2 = some u → u = v ∧ Solvent r k x.1 ∧ Good x.1 ∧ Small x.1) := by
  cases hx with
  | same s rem hr => exact ⟨h.mono (Nat.le_add_right _ _), fun u hu => ⟨by rcases hr with hr | hr <;> (simp only [hr] at hu; cases hu); rfl, h, hg, hs⟩⟩
  | raw s w hw => cases hw; exact ⟨h.raw hg v, fun u hu => by cases hu⟩
  | str s w d hw => cases hw; exact ⟨(h.raw hg v).str (hg.raw v) d, fun u hu => by cases hu⟩
  | num s w y hw h1 h2 h3 h4 h5 h6 h7 =>
    cases hw
    refine ⟨?_, fun u hu => by cases hu⟩
    have := (h.raw hg v)
    have hc := credit_reserve t.capNum t.tok.accNum.length 1 hg.2.2.1
    unfold Solvent held at *
    simp only [Buffered.to, h1, h2, h3, h4, h5, h6, h7]
    simp only [Buffered.raw, Tokenizer.raw, bytes_append, bytes_one] at this ⊢
    omega
  | ends rem hr =>
    exact ⟨(h.prepare hg hs).mono (Nat.le_add_right _ _),
      fun u hu => ⟨by rcases hr with hr | hr <;> (simp only [hr] at hu; cases hu); rfl, h.prepare hg hs, good_prepare t, small_prepare t⟩⟩

theorem solvent_push {t' : Buffered} {evs : List Ev} (h : Solvent r k t) (hg : Good t) (hs : Small t) (ha : t.advance (some v) = ⟨evs, some t'⟩) :
    Solvent (r + v.utf8Size) k t' := by
  unfold advance at ha
  have hh := shapes_handle (t := t) (c := some v)
  rcases hr : t.handle (some v) with ⟨evs', _ | ⟨t1, _ | u⟩⟩
  · rw [hr] at ha; cases ha
  · rw [hr] at ha hh
    cases ha
    exact (solvent_shape h hg hs (hh _ rfl)).1
  · rw [hr] at ha hh
    obtain ⟨rfl, g1, g2, g3⟩ := (solvent_shape h hg hs (hh _ rfl)).2 u rfl
    have hs' := shapes_start (t := t1) (v := u)
    simp only [Run.mk.injEq, Option.map_eq_some_iff] at ha
    obtain ⟨-, x, hx, rfl⟩ := ha
    exact (solvent_shape g1 g2 g3 (hs' x hx)).1

theorem solvent_eof {t' : Buffered} {evs : List Ev} (h : Solvent r k t) (hg : Good t) (hs : Small t) (ha : t.advance none = ⟨evs, some t'⟩) :
    Solvent r k t' := by
  unfold advance at ha
  have hh := shapes_handle (t := t) (c := none)
  rcases hr : t.handle none with ⟨evs', _ | ⟨t1, _ | u⟩⟩
  · rw [hr] at ha; cases ha
  · rw [hr] at ha hh
    cases ha
    have := hh _ rfl
    generalize hx : (t', (none : Option Char)) = x at this
    cases this with
    | same s rem _ => cases hx; exact h
    | raw s w hw => cases hw
    | str s w d hw => cases hw
    | num s w y hw => cases hw
    | ends rem _ => cases hx; exact h.prepare hg hs
  · rw [hr] at hh
    have := hh _ rfl
    generalize hx : (t1, some u) = x at this
    cases this with
    | same s rem hr => cases hx; rcases hr with hr | hr <;> cases hr
    | raw s w hw => cases hw
    | str s w d hw => cases hw
    | num s w y hw => cases hw
    | ends rem hr => cases hx; rcases hr with hr | hr <;> cases hr

/-! ## And that it does cost this -/

/-- What a buffer of some capacity has cost at least, eight bytes of which are for free. -/
def Paid (t : Buffered) : Prop :=
  (t.capRaw = 0 ∨ 8 ≤ t.capRaw) ∧ (t.capStr = 0 ∨ 8 ≤ t.capStr) ∧ (t.capNum = 0 ∨ 8 ≤ t.capNum)
    ∧ max 8 t.capRaw + max 8 t.capStr + max 8 t.capNum ≤ t.moved + 24

theorem paid_reserve (cap len add : Nat) (h : len ≤ cap) (ha : add ≤ 8) (hc : cap = 0 ∨ 8 ≤ cap) :
    (reserved cap len add = 0 ∨ 8 ≤ reserved cap len add) ∧ max 8 (reserved cap len add) ≤ max 8 cap + growing cap len add := by
  unfold reserved growing
  split <;> omega

theorem paid_shrink (cap : Nat) (hc : cap = 0 ∨ 8 ≤ cap) : (shrunk cap 0 4096 = 0 ∨ 8 ≤ shrunk cap 0 4096) ∧ max 8 (shrunk cap 0 4096) ≤ max 8 cap := by
  unfold shrunk
  split <;> omega

theorem Paid.raw (h : Paid t) (hg : Good t) (v : Char) : Paid (t.raw v) := by
  obtain ⟨h1, h2, h3, h4⟩ := h
  have hv : v.utf8Size ≤ 8 := Nat.le_trans v.utf8Size_le_four (by decide)
  obtain ⟨a, b⟩ := paid_reserve t.capRaw (bytes t.tok.acc) v.utf8Size hg.1.1 hv h1
  refine ⟨a, h2, h3, ?_⟩
  simp only [Buffered.raw]
  omega

theorem Paid.str (h : Paid t) (hg : Good t) (v : Char) : Paid (t.str v) := by
  obtain ⟨h1, h2, h3, h4⟩ := h
  have hv : v.utf8Size ≤ 8 := Nat.le_trans v.utf8Size_le_four (by decide)
  obtain ⟨a, b⟩ := paid_reserve t.capStr (bytes t.tok.accStr) v.utf8Size hg.2.1.1 hv h2
  refine ⟨h1, a, h3, ?_⟩
  simp only [Buffered.str]
  omega

theorem Paid.prepare (h : Paid t) : Paid t.prepare := by
  obtain ⟨h1, h2, h3, h4⟩ := h
  have p1 := paid_shrink _ h1
  have p2 := paid_shrink _ h2
  have p3 := paid_shrink _ h3
  refine ⟨p1.1, p2.1, p3.1, ?_⟩
  simp only [Buffered.prepare]
  omega

theorem paid_shape {v : Char} {x : Buffered × Option Char} (h : Paid t) (hg : Good t) (hx : Shape t (some v) x) :
    Paid x.1 ∧ (∀ u, x.2 = some u → u = v ∧ Good x.1) := by
  cases hx with
  | same s rem hr => exact ⟨h, fun u hu => ⟨by rcases hr with hr | hr <;> (simp only [hr] at hu; cases hu); rfl, hg⟩⟩
  | raw s w hw => cases hw; exact ⟨h.raw hg v, fun u hu => by cases hu⟩
  | str s w d hw => cases hw; exact ⟨(h.raw hg v).str (hg.raw v) d, fun u hu => by cases hu⟩
  | num s w y hw h1 h2 h3 h4 h5 h6 h7 =>
    cases hw
    refine ⟨?_, fun u hu => by cases hu⟩
    obtain ⟨p1, p2, p3, p4⟩ := h.raw hg v
    obtain ⟨a, b⟩ := paid_reserve t.capNum t.tok.accNum.length 1 hg.2.2.1 (by decide) h.2.2.1
    refine ⟨by rw [← h1] at p1; exact p1, by rw [Buffered.to, h2]; exact p2, by rw [Buffered.to, h3]; exact a, ?_⟩
    have e2 : (t.raw v).capStr = t.capStr := rfl
    have e3 : (t.raw v).capNum = t.capNum := rfl
    simp only [Buffered.to, h1, h2, h3, h4]
    omega
  | ends rem hr =>
    exact ⟨h.prepare, fun u hu => ⟨by rcases hr with hr | hr <;> (simp only [hr] at hu; cases hu); rfl, good_prepare t⟩⟩

theorem paid_push {t' : Buffered} {evs : List Ev} (h : Paid t) (hg : Good t) (ha : t.advance (some v) = ⟨evs, some t'⟩) : Paid t' := by
  unfold advance at ha
  have hh := shapes_handle (t := t) (c := some v)
  rcases hr : t.handle (some v) with ⟨evs', _ | ⟨t1, _ | u⟩⟩
  · rw [hr] at ha; cases ha
  · rw [hr] at ha hh
    cases ha
    exact (paid_shape h hg (hh _ rfl)).1
  · rw [hr] at ha hh
    have g1 := (paid_shape h hg (hh _ rfl)).1
    obtain ⟨rfl, g2⟩ := (paid_shape h hg (hh _ rfl)).2 u rfl
    have hs' := shapes_start (t := t1) (v := u)
    simp only [Run.mk.injEq, Option.map_eq_some_iff] at ha
    obtain ⟨-, x, hx, rfl⟩ := ha
    exact (paid_shape g1 g2 (hs' x hx)).1

end Buffered

open Buffered

theorem toil_life {fl : BitVec 32} {r k : Nat} {t : Buffered} (h : Toil fl r k t) : ∃ w, Life fl w t := by
  induction h with
  | new => exact ⟨_, .new⟩
  | push c _ ha ih => exact ⟨_, .push c ih.choose_spec ha⟩
  | eof _ ha ih => exact ⟨_, .eof ih.choose_spec ha⟩
  | stop c a b n m _ ha h1 h2 h3 h4 ih => exact ⟨_, .stop (some c) a b n m ih.choose_spec ha h1 h2 h3 h4⟩
  | stopEof a b n m _ ha h1 h2 h3 h4 ih => exact ⟨_, .stop none a b n m ih.choose_spec ha h1 h2 h3 h4⟩
  | reset _ ih => exact ⟨_, .reset ih.choose_spec⟩
  | clone _ ih => exact ⟨_, .clone ih.choose_spec⟩

theorem toil_small {fl : BitVec 32} {r k : Nat} {t : Buffered} (h : Toil fl r k t) : Good t ∧ Small t := by
  obtain ⟨w, hw⟩ := toil_life h
  obtain ⟨⟨_, h2, h3⟩, _⟩ := life_fits hw
  exact ⟨life_good hw, by omega, h3⟩

theorem solvent_moved {r k : Nat} {t : Buffered} (h : Solvent r k t) (hs : Small t) : t.moved + 6 * bytes t.tok.acc ≤ 12 * r + 2 * k := by
  unfold Solvent held at h
  obtain ⟨s1, s2⟩ := hs
  omega

theorem toil_solvent {fl : BitVec 32} {r k : Nat} {t : Buffered} (h : Toil fl r k t) : Solvent r k t := by
  induction h with
  | new => simp [Solvent, held, withFlags, Tokenizer.withFlags, bytes, credit]
  | push c h ha ih => exact solvent_push ih (toil_small h).1 (toil_small h).2 ha
  | eof h ha ih => exact solvent_eof ih (toil_small h).1 (toil_small h).2 ha
  | stop c a b n m h ha _ _ _ hm ih =>
    have h1 := solvent_push ih (toil_small h).1 (toil_small h).2 ha
    have h2 := toil_small (.push c h ha)
    have h3 := solvent_moved (h1.prepare h2.1 h2.2) (small_prepare _)
    simp only [Solvent, held, Tokenizer.prepare, bytes, List.length_nil, credit]
    omega
  | stopEof a b n m h ha _ _ _ hm ih =>
    have h1 := solvent_eof ih (toil_small h).1 (toil_small h).2 ha
    have h2 := toil_small (.eof h ha)
    have h3 := solvent_moved (h1.prepare h2.1 h2.2) (small_prepare _)
    simp only [Solvent, held, Tokenizer.prepare, bytes, List.length_nil, credit]
    omega
  | reset h ih => exact ih.prepare (toil_small h).1 (toil_small h).2
  | clone h ih =>
    unfold Solvent held at *
    simp only [Buffered.clone, credit]
    simp only [credit] at ih
    omega

end Verif.Json
