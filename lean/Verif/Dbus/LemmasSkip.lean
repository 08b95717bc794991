import Verif.Dbus.LemmasReads
import Verif.Dbus.SpecSkip
import Verif.Dbus.LemmasMem
/-! # Lemmas about what a decoder looks at -/
namespace Verif.Dbus
open Verif.Io

variable {R : Nat → Prop} {be : Bool} {data : List UInt8} {a b : DSt} {r : Ans} {u : Ty}

/-! ## Numbers -/

theorem leBytes_leNat : ∀ (l : List UInt8), leBytes l.length (leNat l) = l
  | [] => rfl
  | x :: l => by
    have hx : x.toNat < 256 := x.toNat_lt
    have h1 : (x.toNat + 256 * leNat l) / 256 = leNat l := by omega
    simp only [List.length_cons, leBytes, leNat, h1, leBytes_leNat l]
    congr 1
    apply UInt8.toNat.inj
    simp

theorem enNum_deNum (be : Bool) (l : List UInt8) : enNum be l.length (deNum be l) = l := by
  unfold deNum enNum
  cases be
  · exact leBytes_leNat l
  · have := leBytes_leNat l.reverse
    rw [List.length_reverse] at this
    simp only [if_true, this, List.reverse_reverse]

/-! ## Fields -/

theorem field_length {off n : Nat} {bs : List UInt8} (h : field data off n = some bs) : bs.length = n := by
  unfold field at h
  split at h
  · cases h; simp; omega
  · cases h

theorem field_some {off n : Nat} (h : off + n ≤ data.length) : ∃ bs, field data off n = some bs := by
  unfold field
  rw [if_pos h]
  exact ⟨_, rfl⟩

theorem field_get {off n : Nat} {bs : List UInt8} (h : field data off n = some bs) (i : Nat) (hi : i < n) :
    data[off + i]? = bs[i]? := by
  unfold field at h
  split at h
  · cases h
    rw [List.getElem?_take_of_lt hi, List.getElem?_drop]
  · cases h

theorem field_of_get {off : Nat} {bs : List UInt8} (h0 : off ≤ data.length)
    (h : ∀ i, i < bs.length → data[off + i]? = bs[i]?) : field data off bs.length = some bs := by
  have hl : off + bs.length ≤ data.length := by
    by_cases hb : bs.length = 0
    · omega
    · have h1 := h (bs.length - 1) (by omega)
      rw [List.getElem?_eq_getElem (l := bs) (by omega)] at h1
      obtain ⟨h2, _⟩ := List.getElem?_eq_some_iff.mp h1
      omega
  unfold field
  rw [if_pos hl]
  congr 1
  apply List.ext_getElem?
  intro i
  by_cases hi : i < bs.length
  · rw [List.getElem?_take_of_lt hi, List.getElem?_drop, h i hi]
  · rw [List.getElem?_eq_none (by simp; omega), List.getElem?_eq_none (by omega)]

/-! ## Requirements -/

theorem meets_append {off : Nat} {x y : List Cell} : Meets data off (x ++ y) ↔ Meets data off x ∧ Meets data (off + x.length) y := by
  constructor
  · intro h
    constructor
    · intro i c hc
      have hi : i < x.length := (List.getElem?_eq_some_iff.mp hc).1
      exact h i c (by rw [List.getElem?_append_left hi]; exact hc)
    · intro i c hc
      have := h (x.length + i) c (by rw [List.getElem?_append_right (by omega)]; rw [Nat.add_sub_cancel_left]; exact hc)
      rw [← Nat.add_assoc] at this
      exact this
  · rintro ⟨h1, h2⟩ i c hc
    by_cases hi : i < x.length
    · rw [List.getElem?_append_left hi] at hc
      exact h1 i c hc
    · rw [List.getElem?_append_right (by omega)] at hc
      have := h2 (i - x.length) c hc
      rw [show off + x.length + (i - x.length) = off + i by omega] at this
      exact this

theorem meets_free (data : List UInt8) (off n : Nat) : Meets data off (List.replicate n .free) := by
  intro i c hc
  rw [List.getElem?_replicate] at hc
  split at hc
  · cases hc; trivial
  · cases hc

theorem meets_one (data : List UInt8) (off : Nat) : Meets data off [.free] := meets_free data off 1

theorem meets_any {off : Nat} : Meets data off (List.replicate 4 .any) ↔ off + 4 ≤ data.length := by
  constructor
  · intro h
    have h1 : data[off + 3]? ≠ none := h 3 .any (by decide)
    rw [ne_eq, List.getElem?_eq_none_iff] at h1
    omega
  · intro h i c hc
    rw [List.getElem?_replicate] at hc
    split at hc
    · cases hc
      show data[off + i]? ≠ none
      rw [ne_eq, List.getElem?_eq_none_iff]
      omega
    · cases hc

theorem cells_length (bs : List UInt8) : (cells bs).length = bs.length := by simp [cells]

theorem cells_append (x y : List UInt8) : cells (x ++ y) = cells x ++ cells y := by simp [cells]

theorem meets_cells {off : Nat} {bs : List UInt8} (h0 : off ≤ data.length) :
    Meets data off (cells bs) ↔ field data off bs.length = some bs := by
  constructor
  · intro h
    refine field_of_get h0 fun i hi => ?_
    have h1 : data[off + i]? = some bs[i] := h i (.byte bs[i]) (by simp [cells, hi])
    rw [h1, List.getElem?_eq_getElem hi]
  · intro h i c hc
    simp only [cells, List.getElem?_map] at hc
    obtain ⟨x, hx, rfl⟩ := Option.map_eq_some_iff.mp hc
    show data[off + i]? = some x
    rw [field_get h i (List.getElem?_eq_some_iff.mp hx).1, hx]

/-- Given bytes, at least one. -/
theorem meets_bytes {off : Nat} {bs : List UInt8} (hb : bs ≠ []) : Meets data off (cells bs) ↔ field data off bs.length = some bs := by
  by_cases h0 : off ≤ data.length
  · exact meets_cells h0
  · have hl := List.length_pos_iff.mpr hb
    constructor
    · intro h
      have h1 : data[off + 0]? = some bs[0] := h 0 (.byte bs[0]) (by simp [cells, hl])
      have := (List.getElem?_eq_some_iff.mp h1).1
      omega
    · intro h
      have := field_le h
      omega

/-- A number and what follows. -/
theorem meets_text {off w : Nat} {bs s : List UInt8} (hw : 0 < w) (hb : bs.length = w) : Meets data off (cells (bs ++ s))
    ↔ field data off w = some bs ∧ field data (off + w) s.length = some s := by
  rw [cells_append, meets_append, cells_length, meets_bytes (by intro h; rw [h] at hb; simp at hb; omega), hb]
  constructor
  · rintro ⟨h1, h2⟩
    exact ⟨h1, (meets_cells (field_le h1)).mp h2⟩
  · rintro ⟨h1, h2⟩
    exact ⟨h1, (meets_cells (field_le h1)).mpr h2⟩

/-! ## What calls tell -/

theorem told_u16 {v : BitVec 16} (h : Gives R be data a .u16 (.u16 v) b) :
    field data (up a.idx 2) 2 = some (enNum be 2 v.toNat) ∧ b = a.past (up a.idx 2 + 2) := by
  cases h with
  | u16 _ bs _ h =>
    refine ⟨?_, rfl⟩
    rw [h]
    have hl := field_length h
    have := deNum_lt be bs
    have he := enNum_deNum be bs
    rw [hl] at this he
    rw [BitVec.toNat_ofNat, Nat.mod_eq_of_lt this, he]
  | u16Io _ _ _ _ h => cases h
  | textIo _ _ _ _ _ _ _ _ _ h => cases h

theorem told_text {x : Ask} {s : List UInt8} {w : Nat} (hw : x.width = some w) (h : Gives R be data a x (.str s) b) :
    s.length < 256 ^ w ∧ field data (up a.idx w) w = some (enNum be w s.length)
      ∧ field data (up a.idx w + w) s.length = some s ∧ b = a.past (up a.idx w + w + s.length + 1) := by
  cases h with
  | text _ _ u w' bs _ h1 h2 h3 h4 h5 h6 =>
    rw [hw] at h3; cases h3
    have hl := field_length h4
    have := deNum_lt be bs
    have he := enNum_deNum be bs
    have hs := field_length h5
    rw [hl] at this he
    rw [hs, he]
    exact ⟨this, h4, h5, rfl⟩
  | textIo _ _ _ _ _ _ _ _ _ h => cases h
  | _ => cases hw

theorem told_array (hn : a.next = some (.array u)) (h : Gives R be data a .array .ok b) : ∃ bs, field data (up a.idx 4) 4 = some bs
    ∧ b = { a with arrays := (u, deNum be bs) :: a.arrays, idx := firstElement a.idx u } := by
  cases h with
  | array _ u' bs h1 h2 => rw [hn] at h1; cases h1; exact ⟨bs, h2, rfl⟩
  | textIo _ _ _ _ _ _ _ _ _ h => cases h
  | arrayIo _ _ _ _ _ h => cases h

/-! ## Scripts -/

theorem givesAll_append_eq : ∀ {l l' : List Ask} {a b : DSt} {rs1 rs2 : List Ans}, GivesAll R be data a (l ++ l') (rs1 ++ rs2) b →
    rs1.length = l.length → ∃ m, GivesAll R be data a l rs1 m ∧ GivesAll R be data m l' rs2 b
  | [], l', a, b, rs1, rs2, h, hl => by
    have : rs1 = [] := List.length_eq_zero_iff.mp (by simpa using hl)
    subst this
    exact ⟨a, .nil _, h⟩
  | x :: l, l', a, b, [], rs2, h, hl => by simp at hl
  | x :: l, l', a, b, r :: rs1, rs2, h, hl => by
    cases h with
    | cons _ m _ _ _ _ _ h1 h2 =>
      obtain ⟨m', h3, h4⟩ := givesAll_append_eq h2 (by simpa using hl)
      exact ⟨m', .cons _ _ _ _ _ _ _ h1 h3, h4⟩

mutual
theorem reads_length : {v : Val} → {l : List Ask} → {rs : List Ans} → Reads v l rs → rs.length = l.length
  | _, _, _, .u16 _ => rfl
  | _, _, _, .string .. => rfl
  | _, _, _, .signature .. => rfl
  | _, _, _, .array _ _ _ _ h => by simp [readsAll_length h]
  | _, _, _, .sub .. => rfl
theorem readsAll_length : {vs : List Val} → {l : List Ask} → {rs : List Ans} → ReadsAll vs l rs → rs.length = l.length
  | _, _, _, .nil => rfl
  | _, _, _, .cons _ _ _ _ _ _ h h' => by simp [reads_length h, readsAll_length h']
end

/-- The right answers tell the data. -/
def Tells (R : Nat → Prop) (be : Bool) (data : List UInt8) (v : Val) (l : List Ask) (rs : List Ans) : Prop :=
  ∀ a b u, a.next = some u → v.has u → GivesAll R be data a l rs b →
    v.texts ∧ Meets data a.idx (v.cells be a.idx) ∧ b = a.past (a.idx + (v.cells be a.idx).length)

def TellsAll (R : Nat → Prop) (be : Bool) (data : List UInt8) (vs : List Val) (l : List Ask) (rs : List Ans) : Prop :=
  ∀ a b u n ar, a.arrays = (u, n) :: ar → Val.each vs u → GivesAll R be data a l rs b →
    Val.textsAll vs ∧ Meets data a.idx (Val.cellsAll be a.idx vs) ∧ b = { a with idx := a.idx + (Val.cellsAll be a.idx vs).length }

theorem text_tells (x : Ask) (v : Val) (s : List UInt8) (w : Nat) (hw : x.width = some w) (hw0 : 0 < w)
    (hm : ∀ off, v.cells be off = List.replicate (padding off w) .free ++ cells (enNum be w s.length ++ s) ++ [.free])
    (hf : s.length < 256 ^ w → v.texts) : Tells R be data v [x] [.str s] := by
  intro a b u hn hv hg
  obtain ⟨r, h, hg1⟩ := givesAll_one hg
  cases h
  obtain ⟨h1, h2, h3, h4⟩ := told_text hw hg1
  refine ⟨hf h1, ?_, ?_⟩
  · rw [hm, meets_append, meets_append, List.length_replicate]
    exact ⟨⟨meets_free _ _ _, (meets_text hw0 (enNum_length ..)).mpr ⟨h2, h3⟩⟩, meets_one _ _⟩
  · rw [h4, hm]
    simp only [List.length_append, List.length_replicate, cells_length, enNum_length, List.length_singleton, up]
    congr 1; omega

mutual
theorem reads_tells (R : Nat → Prop) (be : Bool) (data : List UInt8) : {v : Val} → {l : List Ask} → {rs : List Ans} →
    Reads v l rs → Tells R be data v l rs
  | _, _, _, .u16 v => by
    intro a b u hn hv hg
    obtain ⟨r, h, hg1⟩ := givesAll_one hg
    cases h
    obtain ⟨h1, h2⟩ := told_u16 hg1
    refine ⟨trivial, ?_, ?_⟩
    · simp only [Val.cells]
      rw [meets_append, List.length_replicate]
      refine ⟨meets_free _ _ _, ?_⟩
      rw [meets_bytes (by intro h; have := congrArg List.length h; rw [enNum_length] at this; simp at this), enNum_length]
      exact h1
    · rw [h2]
      simp only [Val.cells, List.length_append, List.length_replicate, cells_length, enNum_length, up, Nat.add_assoc]
  | _, _, _, .string s hu => text_tells .string _ s 4 rfl (by decide) (fun off => rfl) (fun h => h)
  | _, _, _, .signature s hu => text_tells .signature _ s 1 rfl (by decide) (fun off => by simp [Val.cells, padding, Nat.mod_one]) (fun h => h)
  | _, _, _, .array t vs l rs h => by
    have ih := readsAll_tells R be data h
    intro a b u hn hv hg
    obtain ⟨rfl, he⟩ := ty_array hv
    simp only [List.cons_append] at hg
    cases hg with
    | cons _ m _ _ _ r rs1 h1 h2 =>
      obtain ⟨m', h3, h4⟩ := givesAll_append_eq h2 (readsAll_length h)
      obtain ⟨r', hr, h5⟩ := givesAll_one h4
      cases hr
      obtain ⟨bs, f1, rfl⟩ := told_array hn h1
      obtain ⟨g1, g2, rfl⟩ := ih _ m' t _ a.arrays rfl he h3
      obtain ⟨_, rfl⟩ := gives_close (l := a.arrays) rfl h5
      have hfe : firstElement a.idx t = a.idx + (padding a.idx 4 + 4 + padding (a.idx + padding a.idx 4 + 4) (2 ^ t.dvarAlign)) := by
        unfold firstElement; omega
      refine ⟨g1, ?_, ?_⟩
      · simp only [Val.cells]
        rw [meets_append, meets_append, meets_append]
        simp only [List.length_append, List.length_replicate]
        rw [← hfe]
        exact ⟨⟨⟨meets_free _ _ _, meets_any.mpr (field_le f1)⟩, meets_free _ _ _⟩, g2⟩
      · simp only [Val.cells, List.length_append, List.length_replicate]
        rw [← Nat.add_assoc, ← hfe]
        rfl
  | _, _, _, .sub v l rs h => by
    have ih := reads_tells R be data h
    intro a b u hn hv hg
    obtain ⟨r, hr, hg1⟩ := givesAll_one hg
    cases hr
    obtain ⟨rs1, b', hrs, hg', rfl⟩ := gives_sub hn hg1
    cases hrs
    obtain ⟨m, h1, h2⟩ := givesAll_append_eq hg' (reads_length h)
    obtain ⟨r', hr', h3⟩ := givesAll_one h2
    cases hr'
    obtain ⟨g1, g2, rfl⟩ := ih (DSt.new u a.idx) m u rfl hv h1
    obtain ⟨_, rfl⟩ := gives_commit rfl rfl h3
    exact ⟨g1, g2, rfl⟩
theorem readsAll_tells (R : Nat → Prop) (be : Bool) (data : List UInt8) : {vs : List Val} → {l : List Ask} → {rs : List Ans} →
    ReadsAll vs l rs → TellsAll R be data vs l rs
  | _, _, _, .nil => by
    intro a b u n ar _ _ hg
    cases hg
    refine ⟨trivial, ?_, by simp [Val.cellsAll]⟩
    intro i c hc
    simp [Val.cellsAll] at hc
  | _, _, _, .cons v vs l l' rs rs1 h h' => by
    have ih := reads_tells R be data h
    have ih' := readsAll_tells R be data h'
    intro a b u n ar ha he hg
    obtain ⟨m, h1, h2⟩ := givesAll_append_eq hg (reads_length h)
    obtain ⟨g1, g2, rfl⟩ := ih a m u (by unfold DSt.next; rw [ha]) he.1 h1
    rw [past_arrays ha] at h2
    obtain ⟨k1, k2, rfl⟩ := ih' ⟨a.ty, a.full, a.arrays, a.idx + (v.cells be a.idx).length, a.committed⟩ b u n ar ha he.2 h2
    refine ⟨⟨g1, k1⟩, ?_, ?_⟩
    · simp only [Val.cellsAll]
      exact meets_append.mpr ⟨g2, k2⟩
    · simp only [Val.cellsAll, List.length_append, Nat.add_assoc]
end

/-- The data tells the answers. -/
def Told (R : Nat → Prop) (be : Bool) (data : List UInt8) (v : Val) (l : List Ask) (rs : List Ans) : Prop :=
  ∀ a b u rs', a.next = some u → v.has u → v.texts → Meets data a.idx (v.cells be a.idx) → GivesAll R be data a l rs' b → rs' = rs

def ToldAll (R : Nat → Prop) (be : Bool) (data : List UInt8) (vs : List Val) (l : List Ask) (rs : List Ans) : Prop :=
  ∀ a b u n ar rs', a.arrays = (u, n) :: ar → Val.each vs u → Val.textsAll vs → Meets data a.idx (Val.cellsAll be a.idx vs) →
    GivesAll R be data a l rs' b → rs' = rs

theorem text_told (hR : ∀ n, n ≤ data.length → ¬ R n) (x : Ask) (v : Val) (s : List UInt8) (w : Nat) (hw : x.width = some w)
    (hw0 : 0 < w) (hu : Args.isUtf8 s = true) (hsu : ∀ u, v.has u → x.suits u = true)
    (hm : ∀ off, v.cells be off = List.replicate (padding off w) .free ++ cells (enNum be w s.length ++ s) ++ [.free])
    (hf : v.texts → s.length < 256 ^ w) : Told R be data v [x] [.str s] := by
  intro a b u rs' hn hv ht hat hg
  obtain ⟨r, rfl, hg1⟩ := givesAll_one hg
  rw [hm, meets_append, meets_append, List.length_replicate] at hat
  obtain ⟨h2, h3⟩ := (meets_text hw0 (enNum_length ..)).mp hat.1.2
  have hde := deNum_enNum be w s.length (hf ht)
  obtain ⟨rfl, _⟩ := gives_text (s := s) hn (hsu u hv) hw h2 (by rw [hde]; exact h3) hu (hR _ (field_le h2))
    (hR _ (by rw [hde]; exact field_le h3)) hg1
  rfl

theorem firstElement_le (off : Nat) (t : Ty) : firstElement off t ≤ up off 4 + 4 + 8 := by
  have h : 2 ^ t.dvarAlign ≤ 8 := by
    cases t with
    | basic b => cases b <;> decide
    | _ => simp only [Ty.dvarAlign]; decide
  have : padding (up off 4 + 4) (2 ^ t.dvarAlign) ≤ 2 ^ t.dvarAlign := by
    unfold padding
    have := Nat.mod_lt (2 ^ t.dvarAlign - (up off 4 + 4) % 2 ^ t.dvarAlign) (Nat.two_pow_pos t.dvarAlign)
    omega
  show up off 4 + 4 + padding (up off 4 + 4) (2 ^ t.dvarAlign) ≤ _
  omega

mutual
theorem reads_told (R : Nat → Prop) (be : Bool) (data : List UInt8) (hR : ∀ n, n ≤ data.length → ¬ R n)
    (hd : data.length + 8 ≤ usizeMax) : {v : Val} → {l : List Ask} → {rs : List Ans} → Reads v l rs → Told R be data v l rs
  | _, _, _, .u16 v => by
    intro a b u rs' hn hv _ hat hg
    have := ty_u16 hv
    subst this
    obtain ⟨r, rfl, hg1⟩ := givesAll_one hg
    simp only [Val.cells] at hat
    rw [meets_append, List.length_replicate] at hat
    have h1 := hat.2
    rw [meets_bytes (by intro h; have := congrArg List.length h; rw [enNum_length] at this; simp at this), enNum_length] at h1
    obtain ⟨rfl, rfl⟩ := gives_u16 hn h1 (hR _ (field_le h1)) hg1
    rw [deNum_enNum be 2 v.toNat (by have := v.isLt; omega)]
    simp
  | _, _, _, .string s hu => text_told hR .string _ s 4 rfl (by decide) hu (fun u h => by rw [ty_string h]; rfl) (fun off => rfl)
      (fun h => h)
  | _, _, _, .signature s hu => text_told hR .signature _ s 1 rfl (by decide) hu (fun u h => by rw [ty_signature h]; rfl)
      (fun off => by simp [Val.cells, padding, Nat.mod_one]) (fun h => h)
  | _, _, _, .array t vs l rs h => by
    have ih := readsAll_told R be data hR hd h
    intro a b u rs' hn hv ht hat hg
    obtain ⟨rfl, he⟩ := ty_array hv
    simp only [List.cons_append] at hg
    cases hg with
    | cons _ m _ _ _ r rs1 h1 h2 =>
      obtain ⟨rs2, rs3, m', rfl, h3, h4⟩ := givesAll_append h2
      obtain ⟨r', rfl, h5⟩ := givesAll_one h4
      have hfe : firstElement a.idx t = a.idx + (padding a.idx 4 + 4 + padding (a.idx + padding a.idx 4 + 4) (2 ^ t.dvarAlign)) := by
        unfold firstElement; omega
      simp only [Val.cells] at hat
      rw [meets_append, meets_append, meets_append] at hat
      simp only [List.length_append, List.length_replicate] at hat
      rw [← hfe] at hat
      obtain ⟨⟨⟨_, h6⟩, _⟩, h7⟩ := hat
      have h8 : up a.idx 4 + 4 ≤ data.length := meets_any.mp h6
      obtain ⟨bs, f1⟩ := field_some h8
      obtain ⟨rfl, rfl⟩ := gives_array hn f1 (hR _ h8) (by have := firstElement_le a.idx t; omega) h1
      have e := ih { a with arrays := (t, deNum be bs) :: a.arrays, idx := firstElement a.idx t } m' t _ a.arrays rs2 rfl he ht h7 h3
      subst e
      obtain ⟨_, _, rfl⟩ := readsAll_tells R be data h _ m' t _ a.arrays rfl he h3
      obtain ⟨rfl, rfl⟩ := gives_close (l := a.arrays) rfl h5
      rfl
  | _, _, _, .sub v l rs h => by
    have ih := reads_told R be data hR hd h
    intro a b u rs' hn hv ht hat hg
    obtain ⟨r, rfl, hg1⟩ := givesAll_one hg
    obtain ⟨rs1, b', rfl, hg', rfl⟩ := gives_sub hn hg1
    obtain ⟨rs2, rs3, m, rfl, h1, h2⟩ := givesAll_append hg'
    obtain ⟨r', rfl, h3⟩ := givesAll_one h2
    have e := ih (DSt.new u a.idx) m u rs2 rfl hv ht hat h1
    subst e
    obtain ⟨_, _, rfl⟩ := reads_tells R be data h (DSt.new u a.idx) m u rfl hv h1
    obtain ⟨rfl, rfl⟩ := gives_commit rfl rfl h3
    rfl
theorem readsAll_told (R : Nat → Prop) (be : Bool) (data : List UInt8) (hR : ∀ n, n ≤ data.length → ¬ R n)
    (hd : data.length + 8 ≤ usizeMax) : {vs : List Val} → {l : List Ask} → {rs : List Ans} → ReadsAll vs l rs →
    ToldAll R be data vs l rs
  | _, _, _, .nil => by
    intro a b u n ar rs' _ _ _ _ hg
    cases hg
    rfl
  | _, _, _, .cons v vs l l' rs rs1 h h' => by
    have ih := reads_told R be data hR hd h
    have ih' := readsAll_told R be data hR hd h'
    intro a b u n ar rs' ha he ht hat hg
    obtain ⟨rs2, rs3, m, rfl, h1, h2⟩ := givesAll_append hg
    simp only [Val.cellsAll] at hat
    rw [meets_append] at hat
    have hn : a.next = some u := by unfold DSt.next; rw [ha]
    have e := ih a m u rs2 hn he.1 ht.1 hat.1 h1
    subst e
    obtain ⟨_, _, rfl⟩ := reads_tells R be data h a m u hn he.1 h1
    rw [past_arrays ha] at h2
    have e := ih' ⟨a.ty, a.full, a.arrays, a.idx + (v.cells be a.idx).length, a.committed⟩ b u n ar rs3 ha he.2 ht.2 hat.2 h2
    subst e
    rfl
end

/-! ## The marshalled form -/

theorem meets_shift {x : List UInt8} {cs : List Cell} : ∀ (p : List UInt8) (y : List UInt8), Meets x 0 cs → Meets (p ++ (x ++ y)) p.length cs := by
  intro p y h i c hc
  have h1 := h i c hc
  rw [Nat.zero_add] at h1
  rw [List.getElem?_append_right (by omega), Nat.add_sub_cancel_left]
  cases c with
  | byte b =>
    have h1 : x[i]? = some b := h1
    show (x ++ y)[i]? = some b
    rw [List.getElem?_append_left (List.getElem?_eq_some_iff.mp h1).1, h1]
  | any =>
    have h1 : x[i]? ≠ none := h1
    show (x ++ y)[i]? ≠ none
    rw [ne_eq, List.getElem?_eq_none_iff] at h1 ⊢
    rw [List.length_append]; omega
  | free => trivial

/-- Requirements one after the other. -/
theorem meets_join {x y : List UInt8} {cs ds : List Cell} (hl : cs.length = x.length) (h1 : Meets x 0 cs) (h2 : Meets y 0 ds) :
    Meets (x ++ y) 0 (cs ++ ds) := by
  refine meets_append.mpr ⟨by have := meets_shift [] y h1; simpa using this, ?_⟩
  have := meets_shift x [] h2
  simpa [hl] using this

theorem meets_self (bs : List UInt8) : Meets bs 0 (cells bs) := by
  refine (meets_cells (Nat.zero_le _)).mpr ?_
  unfold field
  simp

theorem meets_pad (off n : Nat) : Meets (pad off n) 0 (List.replicate (padding off n) .free) := meets_free _ _ _

mutual
theorem cells_marshal_length (be : Bool) : (off : Nat) → (v : Val) → (v.cells be off).length = (v.marshal be off).length
  | off, .u16 _ => by simp [Val.cells, Val.marshal, cells_length]
  | off, .u32 _ => by simp [Val.cells, cells_length]
  | off, .u64 _ => by simp [Val.cells, cells_length]
  | off, .string _ => by simp [Val.cells, Val.marshal, cells_length]; omega
  | off, .object _ => by simp [Val.cells, cells_length]
  | off, .signature _ => by simp [Val.cells, Val.marshal, cells_length]; omega
  | off, .variant .. => by simp [Val.cells, cells_length]
  | off, .array t vs => by
    have := cellsAll_marshals_length be (firstElement off t) vs
    simp [Val.cells, Val.marshal, this]; omega
  | off, .struct .. => by simp [Val.cells, cells_length]
  | off, .dict .. => by simp [Val.cells, cells_length]
theorem cellsAll_marshals_length (be : Bool) : (off : Nat) → (vs : List Val) →
    (Val.cellsAll be off vs).length = (Val.marshals be off vs).length
  | _, [] => rfl
  | off, v :: vs => by
    have h1 := cells_marshal_length be off v
    have h2 := cellsAll_marshals_length be (off + (v.marshal be off).length) vs
    simp only [Val.cellsAll, Val.marshals, List.length_append, h1, h2]
end

mutual
theorem marshal_meets (be : Bool) : (off : Nat) → (v : Val) → Meets (v.marshal be off) 0 (v.cells be off)
  | off, .u16 _ => by
    simp only [Val.cells, Val.marshal]
    exact meets_join (by simp) (meets_pad _ _) (meets_self _)
  | off, .u32 _ => meets_self _
  | off, .u64 _ => meets_self _
  | off, .string s => by
    simp only [Val.cells, Val.marshal]
    rw [List.append_assoc (pad off 4)]
    exact meets_join (by simp [cells_length]) (meets_join (by simp) (meets_pad _ _) (meets_self _)) (meets_one _ _)
  | off, .object _ => meets_self _
  | off, .signature _ => by
    simp only [Val.cells, Val.marshal]
    exact meets_join (by simp [cells_length]) (meets_self _) (meets_one _ _)
  | off, .variant .. => meets_self _
  | off, .array t vs => by
    have ih := marshals_meets be (firstElement off t) vs
    simp only [Val.cells, Val.marshal]
    refine meets_join (by simp; omega) (meets_join (by simp) (meets_join (by simp) (meets_pad _ _) ?_) (meets_pad _ _)) ih
    exact meets_any.mpr (by simp)
  | off, .struct .. => meets_self _
  | off, .dict .. => meets_self _
theorem marshals_meets (be : Bool) : (off : Nat) → (vs : List Val) → Meets (Val.marshals be off vs) 0 (Val.cellsAll be off vs)
  | _, [] => fun i c hc => by simp [Val.cellsAll] at hc
  | off, v :: vs => by
    have h1 := cells_marshal_length be off v
    simp only [Val.cellsAll, Val.marshals]
    rw [h1]
    exact meets_join h1 (marshal_meets be off v) (marshals_meets be _ vs)
end

theorem cellsAll_append (be : Bool) : ∀ (vs ws : List Val) (off : Nat), Val.cellsAll be off (vs ++ ws)
    = Val.cellsAll be off vs ++ Val.cellsAll be (off + (Val.cellsAll be off vs).length) ws
  | [], ws, off => by simp [Val.cellsAll]
  | v :: vs, ws, off => by
    simp only [List.cons_append, Val.cellsAll, cellsAll_append be vs ws, List.append_assoc, List.length_append, Nat.add_assoc]

theorem textsAll_append : ∀ (vs ws : List Val), Val.textsAll (vs ++ ws) → Val.textsAll vs
  | [], _, _ => trivial
  | _ :: vs, ws, h => ⟨h.1, textsAll_append vs ws h.2⟩

end Verif.Dbus
