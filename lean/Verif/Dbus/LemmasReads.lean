import Verif.Dbus.LemmasDec
import Verif.Dbus.LemmasScript
/-! # Lemmas about decoding what was encoded -/
namespace Verif.Dbus
open Verif.Io

variable {σ : Type} {R : Nat → Prop} {be : Bool} {data : List UInt8} {a b : DSt} {r : Ans} {u : Ty}

/-! ## Numbers -/

theorem leNat_leBytes : ∀ (w v : Nat), v < 256 ^ w → leNat (leBytes w v) = v
  | 0, v, h => by simp at h; subst h; rfl
  | w + 1, v, h => by
    simp only [leBytes, leNat]
    rw [leNat_leBytes w (v / 256) (by rw [Nat.pow_succ] at h; omega)]
    have : (UInt8.ofNat v).toNat = v % 256 := by simp
    rw [this]; omega

theorem deNum_enNum (be : Bool) (w v : Nat) (h : v < 256 ^ w) : deNum be (enNum be w v) = v := by
  unfold deNum enNum
  cases be
  · exact leNat_leBytes w v h
  · simp only [if_true, List.reverse_reverse]; exact leNat_leBytes w v h

/-! ## Fields -/

/-- The data has these bytes at an offset. -/
def At (data : List UInt8) (off : Nat) (bs : List UInt8) : Prop := off + bs.length ≤ data.length ∧ bs <+: data.drop off

theorem At.left {off : Nat} {x y : List UInt8} (h : At data off (x ++ y)) : At data off x := by
  obtain ⟨h1, h2⟩ := h
  refine ⟨by simp at h1; omega, (List.prefix_append x y).trans h2⟩

theorem At.right {off : Nat} {x y : List UInt8} (h : At data off (x ++ y)) : At data (off + x.length) y := by
  obtain ⟨h1, z, h2⟩ := h
  refine ⟨by simp at h1; omega, z, ?_⟩
  rw [← List.drop_drop, ← h2, List.append_assoc, List.drop_left']
  rfl

theorem At.field {off : Nat} {x : List UInt8} (h : At data off x) : field data off x.length = some x := by
  obtain ⟨h1, h2⟩ := h
  unfold Verif.Dbus.field
  rw [if_pos h1, ← List.prefix_iff_eq_take.mp h2]

/-! ## What calls give -/

theorem gives_u16 (hn : a.next = some (.basic .uint16)) {bs : List UInt8} (hf : field data (up a.idx 2) 2 = some bs)
    (hR : ¬ R (up a.idx 2 + 2)) (h : Gives R be data a .u16 r b) :
    r = .u16 (BitVec.ofNat 16 (deNum be bs)) ∧ b = a.past (up a.idx 2 + 2) := by
  cases h with
  | mismatch _ _ _ h => have := h _ hn; cases this
  | u16 _ bs' _ h => rw [hf] at h; cases h; exact ⟨rfl, rfl⟩
  | u16Io _ _ _ h => exact absurd h hR
  | text _ _ _ _ _ _ _ _ h => cases h
  | textBad _ _ _ _ _ _ _ _ h => cases h
  | textIo _ _ _ _ _ _ _ h => cases h

theorem gives_text {x : Ask} (hn : a.next = some u) (hs : x.suits u = true) {w : Nat} (hw : x.width = some w) {bs s : List UInt8}
    (hf : field data (up a.idx w) w = some bs) (hf' : field data (up a.idx w + w) (deNum be bs) = some s)
    (hu : Args.isUtf8 s = true) (hR : ¬ R (up a.idx w + w)) (hR' : ¬ R (up a.idx w + w + deNum be bs))
    (h : Gives R be data a x r b) : r = .str s ∧ b = a.past (up a.idx w + w + deNum be bs + 1) := by
  cases h with
  | mismatch _ _ _ h => rw [h _ hn] at hs; cases hs
  | text _ _ _ w' bs' s' _ _ h1 h2 h3 h4 =>
    rw [hw] at h1; cases h1
    rw [hf] at h2; cases h2
    rw [hf'] at h3; cases h3
    exact ⟨rfl, rfl⟩
  | textBad _ _ _ w' bs' s' _ _ h1 h2 h3 h4 =>
    rw [hw] at h1; cases h1
    rw [hf] at h2; cases h2
    rw [hf'] at h3; cases h3
    rw [hu] at h4; cases h4
  | textIo _ _ _ w' _ _ _ h1 h2 =>
    rw [hw] at h1; cases h1
    rcases h2 with h2 | ⟨bs', h2, h3⟩
    · exact absurd h2 hR
    · rw [hf] at h2; cases h2; exact absurd h3 hR'
  | _ => cases hw

theorem gives_array (hn : a.next = some (.array u)) {bs : List UInt8} (hf : field data (up a.idx 4) 4 = some bs)
    (hR : ¬ R (up a.idx 4 + 4)) (hu : firstElement a.idx u ≤ usizeMax) (h : Gives R be data a .array r b) :
    r = .ok ∧ b = { a with arrays := (u, deNum be bs) :: a.arrays, idx := firstElement a.idx u } := by
  cases h with
  | mismatch _ _ _ h => have := h _ hn; cases this
  | text _ _ _ _ _ _ _ _ h => cases h
  | textBad _ _ _ _ _ _ _ _ h => cases h
  | textIo _ _ _ _ _ _ _ h => cases h
  | array _ u' bs' h1 h2 => rw [hf] at h2; cases h2; rw [hn] at h1; cases h1; exact ⟨rfl, rfl⟩
  | arrayIo _ u' _ h1 h2 =>
    rw [hn] at h1; cases h1
    rcases h2 with h2 | h2
    · exact absurd h2 hR
    · omega

theorem gives_close {n : Nat} {l : List (Ty × Nat)} (ha : a.arrays = (u, n) :: l) (h : Gives R be data a .close r b) :
    r = .ok ∧ b = DSt.past { a with arrays := l } a.idx := by
  cases h with
  | mismatch _ _ h => cases h
  | text _ _ _ _ _ _ _ _ h => cases h
  | textBad _ _ _ _ _ _ _ _ h => cases h
  | textIo _ _ _ _ _ _ _ h => cases h
  | close _ u' n' l' h => rw [ha] at h; cases h; exact ⟨rfl, rfl⟩
  | closeMismatch _ h => rw [ha] at h; cases h

theorem gives_commit (ha : a.arrays = []) (hf : a.full = true) (h : Gives R be data a .commit r b) :
    r = .ok ∧ b = { a with committed := true } := by
  cases h with
  | mismatch _ _ h => cases h
  | text _ _ _ _ _ _ _ _ h => cases h
  | textBad _ _ _ _ _ _ _ _ h => cases h
  | textIo _ _ _ _ _ _ _ h => cases h
  | pending _ h =>
    rcases h with h | h
    · exact absurd ha h
    · rw [hf] at h; cases h
  | commit => exact ⟨rfl, rfl⟩

theorem givesAll_append : ∀ {l l' : List Ask} {a b : DSt} {rs : List Ans}, GivesAll R be data a (l ++ l') rs b →
    ∃ rs1 rs2 m, rs = rs1 ++ rs2 ∧ GivesAll R be data a l rs1 m ∧ GivesAll R be data m l' rs2 b
  | [], l', a, b, rs, h => ⟨[], rs, a, rfl, .nil _, h⟩
  | x :: l, l', a, b, rs, h => by
    cases h with
    | cons _ m _ _ _ r rs h1 h2 =>
      obtain ⟨rs1, rs2, m', rfl, h3, h4⟩ := givesAll_append h2
      exact ⟨r :: rs1, rs2, m', rfl, .cons _ _ _ _ _ _ _ h1 h3, h4⟩

theorem givesAll_one {x : Ask} {rs : List Ans} (h : GivesAll R be data a [x] rs b) : ∃ r, rs = [r] ∧ Gives R be data a x r b := by
  cases h with
  | cons _ m _ _ _ r rs h1 h2 => cases h2; exact ⟨r, rfl, h1⟩

theorem gives_sub {l : List Ask} (hn : a.next = some u) (h : Gives R be data a (.sub none l) r b) :
    ∃ rs b', r = .sub rs ∧ GivesAll R be data (DSt.new u a.idx) l rs b' ∧ b = if b'.committed then a.past b'.idx else a := by
  cases h with
  | mismatch _ _ h => cases h
  | text _ _ _ _ _ _ _ _ h => cases h
  | textBad _ _ _ _ _ _ _ _ h => cases h
  | textIo _ _ _ _ _ _ _ h => cases h
  | subMismatch _ _ _ h => obtain ⟨s', h, _⟩ := h _ hn; cases h
  | subDropped _ _ _ rs u' b' h1 _ h2 h3 =>
    rw [hn] at h1; cases h1
    exact ⟨rs, b', rfl, h2, by rw [h3]; rfl⟩
  | subCommitted _ _ _ rs u' b' h1 _ h2 h3 =>
    rw [hn] at h1; cases h1
    exact ⟨rs, b', rfl, h2, by rw [h3]; rfl⟩

/-! ## Scripts -/

/-- The script of a value reads it. -/
def ReadsOk (R : Nat → Prop) (be : Bool) (data : List UInt8) (v : Val) (l : List Ask) (rs : List Ans) : Prop :=
  ∀ a b u rs', a.next = some u → v.has u → v.fits be a.idx → At data a.idx (v.marshal be a.idx) →
    (∀ n, n ≤ a.idx + (v.marshal be a.idx).length → ¬ R n) → GivesAll R be data a l rs' b →
    rs' = rs ∧ b = a.past (a.idx + (v.marshal be a.idx).length)

/-- The script of the elements of an array reads them. -/
def ReadsAllOk (R : Nat → Prop) (be : Bool) (data : List UInt8) (vs : List Val) (l : List Ask) (rs : List Ans) : Prop :=
  ∀ a b u n ar rs', a.arrays = (u, n) :: ar → Val.each vs u → Val.fit be a.idx vs → a.idx ≤ data.length →
    At data a.idx (Val.marshals be a.idx vs) →
    (∀ n, n ≤ a.idx + (Val.marshals be a.idx vs).length → ¬ R n) → GivesAll R be data a l rs' b →
    rs' = rs ∧ b = { a with idx := a.idx + (Val.marshals be a.idx vs).length }

theorem text_ok (x : Ask) (v : Val) (s : List UInt8) (w : Nat) (hw : x.width = some w) (hu : Args.isUtf8 s = true)
    (hsu : ∀ u, v.has u → x.suits u = true) (hm : ∀ off, v.marshal be off = pad off w ++ enNum be w s.length ++ s ++ [0])
    (hf : ∀ off, v.fits be off → s.length < 256 ^ w) :
    ReadsOk R be data v [x] [.str s] := by
  intro a b u rs' hn hv hfit hat hR hg
  obtain ⟨r, rfl, hg1⟩ := givesAll_one hg
  rw [hm] at hat hR ⊢
  have hle : ∀ i, up i w = i + (pad i w).length := fun i => by simp [up]
  have h1 := hat.left.left.right
  rw [← hle] at h1
  have h2 := h1.field
  have h3 := hat.left.right
  rw [List.length_append, ← Nat.add_assoc, ← hle] at h3
  have h4 := h3.field
  rw [enNum_length] at h2 h4
  have hde := deNum_enNum be w s.length (hf _ hfit)
  rw [← hde] at h4
  simp only [List.length_append, enNum_length, List.length_singleton] at hR ⊢
  have hl := hle a.idx
  rw [hde] at h4
  obtain ⟨rfl, rfl⟩ := gives_text hn (hsu u hv) hw h2 (by rw [hde]; exact h4) hu (hR _ (by omega)) (hR _ (by rw [hde]; omega)) hg1
  refine ⟨rfl, ?_⟩
  rw [hde, hl]
  congr 1; omega

theorem past_arrays {n idx : Nat} {ar : List (Ty × Nat)} (h : a.arrays = (u, n) :: ar) : a.past idx = { a with idx := idx } := by
  unfold DSt.past
  rw [h]; simp

mutual
theorem reads_ok (R : Nat → Prop) (be : Bool) (data : List UInt8) (hd : data.length ≤ usizeMax) : {v : Val} → {l : List Ask} → {rs : List Ans} →
    Reads v l rs → ReadsOk R be data v l rs
  | _, _, _, .u16 v => by
    intro a b u rs' hn hv hfit hat hR hg
    have := ty_u16 hv
    subst this
    obtain ⟨r, rfl, hg1⟩ := givesAll_one hg
    simp only [Val.marshal] at hat hR ⊢
    have hle : up a.idx 2 = a.idx + (pad a.idx 2).length := by simp [up]
    have h1 := hat.right.field
    rw [← hle, enNum_length] at h1
    simp only [List.length_append, enNum_length] at hR ⊢
    obtain ⟨rfl, rfl⟩ := gives_u16 hn h1 (hR _ (by omega)) hg1
    rw [deNum_enNum be 2 v.toNat (by have := v.isLt; omega)]
    exact ⟨by simp, by rw [hle, Nat.add_assoc]⟩
  | _, _, _, .string s hu => text_ok .string _ s 4 rfl hu (fun u h => by rw [ty_string h]; rfl) (fun off => rfl) (fun off h => h)
  | _, _, _, .signature s hu => text_ok .signature _ s 1 rfl hu (fun u h => by rw [ty_signature h]; rfl)
      (fun off => by simp [Val.marshal, pad, padding, Nat.mod_one]) (fun off h => h)
  | _, _, _, .array t vs l rs h => by
    have ih := readsAll_ok R be data hd h
    intro a b u rs' hn hv hfit hat hR hg
    obtain ⟨rfl, he⟩ : u = .array t ∧ Val.each vs t := by
      match u, hv with
      | .array t', hv => exact ⟨by rw [hv.1], hv.2⟩
    obtain ⟨hlen, hfit⟩ := hfit
    simp only [List.cons_append] at hg
    cases hg with
    | cons _ m _ _ _ r rs1 h1 h2 =>
      obtain ⟨rs2, rs3, m', rfl, h3, h4⟩ := givesAll_append h2
      obtain ⟨r', rfl, h5⟩ := givesAll_one h4
      simp only [Val.marshal] at hat hR ⊢
      have hle : up a.idx 4 = a.idx + (pad a.idx 4).length := by simp [up]
      have f1 := hat.left.left.right.field
      rw [← hle, enNum_length] at f1
      have f2 := hat.right
      have hfe : firstElement a.idx t = a.idx + (pad a.idx 4 ++ enNum be 4 (Val.marshals be (firstElement a.idx t) vs).length
          ++ pad (a.idx + padding a.idx 4 + 4) (2 ^ t.dvarAlign)).length := by
        simp [firstElement]; omega
      rw [← hfe] at f2
      generalize hL : (Val.marshals be (firstElement a.idx t) vs).length = len at *
      have hlen2 : a.idx + (pad a.idx 4 ++ enNum be 4 len ++ pad (a.idx + padding a.idx 4 + 4) (2 ^ t.dvarAlign)
          ++ Val.marshals be (firstElement a.idx t) vs).length = firstElement a.idx t + len := by
        rw [List.length_append, hL, hfe]; omega
      rw [hlen2] at hR ⊢
      obtain ⟨rfl, rfl⟩ := gives_array hn f1 (hR _ (by have : up a.idx 4 + 4 ≤ firstElement a.idx t := Nat.le_add_right _ _; omega))
        (Nat.le_trans (Nat.le_trans (Nat.le_add_right _ _) f2.1) hd) h1
      obtain ⟨rfl, rfl⟩ := ih _ m' t _ a.arrays rs2 rfl he hfit (by have := f2.1; exact Nat.le_trans (Nat.le_add_right _ _) this) f2
        (by intro n hn'; rw [hL] at hn'; exact hR n hn') h3
      obtain ⟨rfl, rfl⟩ := gives_close (l := a.arrays) rfl h5
      refine ⟨rfl, ?_⟩
      simp only [hL]
      rfl
  | _, _, _, .sub v l rs h => by
    have ih := reads_ok R be data hd h
    intro a b u rs' hn hv hfit hat hR hg
    obtain ⟨r, rfl, hg1⟩ := givesAll_one hg
    obtain ⟨rs1, b', rfl, hg', rfl⟩ := gives_sub hn hg1
    obtain ⟨rs2, rs3, m, rfl, h1, h2⟩ := givesAll_append hg'
    obtain ⟨r', rfl, h3⟩ := givesAll_one h2
    obtain ⟨rfl, rfl⟩ := ih (DSt.new u a.idx) m u rs2 rfl hv hfit hat hR h1
    obtain ⟨rfl, rfl⟩ := gives_commit rfl rfl h3
    exact ⟨rfl, rfl⟩
theorem readsAll_ok (R : Nat → Prop) (be : Bool) (data : List UInt8) (hd : data.length ≤ usizeMax) : {vs : List Val} → {l : List Ask} → {rs : List Ans} →
    ReadsAll vs l rs → ReadsAllOk R be data vs l rs
  | _, _, _, .nil => by
    intro a b u n ar rs' _ _ _ _ _ _ hg
    cases hg
    exact ⟨rfl, by simp [Val.marshals]⟩
  | _, _, _, .cons v vs l l' rs rs1 h h' => by
    have ih := reads_ok R be data hd h
    have ih' := readsAll_ok R be data hd h'
    intro a b u n ar rs' ha he hfit hidx hat hR hg
    obtain ⟨rs2, rs3, m, rfl, h1, h2⟩ := givesAll_append hg
    simp only [Val.marshals, List.length_append] at hat hR ⊢
    obtain ⟨rfl, rfl⟩ := ih a m u rs2 (by unfold DSt.next; rw [ha]) he.1 hfit.1 hat.left (fun n hn => hR n (by omega)) h1
    rw [past_arrays ha] at h2
    have h3 := hat.right
    obtain ⟨rfl, rfl⟩ := ih' ⟨a.ty, a.full, a.arrays, a.idx + (v.marshal be a.idx).length, a.committed⟩ b u n ar rs3 ha he.2 hfit.2 (by have := hat.left.1; exact this) h3
      (fun n hn => hR n (by simp only at hn; omega)) h2
    refine ⟨rfl, ?_⟩
    simp only [Nat.add_assoc]
end

theorem asks_append : ∀ {x y : List Ask}, Ask.sanes x → Ask.sanes y → Ask.sanes (x ++ y)
  | [], _, _, h => h
  | _ :: _, _, h, h' => ⟨h.1, asks_append h.2 h'⟩

mutual
theorem reads_sane : {v : Val} → {l : List Ask} → {rs : List Ans} → Reads v l rs → Ask.sanes l
  | _, _, _, .u16 _ => ⟨trivial, trivial⟩
  | _, _, _, .string .. => ⟨trivial, trivial⟩
  | _, _, _, .signature .. => ⟨trivial, trivial⟩
  | _, _, _, .array _ _ _ _ h => ⟨trivial, asks_append (readsAll_sane h) ⟨trivial, trivial⟩⟩
  | _, _, _, .sub _ _ _ h => ⟨⟨(fun _ h => by cases h), asks_append (reads_sane h) ⟨trivial, trivial⟩⟩, trivial⟩
theorem readsAll_sane : {vs : List Val} → {l : List Ask} → {rs : List Ans} → ReadsAll vs l rs → Ask.sanes l
  | _, _, _, .nil => trivial
  | _, _, _, .cons _ _ _ _ _ _ h h' => asks_append (reads_sane h) (readsAll_sane h')
end

mutual
theorem reads_exists : (v : Val) → v.readable → ∃ l rs, Reads v l rs
  | .u16 v, _ => ⟨_, _, .u16 v⟩
  | .string s, h => ⟨_, _, .string s h⟩
  | .signature s, h => ⟨_, _, .signature s h⟩
  | .array t vs, h => by
    obtain ⟨l, rs, h'⟩ := readsAll_exists vs h
    exact ⟨_, _, .array t vs l rs h'⟩
theorem readsAll_exists : (vs : List Val) → Val.readables vs → ∃ l rs, ReadsAll vs l rs
  | [], _ => ⟨_, _, .nil⟩
  | v :: vs, h => by
    obtain ⟨l, rs, h1⟩ := reads_exists v h.1
    obtain ⟨l', rs', h2⟩ := readsAll_exists vs h.2
    exact ⟨_, _, .cons _ _ _ _ _ _ h1 h2⟩
end

/-- The beginning. -/
theorem dec_start {s : Sig} {t : Ty} (hs : View s t) (be : Bool) :
    ∃ d, Dec.with_ s be = some d ∧ DSim be none (DSt.new t 0) d := by
  refine ⟨⟨be, ⟨s, 0⟩, ⟨0, 0, 0⟩, [], none, none⟩, ?_, ?_⟩
  · unfold Dec.with_
    rw [hs.rep.new]
    rfl
  · exact ⟨rfl, .root hs (Nat.le_refl _), rfl, fun _ => ⟨rfl, rfl⟩, fun h => by cases h⟩

theorem slice_short (data : List UInt8) (h : data.length ≤ usizeMax) (n : Nat) : Short (sliceRead data) n ↔ data.length < n := by
  constructor
  · rintro (h' | ⟨st, i, k, e, h1, h2⟩)
    · omega
    · simp only [sliceRead] at h2
      split at h2
      · split at h2
        · omega
        · cases h2
      · omega
  · intro h'
    by_cases hn : usizeMax < n
    · exact .inl hn
    · refine .inr ⟨(), n, 0, some .exceeded, by omega, ?_⟩
      simp only [sliceRead]
      rw [if_pos (by omega), if_pos (by omega)]

end Verif.Dbus
