import Verif.Ffi.ModelMem
import Verif.Ffi.PropsEndian
/-! # Property theorems: copies and comparisons of objects, byte by byte (C74) -/
namespace Verif.Ffi.Memory

/-! ## Specification -/

/-- The object at address `a` has these bytes. Nothing is said about the rest of the memory: it may be inaccessible. -/
def Holds (m : Ram) (a : Nat) (o : Obj) : Prop := ∀ i b, o[i]? = some b → m (a + i) = some b

/-- Alignments are powers of two, and an object of the type lies at `a`: the address is aligned and the size right. -/
structure At (T : Ty) (m : Ram) (a : Nat) (o : Obj) : Prop where
  pow : ∃ k, T.align = 2 ^ k
  aligned : a % T.align = 0
  size : o.length = T.size
  holds : Holds m a o

/-! ## Lemmas -/

theorem holds_cons {m : Ram} {a : Nat} {b : Option UInt8} {o : Obj} : Holds m a (b :: o) ↔ m a = some b ∧ Holds m (a + 1) o := by
  constructor
  · intro h
    refine ⟨h 0 b rfl, fun i c hc => ?_⟩
    have := h (i + 1) c (by simpa using hc)
    rwa [show a + (i + 1) = a + 1 + i by omega] at this
  · rintro ⟨h0, h⟩ i c hc
    cases i with
    | zero => simp at hc; rw [← hc]; exact h0
    | succ i =>
      have := h i c (by simpa using hc)
      rwa [show a + 1 + i = a + (i + 1) by omega] at this

theorem bytesAt_take {m : Ram} {a : Nat} {o : Obj} (h : Holds m a o) : ∀ n ≤ o.length, bytesAt m a n = some (o.take n) := by
  induction o generalizing a with
  | nil => intro n hn; cases n with
    | zero => rfl
    | succ n => simp at hn
  | cons b o ih =>
    intro n hn
    obtain ⟨h0, h1⟩ := holds_cons.mp h
    cases n with
    | zero => rfl
    | succ n =>
      rw [bytesAt, h0, ih h1 n (by simpa using hn)]
      rfl

theorem bytesAt_all {m : Ram} {a : Nat} {o : Obj} (h : Holds m a o) : bytesAt m a o.length = some o := by
  rw [bytesAt_take h _ (Nat.le_refl _), List.take_length]

theorem holds_drop {m : Ram} {a : Nat} {o : Obj} (h : Holds m a o) (k : Nat) : Holds m (a + k) (o.drop k) := by
  intro i b hb
  rw [List.getElem?_drop] at hb
  rw [Nat.add_assoc]
  exact h _ b hb

theorem aligned_of_le {a x y : Nat} (hx : ∃ k, x = 2 ^ k) (hy : ∃ k, y = 2 ^ k) (hle : x ≤ y) (h : a % y = 0) : a % x = 0 := by
  obtain ⟨i, rfl⟩ := hx
  obtain ⟨j, rfl⟩ := hy
  have hij : i ≤ j := (Nat.pow_le_pow_iff_right (by decide)).mp hle
  exact Nat.mod_eq_zero_of_dvd (Nat.dvd_trans (Nat.pow_dvd_pow 2 hij) (Nat.dvd_of_mod_eq_zero h))

theorem read_eq {T : Ty} {m : Ram} {a : Nat} {o : Obj} (ha : a % T.align = 0) (h : Holds m a o) (hs : T.size ≤ o.length) :
    read T m a = assumeInit T (o.take T.size) := by
  rw [read, if_pos ha, readUnaligned, bytesAt_take h _ hs]
  rfl

theorem readUnaligned_eq {T : Ty} {m : Ram} {a : Nat} {o : Obj} (h : Holds m a o) (hs : T.size ≤ o.length) :
    readUnaligned T m a = assumeInit T (o.take T.size) := by
  rw [readUnaligned, bytesAt_take h _ hs]
  rfl

theorem transmute_copy_eq {S D : Ty} {m : Ram} {a : Nat} {o : Obj} (h : At S m a o) (hd : ∃ k, D.align = 2 ^ k) (hs : D.size ≤ S.size) :
    transmute_copy S D m a = assumeInit D (o.take D.size) := by
  rw [transmute_copy, if_neg (by omega)]
  have hl : D.size ≤ o.length := by rw [h.size]; exact hs
  split
  · exact readUnaligned_eq h.holds hl
  · exact read_eq (aligned_of_le hd h.pow (by omega) h.aligned) h.holds hl

theorem transmute_eq {S D : Ty} {m : Ram} {a : Nat} {o : Obj} (h : At S m a o) (hd : ∃ k, D.align = 2 ^ k) :
    transmute_copy_uninit S D m a = assumeInit D (Ffi.transmute_copy_uninit o D.size) := by
  rw [transmute_copy_uninit, Ffi.transmute_copy_uninit, h.size]
  by_cases hlt : S.size < D.size
  · rw [if_pos hlt, if_pos hlt, copy_unaligned, copyTo, Nat.one_mul, ← h.size, bytesAt_all h.holds]
    have hle : 0 + o.length ≤ (List.replicate D.size (none : Option UInt8)).length := by
      rw [List.length_replicate, h.size]; omega
    simp only [Option.bind_eq_bind, Option.bind_some, Option.pure_def]
    rw [if_pos hle]
    simp [List.drop_replicate]
  · rw [if_neg hlt, if_neg hlt]
    have hl : D.size ≤ o.length := by rw [h.size]; omega
    split
    · exact readUnaligned_eq h.holds hl
    · exact read_eq (aligned_of_le hd h.pow (by omega) h.aligned) h.holds hl

theorem place_holds (a : Nat) (o : Obj) : Holds (place a o) a o := by
  intro i b h
  rw [place, if_pos (by omega), show a + i - a = i by omega, h]

theorem bswapInt_eq (h : Host) (T : Ty) (al tmp : Nat) (m : Ram) (v : Nat) (l : List UInt8) (ha : At T m v (l.map some))
    (hal : ∃ k, al = 2 ^ k) (ht : tmp % al = 0) : bswapInt h T T.size al tmp m v = assumeInit T (l.reverse.map some) := by
  have hl : l.length = T.size := by simpa using ha.size
  have h1 : transmute_copy T (uint T.size al) m v = some (l.map some) := by
    rw [transmute_copy_eq (D := uint T.size al) ha hal (Nat.le_refl _)]
    have e : (l.map some).take (uint T.size al).size = l.map some := by
      rw [List.take_of_length_le]
      rw [List.length_map, hl]
      exact Nat.le_refl _
    have hv : (uint T.size al).valid (l.map some) = true := by
      show (l.map some).all Option.isSome = true
      simp
    rw [e, assumeInit, if_pos hv]
  have hs : store h T.size (swap_bytes T.size (load h l)) = l.reverse := by rw [← hl]; exact swap_load h l
  rw [bswapInt, h1]
  simp only [Option.bind_eq_bind, Option.bind_some, assume_init_some, hs]
  have h2 : At (uint T.size al) (place tmp (l.reverse.map some)) tmp (l.reverse.map some) :=
    ⟨hal, ht, by simp [uint, hl], place_holds _ _⟩
  rw [transmute_copy_eq h2 ha.pow (Nat.le_refl _)]
  congr 1
  rw [List.take_of_length_le]
  simp [hl]

theorem bswapLoop_eq (T : Ty) (m : Ram) (v : Nat) (o : Obj) (hsz : o.length = T.size) (hh : Holds m v o) :
    ∀ k i rest, i + k = o.length → rest = List.replicate k (none : Option UInt8) →
      bswapLoop T m v k i (o.reverse.take i ++ rest) = some o.reverse := by
  intro k
  induction k with
  | zero =>
    intro i rest hi hr
    rw [hr, bswapLoop, List.replicate_zero, List.append_nil, List.take_of_length_le (by simp; omega)]
  | succ k ih =>
    intro i rest hi hr
    have hlt : o.length - i - 1 < o.length := by omega
    have h1 : bytesAt m (v + (T.size - i - 1)) 1 = some [o[o.length - i - 1]] := by
      rw [← hsz, bytesAt, hh (o.length - i - 1) _ (List.getElem?_eq_getElem hlt)]
      rfl
    have hil : i < o.reverse.length := by simp; omega
    have hti : (o.reverse.take i).length = i := by rw [List.length_take]; omega
    have hrl : rest.length = k + 1 := by rw [hr, List.length_replicate]
    have hc : i + 1 ≤ (o.reverse.take i ++ rest).length := by rw [List.length_append, hti, hrl]; omega
    have hg : o.reverse[i] = o[o.length - i - 1] := by
      rw [List.getElem_reverse]
      congr 1
      omega
    have e : copyTo m (v + (T.size - i - 1)) 1 (o.reverse.take i ++ rest) i =
        some (o.reverse.take (i + 1) ++ List.replicate k none) := by
      rw [copyTo, h1]
      simp only [Option.bind_eq_bind, Option.bind_some, Option.pure_def]
      rw [if_pos hc, List.take_left' hti, ← hg, List.drop_append, hti, List.drop_eq_nil_of_le (by omega), hr,
        show i + 1 - i = 1 by omega, List.drop_replicate]
      simp only [Option.some.injEq, List.nil_append, Nat.add_sub_cancel]
      rw [List.take_succ_eq_append_getElem hil]
    rw [bswapLoop, e]
    exact ih (i + 1) _ (by omega) rfl

/-! ## C74 -/

/-- **C74** (a). `transmute_copy_uninit` returns the leading bytes of the source, followed by uninitialised bytes if the target is larger; for all
types, wherever the source lies, and without reading anything but the source. It is undefined exactly if that is not a valid value. -/
theorem transmute_copies (S D : Ty) (m : Ram) (a : Nat) (o : Obj) (h : At S m a o) (hd : ∃ k, D.align = 2 ^ k) :
    ∃ r : Obj, r.length = D.size ∧ (∀ i < D.size, r[i]? = some (if i < S.size then o[i]?.join else none)) ∧
      transmute_copy_uninit S D m a = if D.valid r then some r else none := by
  refine ⟨Ffi.transmute_copy_uninit o D.size, ?_, ?_, transmute_eq h hd⟩
  · rw [Ffi.transmute_copy_uninit]
    split
    · rw [List.length_append, List.length_replicate]; omega
    · rw [List.length_take]; omega
  · intro i hi
    rw [Ffi.transmute_copy_uninit]
    by_cases hs : i < S.size
    · have hio : i < o.length := by rw [h.size]; exact hs
      rw [if_pos hs, List.getElem?_eq_getElem hio]
      split
      · rw [List.getElem?_append_left hio, List.getElem?_eq_getElem hio]; rfl
      · rw [List.getElem?_take_of_lt hi, List.getElem?_eq_getElem hio]; rfl
    · have hlt : o.length < D.size := by rw [h.size]; omega
      rw [if_neg hs, if_pos hlt, List.getElem?_append_right (by rw [h.size]; omega), List.getElem?_replicate, if_pos (by rw [h.size]; omega)]

/-- **C74** (b). `bswap_copy` returns the bytes of the object in reverse order, for every size, on either host. -/
theorem bswap_reverses (h : Host) (al : Nat → Nat) (tmp : Nat) (T : Ty) (m : Ram) (v : Nat) (l : List UInt8) (ha : At T m v (l.map some))
    (hal : ∀ n, ∃ k, al n = 2 ^ k) (ht : ∀ n ∈ [2, 4, 8, 16], tmp % al n = 0) (hv : T.valid (l.reverse.map some) = true) :
    bswap_copy h al tmp T m v = some (l.reverse.map some) := by
  have hl : l.length = T.size := by simpa using ha.size
  have hok : assumeInit T (l.reverse.map some) = some (l.reverse.map some) := by rw [assumeInit, if_pos hv]
  have hint : ∀ n ∈ [2, 4, 8, 16], T.size = n → bswapInt h T n (al n) tmp m v = some (l.reverse.map some) := by
    intro n hn e
    subst e
    rw [bswapInt_eq h T _ tmp m v l ha (hal _) (ht _ hn), hok]
  unfold bswap_copy
  split
  · rename_i e
    rw [transmute_copy_eq ha ha.pow (Nat.le_refl _)]
    rw [e] at hl
    obtain ⟨b, rfl⟩ := List.length_eq_one_iff.mp hl
    rw [e]
    exact hok
  · rename_i e; exact hint 2 (by simp) e
  · rename_i e; exact hint 4 (by simp) e
  · rename_i e; exact hint 8 (by simp) e
  · rename_i e; exact hint 16 (by simp) e
  · rw [bswap_slow]
    have := bswapLoop_eq T m v (l.map some) ha.size ha.holds T.size 0 (List.replicate T.size none) (by rw [ha.size]; omega) rfl
    rw [List.take_zero, List.nil_append] at this
    rw [this, ← List.map_reverse]
    exact hok

/-- **C74** (c). `as_bytes` shows the bytes of the object. -/
theorem as_bytes_shows (T : Ty) (m : Ram) (v : Nat) (l : List UInt8) (h : At T m v (l.map some)) : as_bytes T m v = some l := by
  have hl : l.length = T.size := by simpa using h.size
  have := bytesAt_all h.holds
  rw [List.length_map, hl] at this
  rw [as_bytes, this]
  exact assume_init_some l

/-- **C74** (d). `eq` is true exactly if both objects have the same bytes; so it is false for objects of different sizes. -/
theorem eq_compares (A B : Ty) (m : Ram) (a b : Nat) (x y : List UInt8) (ha : At A m a (x.map some)) (hb : At B m b (y.map some)) :
    eq A B m a b = some (decide (x = y)) := by
  have hx : x.length = A.size := by simpa using ha.size
  have hy : y.length = B.size := by simpa using hb.size
  unfold eq
  split
  · rename_i hne
    have : x ≠ y := fun e => hne (by rw [← hx, ← hy, e])
    rw [decide_eq_false this]
  · rw [as_bytes_shows A m a x ha, as_bytes_shows B m b y hb]
    simp only [Option.bind_eq_bind, Option.bind_some, Option.pure_def]
    rw [Option.some.injEq]
    exact Bool.eq_iff_iff.mpr (by simp)

/-- **C74** (e). An assignment through `as_bytes_mut` changes that byte of the object and no other memory; out of bounds it panics. -/
theorem as_bytes_mut_sets (T : Ty) (m : Ram) (v : Nat) (l : List UInt8) (h : At T m v (l.map some)) (i : Nat) (b : UInt8) :
    (i < T.size → ∃ m', as_bytes_mut_set T m v i b = some m' ∧ At T m' v ((l.set i b).map some) ∧ ∀ x, x ≠ v + i → m' x = m x) ∧
    (T.size ≤ i → as_bytes_mut_set T m v i b = none) := by
  have hl : l.length = T.size := by simpa using h.size
  constructor
  · intro hi
    refine ⟨fun x => if x = v + i then some (some b) else m x, ?_, ?_, fun x hx => if_neg hx⟩
    · have hm : m (v + i) = some (some (l[i]'(by omega))) := h.holds i _ (by
        rw [List.getElem?_map, List.getElem?_eq_getElem (by omega)]; rfl)
      rw [as_bytes_mut_set, if_pos hi, hm]
      rfl
    · refine ⟨h.pow, h.aligned, by simpa using h.size, fun j c hc => ?_⟩
      rw [List.getElem?_map, List.getElem?_set] at hc
      show (if v + j = v + i then _ else _) = _
      by_cases hj : i = j
      · subst hj
        rw [if_pos rfl, if_pos (by omega)] at hc
        rw [if_pos rfl, ← hc]
        rfl
      · rw [if_neg hj] at hc
        rw [if_neg (by omega)]
        exact h.holds j c (by rw [List.getElem?_map]; exact hc)
  · intro hi
    rw [as_bytes_mut_set, if_neg (by omega)]

/-- **C74** (f). The model of C16 and C62, where objects have no addresses, is this one. -/
theorem object_models_agree (h : Host) (al : Nat → Nat) (tmp : Nat) (T D : Ty) (m : Ram) (v : Nat) (l : List UInt8)
    (ha : At T m v (l.map some)) (hd : ∃ k, D.align = 2 ^ k) (hal : ∀ n, ∃ k, al n = 2 ^ k) (ht : ∀ n ∈ [2, 4, 8, 16], tmp % al n = 0)
    (hv : T.valid (l.reverse.map some) = true) :
    transmute_copy_uninit T D m v = assumeInit D (Ffi.transmute_copy_uninit (l.map some) D.size) ∧
    bswap_copy h al tmp T m v = (Ffi.bswap_copy h l).map (·.map some) := by
  refine ⟨transmute_eq ha hd, ?_⟩
  rw [bswap_reverses h al tmp T m v l ha hal ht hv, bswap_copy_reverses]
  rfl

/-! The hypotheses can be met: a two-byte object with alignment 1 at an odd address, copied to a type with alignment 4; without the test of
the alignments the read would be undefined. -/
example : At (uint 2 1) (place 7 [some 1, some 2]) 7 [some 1, some 2] ∧
    transmute_copy_uninit (uint 2 1) (uint 2 4) (place 7 [some 1, some 2]) 7 = some [some 1, some 2] ∧
    read (uint 2 4) (place 7 [some 1, some 2]) 7 = none :=
  ⟨⟨⟨0, rfl⟩, by decide, rfl, place_holds _ _⟩, by decide, by decide⟩

example : transmute_copy_uninit (uint 2 2) ⟨3, 1, fun _ => true⟩ (place 8 [some 1, some 2]) 8 = some [some 1, some 2, none] ∧
    transmute_copy_uninit (uint 2 2) (uint 3 1) (place 8 [some 1, some 2]) 8 = none := by decide

/-- Instances of `transmute_copies`, `bswap_reverses` and `as_bytes_shows`: 4 bytes at an odd address. -/
example : At (uint 4 1) (place 7 [some 1, some 2, some 3, some 4]) 7 [some 1, some 2, some 3, some 4] :=
  ⟨⟨0, rfl⟩, by decide, rfl, place_holds _ _⟩
example := transmute_copies (uint 4 1) (uint 2 2) _ 7 _ ⟨⟨0, rfl⟩, by decide, rfl, place_holds 7 [some 1, some 2, some 3, some 4]⟩ ⟨1, rfl⟩
example := bswap_reverses .little (fun _ => 1) 3 (uint 4 1) _ 7 [1, 2, 3, 4] ⟨⟨0, rfl⟩, by decide, rfl, place_holds 7 [some 1, some 2, some 3, some 4]⟩
  (fun _ => ⟨0, rfl⟩) (by decide) (by decide)
example := as_bytes_shows (uint 4 1) _ 7 [1, 2, 3, 4] ⟨⟨0, rfl⟩, by decide, rfl, place_holds 7 [some 1, some 2, some 3, some 4]⟩

end Verif.Ffi.Memory
