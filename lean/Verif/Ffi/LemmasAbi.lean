import Verif.Ffi.SpecAbi
import Verif.Ffi.PropsEndian
import Verif.Bin.PropsLayout
/-! # Lemmas about the fixed-ABI types -/
namespace Verif.Ffi.Abi
open Verif.Bin (Lay Fields reprC place roundUp)

theorem roundUp_one (n : Nat) : roundUp n 1 = n := by simp [roundUp]

theorem roundUp_of_dvd (n a : Nat) (ha : 0 < a) (h : a ∣ n) : roundUp n a = n := by
  have h1 := Bin.roundUp_le n a ha
  have h2 := Bin.roundUp_lt n a ha
  obtain ⟨c, hc⟩ := Bin.roundUp_dvd n a
  obtain ⟨d, hd⟩ := h
  rw [hc, hd] at h1 h2 ⊢
  have h3 : d ≤ c := Nat.le_of_mul_le_mul_left h1 ha
  have h4 : c < d + 1 := by
    apply Nat.lt_of_mul_lt_mul_left (a := a)
    rw [Nat.mul_add, Nat.mul_one]
    exact h2
  have : c = d := by omega
  rw [this]

theorem place_integer (l : Lay) (a : Nat) :
    place 0 (integerFields l a) = ([⟨"value", 0, l.size⟩, ⟨"alignment", roundUp l.size a, 0⟩], roundUp l.size a) := by
  simp [integerFields, place, packedLay, roundUp_one, roundUp]

theorem reprC_integer (l : Lay) (a : Nat) (ha : 0 < a) : reprC 1 (integerFields l a) = ⟨roundUp l.size a, a⟩ := by
  have hal : Bin.alignOf 1 (integerFields l a) = a := by
    simp only [integerFields, Bin.alignOf, packedLay, List.foldr_cons, List.foldr_nil]
    omega
  rw [reprC, place_integer, hal]
  show Lay.mk (roundUp (roundUp l.size a) a) a = _
  rw [roundUp_of_dvd (roundUp l.size a) a ha (Bin.roundUp_dvd l.size a)]

theorem lay_integer (T : Target) (v : Ty) (a : Nat) (ha : 0 < a) : lay T (.integer v a) = ⟨roundUp (size T v) a, a⟩ := by
  rw [lay, reprC_integer _ _ ha]

theorem scalar_le_size (T : Target) (t : Ty) (h : Aligned t) : (scalar t).bytes T ≤ size T t := by
  induction t with
  | prim p => exact Nat.le_refl _
  | endian e p => exact Nat.le_refl _
  | packed v ih => exact ih h
  | integer v a ih =>
    have := ih h.2
    show _ ≤ (lay T (.integer v a)).size
    rw [lay_integer T v a h.1]
    exact Nat.le_trans this (Bin.roundUp_le _ _ h.1)
  | pointer v ih => exact ih h

theorem size_le_integer (T : Target) (v : Ty) (a : Nat) (h : 0 < a) : size T v ≤ size T (.integer v a) := by
  show _ ≤ (lay T (.integer v a)).size
  rw [lay_integer T v a h]
  exact Bin.roundUp_le _ _ h

theorem native_eq (t : Ty) : native t = scalar t := by
  induction t with
  | prim p => rfl
  | endian e p => rfl
  | packed v ih => exact ih
  | integer v a ih => exact ih
  | pointer v ih => exact ih

theorem validPrim_length (T : Target) (p : Prim) (o : Obj) (h : validPrim T p o = true) : o.length = p.bytes T := by
  simp only [validPrim, Bool.and_eq_true, beq_iff_eq] at h
  exact h.1.1

theorem valid_iff (T : Target) (t : Ty) (ha : Aligned t) (o : Obj) :
    valid T t o = true ↔ o.length = size T t ∧ validPrim T (scalar t) (o.take ((scalar t).bytes T)) = true := by
  induction t generalizing o with
  | prim p =>
    constructor
    · intro h
      have := validPrim_length T p o h
      exact ⟨this, by rw [scalar, List.take_of_length_le (by rw [this]; exact Nat.le_refl _)]; exact h⟩
    · intro ⟨h1, h2⟩
      rw [List.take_of_length_le (by rw [h1]; exact Nat.le_refl _)] at h2
      exact h2
  | endian e p =>
    constructor
    · intro h
      have := validPrim_length T p o h
      exact ⟨this, by rw [scalar, List.take_of_length_le (by rw [this]; exact Nat.le_refl _)]; exact h⟩
    · intro ⟨h1, h2⟩
      rw [List.take_of_length_le (by rw [h1]; exact Nat.le_refl _)] at h2
      exact h2
  | packed v ih => exact ih ha o
  | integer v a ih =>
    have hs := scalar_le_size T v ha.2
    have hl := size_le_integer T v a ha.1
    rw [valid, Bool.and_eq_true, beq_iff_eq, ih ha.2, List.take_take, Nat.min_eq_left hs, List.length_take]
    constructor
    · intro ⟨h1, h2, h3⟩; exact ⟨h1, h3⟩
    · intro ⟨h1, h2⟩; exact ⟨h1, by rw [h1]; exact Nat.min_eq_left hl, h2⟩
  | pointer v ih => exact ih ha o

/-- The bytes of a valid number. -/
theorem validPrim_iff (T : Target) (p : Prim) (o : Obj) :
    validPrim T p o = true ↔ ∃ m : List UInt8, o = m.map some ∧ m.length = p.bytes T ∧ (p.nonzero = true → ∃ b ∈ m, b ≠ 0) := by
  have hall : ∀ o : Obj, o.all Option.isSome = true ↔ ∃ m : List UInt8, o = m.map some := by
    intro o
    induction o with
    | nil => simp
    | cons x o ih =>
      rw [List.all_cons, Bool.and_eq_true, ih]
      constructor
      · intro ⟨hx, m, hm⟩
        obtain ⟨b, rfl⟩ := Option.isSome_iff_exists.mp hx
        exact ⟨b :: m, by rw [hm, List.map_cons]⟩
      · intro ⟨m, hm⟩
        cases m with
        | nil => cases hm
        | cons b m =>
          rw [List.map_cons] at hm
          injection hm with h1 h2
          exact ⟨by rw [h1]; rfl, m, h2⟩
  rw [validPrim, Bool.and_eq_true, Bool.and_eq_true, beq_iff_eq, hall, Bool.or_eq_true, Bool.not_eq_true']
  constructor
  · intro ⟨⟨h1, m, h2⟩, h3⟩
    subst h2
    refine ⟨m, rfl, by simpa using h1, ?_⟩
    intro hz
    rcases h3 with h3 | h3
    · rw [hz] at h3; cases h3
    · rw [List.any_map, List.any_eq_true] at h3
      obtain ⟨b, hb, hb'⟩ := h3
      exact ⟨b, hb, by intro h0; subst h0; revert hb'; decide⟩
  · intro ⟨m, h1, h2, h3⟩
    subst h1
    refine ⟨⟨by simpa using h2, m, rfl⟩, ?_⟩
    cases hz : p.nonzero
    · exact Or.inl rfl
    · right
      obtain ⟨b, hb, hb'⟩ := h3 hz
      rw [List.any_map, List.any_eq_true]
      refine ⟨b, hb, ?_⟩
      show (some b != some 0) = true
      rw [bne_iff_ne]
      intro h0
      exact hb' (Option.some.inj h0)

/-- The value bytes of a valid object. -/
theorem valid_bytes (T : Target) (t : Ty) (ha : Aligned t) (o : Obj) (hv : valid T t o = true) :
    ∃ m : List UInt8, o.take ((scalar t).bytes T) = m.map some ∧ m.length = (scalar t).bytes T ∧
      ((scalar t).nonzero = true → ∃ b ∈ m, b ≠ 0) := (validPrim_iff T _ _).mp ((valid_iff T t ha o).mp hv).2

theorem needsSwap_iff (T : Target) (t : Ty) (h : hasNative t = true) : needsSwap T t = decide (order T t ≠ T.host) := by
  induction t with
  | prim p => cases hT : T.host <;> simp [needsSwap, NEEDS_SWAP, order, hT]
  | endian e p => cases e <;> cases hT : T.host <;> simp [needsSwap, NEEDS_SWAP, order, hT]
  | packed v ih => simp [hasNative] at h
  | integer v a ih => exact ih h
  | pointer v ih => exact ih h

theorem load_swap (T : Target) (t : Ty) (h : hasNative t = true) (m : List UInt8) :
    load T.host (if needsSwap T t then m.reverse else m) = load (order T t) m := by
  rw [needsSwap_iff T t h]
  cases order T t <;> cases T.host <;> simp [load]

theorem store_swap (T : Target) (t : Ty) (h : hasNative t = true) (n v : Nat) :
    (if needsSwap T t then (store T.host n v).reverse else store T.host n v) = store (order T t) n v := by
  rw [needsSwap_iff T t h]
  cases order T t <;> cases T.host <;> simp [store]

theorem isByte_store (e : Host) (n v i : Nat) (hi : i < n) (b : UInt8) :
    IsByte e n v i b ↔ (store e n v)[i]? = some b := by
  have key : ∀ w : Nat, b.toNat = w % 256 ↔ some (UInt8.ofNat w) = some b := by
    intro w
    rw [Option.some.injEq, ← UInt8.toNat_inj, UInt8.toNat_ofNat']
    constructor <;> intro h <;> omega
  cases e
  · rw [IsByte, store, leBytes_get n v i hi, key]
  · rw [IsByte, store, List.getElem?_reverse (by rw [leBytes_length]; exact hi), leBytes_length, leBytes_get n v _ (by omega), key]

/-- An object holds a number iff its first bytes are the ones of the number. -/
theorem holds_iff (T : Target) (t : Ty) (o : Obj) (v : Nat) :
    Holds T t o v ↔ v < 256 ^ (scalar t).bytes T ∧
      o.take ((scalar t).bytes T) = (store (order T t) ((scalar t).bytes T) v).map some := by
  generalize hn : (scalar t).bytes T = n
  constructor
  · intro ⟨h1, h2⟩
    rw [hn] at h1 h2
    refine ⟨h1, ?_⟩
    apply List.ext_getElem?
    intro i
    by_cases hi : i < n
    · obtain ⟨b, hb, hb'⟩ := h2 i hi
      rw [List.getElem?_take_of_lt hi, hb, List.getElem?_map, (isByte_store _ n v i hi b).mp hb']
      rfl
    · rw [List.getElem?_eq_none (by rw [List.length_take]; omega),
        List.getElem?_eq_none (by rw [List.length_map, store_length]; omega)]
  · intro ⟨h1, h2⟩
    refine ⟨by rw [hn]; exact h1, ?_⟩
    rw [hn]
    intro i hi
    have hs : i < (store (order T t) n v).length := by rw [store_length]; exact hi
    refine ⟨(store (order T t) n v)[i], ?_, ?_⟩
    · rw [← List.getElem?_take_of_lt hi, h2, List.getElem?_map, List.getElem?_eq_getElem hs]
      rfl
    · rw [isByte_store _ n v i hi, List.getElem?_eq_getElem hs]

theorem map_some_inj (a b : List UInt8) (h : a.map some = b.map some) : a = b := by
  have := congrArg (List.filterMap id) h
  simpa [List.filterMap_map, Function.comp_def] using this

theorem holds_load (T : Target) (t : Ty) (o : Obj) (m : List UInt8) (hm : o.take ((scalar t).bytes T) = m.map some)
    (hl : m.length = (scalar t).bytes T) : Holds T t o (load (order T t) m) := by
  rw [holds_iff]
  refine ⟨by rw [← hl]; exact load_lt _ m, ?_⟩
  rw [hm, ← hl, store_load]

theorem holds_eq (T : Target) (t : Ty) (o : Obj) (m : List UInt8) (hm : o.take ((scalar t).bytes T) = m.map some) (v : Nat)
    (h : Holds T t o v) : v = load (order T t) m := by
  rw [holds_iff] at h
  have := map_some_inj _ _ (hm.symm.trans h.2)
  rw [this, load_store _ _ _ h.1]

theorem load_zero_iff (h : Host) (l : List UInt8) : load h l = 0 ↔ ∀ b ∈ l, b = 0 := by
  have hval0 : ∀ l : List UInt8, leVal l = 0 ↔ ∀ b ∈ l, b = 0 := by
    intro l
    induction l with
    | nil => simp [leVal]
    | cons b l ih =>
      rw [leVal]
      constructor
      · intro h0
        have hb : b.toNat = 0 := by omega
        have hl : leVal l = 0 := by omega
        intro c hc
        rcases List.mem_cons.mp hc with rfl | hc
        · exact UInt8.toNat_inj.mp (by simpa using hb)
        · exact ih.mp hl c hc
      · intro h0
        have hb := h0 b (by simp)
        have hl := ih.mpr (fun c hc => h0 c (by simp [hc]))
        subst hb
        rw [hl]; simp
  cases h <;> simp [load, hval0]

theorem load_nonzero_iff (h : Host) (l : List UInt8) : load h l ≠ 0 ↔ ∃ b ∈ l, b ≠ 0 := by
  rw [Ne, load_zero_iff]
  simp

/-- The padding behind the bytes of a number. -/
def pad (T : Target) (t : Ty) (m : List UInt8) : Obj := m.map some ++ List.replicate (size T t - m.length) none

theorem pad_take (T : Target) (t : Ty) (m : List UInt8) : (pad T t m).take m.length = m.map some := by
  rw [pad, List.take_append_of_le_length (by simp), List.take_of_length_le (by simp)]

theorem pad_length (T : Target) (t : Ty) (ha : Aligned t) (m : List UInt8) (hl : m.length = (scalar t).bytes T) :
    (pad T t m).length = size T t := by
  have := scalar_le_size T t ha
  simp [pad]
  omega

theorem pad_valid (T : Target) (t : Ty) (ha : Aligned t) (m : List UInt8) (hl : m.length = (scalar t).bytes T)
    (hz : (scalar t).nonzero = true → ∃ b ∈ m, b ≠ 0) : valid T t (pad T t m) = true := by
  rw [valid_iff T t ha]
  refine ⟨pad_length T t ha m hl, ?_⟩
  rw [← hl, pad_take, validPrim_iff]
  exact ⟨m, rfl, hl, hz⟩

theorem transmute_pad (T : Target) (t : Ty) (ha : Aligned t) (m : List UInt8) (hl : m.length = (scalar t).bytes T) :
    transmute_copy_uninit (m.map some) (size T t) = pad T t m := by
  have hs := scalar_le_size T t ha
  rw [transmute_copy_uninit, pad, List.length_map]
  by_cases h : m.length < size T t
  · rw [if_pos h]
  · have e : size T t = m.length := by omega
    rw [if_neg h, e, Nat.sub_self, List.replicate_zero, List.append_nil, List.take_of_length_le (by simp)]

theorem fromRaw_eq (T : Target) (t : Ty) (ha : Aligned t) (m : List UInt8) (hl : m.length = (scalar t).bytes T)
    (hz : (scalar t).nonzero = true → ∃ b ∈ m, b ≠ 0) : fromRaw T t m = some (pad T t m) := by
  have e : fromRaw T t m = if valid T t (transmute_copy_uninit (m.map some) (size T t)) = true then
      some (transmute_copy_uninit (m.map some) (size T t)) else none := rfl
  rw [e, transmute_pad T t ha m hl, if_pos (pad_valid T t ha m hl hz)]

theorem toRaw_eq (T : Target) (t : Ty) (ha : Aligned t) (o : Obj) (hv : valid T t o = true) (m : List UInt8)
    (hm : o.take ((scalar t).bytes T) = m.map some) : toRaw T t o = some m := by
  have hlen := ((valid_iff T t ha o).mp hv).1
  have hs := scalar_le_size T t ha
  have et : transmute_copy_uninit o ((native t).bytes T) = m.map some := by
    rw [transmute_copy_uninit, native_eq, if_neg (by omega), hm]
  have e : toRaw T t o = if validPrim T (native t) (transmute_copy_uninit o ((native t).bytes T)) = true then
      assume_init (transmute_copy_uninit o ((native t).bytes T)) else none := rfl
  rw [e, et, native_eq, if_pos (by rw [← hm]; exact ((valid_iff T t ha o).mp hv).2), assume_init_some]

theorem fromNative_eq (T : Target) (t : Ty) (ha : Aligned t) (hn : hasNative t = true) (v : Nat)
    (hv : v < 256 ^ (scalar t).bytes T) (hz : (scalar t).nonzero = true → v ≠ 0) :
    fromNative T t (store T.host ((scalar t).bytes T) v) = some (pad T t (store (order T t) ((scalar t).bytes T) v)) := by
  have e : fromNative T t (store T.host ((scalar t).bytes T) v) =
      fromRaw T t (if needsSwap T t then (store T.host ((scalar t).bytes T) v).reverse else store T.host ((scalar t).bytes T) v) := by
    rw [fromNative]
    cases needsSwap T t
    · rfl
    · simp [bswap_copy_reverses]
  rw [e, store_swap T t hn, fromRaw_eq T t ha _ (store_length _ _ _)]
  intro h
  rw [← load_nonzero_iff (order T t), load_store _ _ _ hv]
  exact hz h

theorem toNative_eq (T : Target) (t : Ty) (ha : Aligned t) (o : Obj) (hv : valid T t o = true) (m : List UInt8)
    (hm : o.take ((scalar t).bytes T) = m.map some) : toNative T t o = some (if needsSwap T t then m.reverse else m) := by
  rw [toNative, toRaw_eq T t ha o hv m hm]
  cases needsSwap T t
  · rfl
  · simp [bswap_copy_reverses]

theorem toNative_store (T : Target) (t : Ty) (ha : Aligned t) (hn : hasNative t = true) (o : Obj) (hv : valid T t o = true) (m : List UInt8)
    (hm : o.take ((scalar t).bytes T) = m.map some) (hl : m.length = (scalar t).bytes T) :
    toNative T t o = some (store T.host ((scalar t).bytes T) (load (order T t) m)) := by
  rw [toNative_eq T t ha o hv m hm, ← load_swap T t hn m]
  have hlen : (if needsSwap T t then m.reverse else m).length = (scalar t).bytes T := by
    cases needsSwap T t <;> simp [hl]
  rw [← hlen, store_load]

/-- Integers, not floating point numbers. -/
def IsInt : Prim → Prop
  | .int .. => True
  | .float _ => False

theorem readPrim_eq (T : Target) (p : Prim) (m : List UInt8) : readPrim T p m = signedValue T p (load T.host m) := by
  rw [readPrim, signedValue, IntTy.read]
  have hev : 256 ^ p.bytes T / 2 ≤ load T.host m ↔ 256 ^ p.bytes T ≤ 2 * load T.host m := by
    have hpos : 0 < p.bytes T := by
      cases p with
      | int w s z => cases w <;> simp [Prim.bytes, Width.bytes] <;> cases T.ptr <;> simp [PtrWidth.bytes]
      | float d => cases d <;> simp [Prim.bytes]
    obtain ⟨k, hk⟩ : ∃ k, p.bytes T = k + 1 := ⟨p.bytes T - 1, by omega⟩
    rw [hk, Nat.pow_succ]
    omega
  simp only [hev]
  cases p.signed <;> simp

theorem viewed_eq (T : Target) (t : Ty) (ha : Aligned t) (hi : IsInt (scalar t)) (o : Obj) (hv : valid T t o = true) (m : List UInt8)
    (hm : o.take ((scalar t).bytes T) = m.map some) (hl : m.length = (scalar t).bytes T) :
    viewed T t o = some (signedValue T (scalar t) (load (order T t) m)) := by
  induction t generalizing o with
  | prim p =>
    have hlen := validPrim_length T p o hv
    rw [scalar, List.take_of_length_le (by rw [hlen]; exact Nat.le_refl _)] at hm
    rw [viewed, hm, assume_init_some, Option.map_some, readPrim_eq]
    rfl
  | endian e p =>
    have hn : hasNative (.endian e p) = true := by
      cases p with
      | int w s z => rfl
      | float d => exact hi.elim
    rw [viewed, toNative_store T (.endian e p) trivial hn o hv m hm hl, Option.map_some, readPrim_eq, load_store]
    · rfl
    · have := load_lt (order T (.endian e p)) m
      rw [hl] at this
      exact this
  | packed v ih => exact ih ha hi o hv hm hl
  | integer v a ih =>
    rw [viewed, Integer.get]
    have hs := scalar_le_size T v ha.2
    rw [valid, Bool.and_eq_true] at hv
    exact ih ha.2 hi _ hv.2 (by rw [List.take_take, Nat.min_eq_left hs]; exact hm) hl
  | pointer v ih => exact ih ha hi o hv hm hl

theorem signedValue_inj (T : Target) (p : Prim) (x y : Nat) (hx : x < 256 ^ p.bytes T) (hy : y < 256 ^ p.bytes T) :
    signedValue T p x = signedValue T p y ↔ x = y := by
  simp only [signedValue]
  generalize 256 ^ p.bytes T = B at hx hy ⊢
  cases p.signed
  · simp only [Bool.false_eq_true, false_and, if_false]; omega
  · simp only [true_and]
    split <;> split <;> constructor <;> intro h <;> omega

end Verif.Ffi.Abi
