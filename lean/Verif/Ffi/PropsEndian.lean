import Verif.Ffi.ModelEndian
/-! # Property theorems: endian wrappers and byte swapping (C16) -/
namespace Verif.Ffi

/-! ## Lemmas -/

theorem leBytes_length (n v : Nat) : (leBytes n v).length = n := by
  induction n generalizing v with
  | zero => rfl
  | succ n ih => simp [leBytes, ih]

theorem leVal_leBytes (n v : Nat) (h : v < 256 ^ n) : leVal (leBytes n v) = v := by
  induction n generalizing v with
  | zero => simp at h; simp [leBytes, leVal, h]
  | succ n ih =>
    rw [leBytes, leVal, ih _ (by rw [Nat.pow_succ] at h; omega)]
    have : (UInt8.ofNat (v % 256)).toNat = v % 256 := by
      simp [UInt8.toNat_ofNat']
    rw [this]; omega

theorem leVal_lt (m : List UInt8) : leVal m < 256 ^ m.length := by
  induction m with
  | nil => simp [leVal]
  | cons b m ih =>
    rw [leVal, List.length_cons, Nat.pow_succ]
    have := b.toNat_lt
    omega

theorem leBytes_leVal (m : List UInt8) : leBytes m.length (leVal m) = m := by
  induction m with
  | nil => rfl
  | cons b m ih =>
    have hb := b.toNat_lt
    rw [leVal, List.length_cons, leBytes]
    have h1 : (b.toNat + 256 * leVal m) % 256 = b.toNat := by omega
    have h2 : (b.toNat + 256 * leVal m) / 256 = leVal m := by omega
    rw [h1, h2, ih, UInt8.ofNat_toNat]

theorem leBytes_get (n v i : Nat) (h : i < n) : (leBytes n v)[i]? = some (UInt8.ofNat (v / 256 ^ i)) := by
  induction n generalizing v i with
  | zero => omega
  | succ n ih =>
    cases i with
    | zero =>
      simp only [leBytes, List.getElem?_cons_zero, Nat.pow_zero, Nat.div_one]
      congr 1
      apply UInt8.toNat_inj.mp
      simp
    | succ i =>
      rw [leBytes, List.getElem?_cons_succ, ih _ _ (by omega), Nat.div_div_eq_div_mul, Nat.pow_succ,
        Nat.mul_comm 256]

theorem store_length (h : Host) (n v : Nat) : (store h n v).length = n := by
  cases h <;> simp [store, leBytes_length]

theorem load_store (h : Host) (n v : Nat) (hv : v < 256 ^ n) : load h (store h n v) = v := by
  cases h <;> simp [load, store, leVal_leBytes n v hv]

theorem store_load (h : Host) (m : List UInt8) : store h m.length (load h m) = m := by
  cases h
  · exact leBytes_leVal m
  · have := leBytes_leVal m.reverse
    rw [List.length_reverse] at this
    simp [store, load, this]

theorem load_lt (h : Host) (m : List UInt8) : load h m < 256 ^ m.length := by
  cases h
  · exact leVal_lt m
  · have := leVal_lt m.reverse
    rwa [List.length_reverse] at this

theorem swap_load (h : Host) (m : List UInt8) :
    store h m.length (swap_bytes m.length (load h m)) = m.reverse := by
  cases h
  · simp only [store, swap_bytes, load, leBytes_leVal]
    have := leBytes_leVal m.reverse
    rwa [List.length_reverse] at this
  · have h1 := leBytes_leVal m.reverse
    rw [List.length_reverse] at h1
    simp only [store, swap_bytes, load, h1, List.reverse_reverse, leBytes_leVal]

theorem assume_init_some (m : List UInt8) : assume_init (m.map some) = some m := by
  induction m with
  | nil => rfl
  | cons b m ih =>
    simp only [assume_init, List.map_cons, List.mapM_cons, id] at ih ⊢
    rw [ih]; rfl

/-- After the loop ran from `i` for `k` steps, the cells `i .. i+k` hold the mirrored source bytes. -/
theorem bswap_loop_get (src : List UInt8) (k i : Nat) (dst : List (Option UInt8)) (j : Nat)
    (hj : j < dst.length) (hlen : i + k ≤ dst.length) :
    (bswap_loop src k i dst)[j]? =
      if i ≤ j ∧ j < i + k then some src[src.length - j - 1]? else dst[j]? := by
  induction k generalizing i dst with
  | zero =>
    have : ¬ (i ≤ j ∧ j < i + 0) := by omega
    rw [bswap_loop, if_neg this]
  | succ k ih =>
    rw [bswap_loop, ih _ _ (by simpa using hj) (by simp; omega)]
    by_cases h1 : i + 1 ≤ j ∧ j < i + 1 + k
    · rw [if_pos h1, if_pos (by omega)]
    · rw [if_neg h1]
      by_cases h2 : i = j
      · subst h2
        rw [List.getElem?_set_self (by omega), if_pos (by omega)]
      · rw [List.getElem?_set_ne h2, if_neg (by omega)]

theorem bswap_loop_length (src : List UInt8) (k i : Nat) (dst : List (Option UInt8)) :
    (bswap_loop src k i dst).length = dst.length := by
  induction k generalizing i dst with
  | zero => rfl
  | succ k ih => rw [bswap_loop, ih]; simp

theorem bswap_slow_eq (m : List UInt8) : bswap_slow m = some m.reverse := by
  rw [bswap_slow, ← assume_init_some m.reverse]
  congr 1
  apply List.ext_getElem?
  intro j
  by_cases hj : j < m.length
  · rw [bswap_loop_get m m.length 0 _ j (by simpa using hj) (by simp), if_pos (by omega)]
    rw [List.getElem?_map, List.getElem?_reverse hj]
    have e : m.length - j - 1 = m.length - 1 - j := by omega
    rw [e, List.getElem?_eq_getElem (by omega)]
    rfl
  · rw [List.getElem?_eq_none (by rw [bswap_loop_length]; simp; omega),
      List.getElem?_eq_none (by simp; omega)]

/-- **C16** (a). Byte swapping reverses the bytes, for every size on every host (and never reads an
uninitialised byte). -/
theorem bswap_copy_reverses (h : Host) (m : List UInt8) : bswap_copy h m = some m.reverse := by
  have key : ∀ n, m.length = n → some (store h n (swap_bytes n (load h m))) = some m.reverse := by
    intro n hn
    subst hn
    rw [swap_load]
  unfold bswap_copy
  split
  · rename_i hl
    match m, hl with
    | [a], _ => rfl
  · exact key _ ‹_›
  · exact key _ ‹_›
  · exact key _ ‹_›
  · exact key _ ‹_›
  · exact bswap_slow_eq m

/-- **C16** (b). Swapping twice is the identity. -/
theorem bswap_copy_involutive (h : Host) (m : List UInt8) :
    (bswap_copy h m).bind (bswap_copy h) = some m := by
  simp [bswap_copy_reverses]

theorem raw_id (r : List UInt8) : from_raw r = some r ∧ to_raw r = some r := by
  constructor <;>
  · simp only [from_raw, to_raw, transmute_copy_uninit]
    rw [if_neg (by simp), List.take_of_length_le (by simp), assume_init_some]

theorem from_native_eq (h : Host) (w : Wrapper) (r : List UInt8) :
    from_native h w r = some (if NEEDS_SWAP h w then r.reverse else r) := by
  rw [from_native]
  cases NEEDS_SWAP h w
  · simp [raw_id]
  · simp [bswap_copy_reverses, raw_id]

theorem to_native_eq (h : Host) (w : Wrapper) (r : List UInt8) :
    to_native h w r = some (if NEEDS_SWAP h w then r.reverse else r) := by
  rw [to_native]
  cases NEEDS_SWAP h w
  · simp [raw_id]
  · simp [bswap_copy_reverses, raw_id]

/-- **C16** (c). Raw access is the identity on the bytes. -/
theorem endian_raw_roundtrip (m : List UInt8) :
    (from_raw m).bind to_raw = some m ∧ (to_raw m).bind from_raw = some m := by
  simp [raw_id]

/-- **C16** (d). `to_native(from_native(v)) = v` for every wrapper, host, width and value. -/
theorem endian_native_roundtrip (h : Host) (w : Wrapper) (n v : Nat) (hv : v < 256 ^ n) :
    ((from_native h w (store h n v)).bind (to_native h w)).map (load h) = some v := by
  rw [from_native_eq, Option.bind_some, to_native_eq]
  cases NEEDS_SWAP h w <;> simp [load_store h n v hv]

/-- **C16** (e). `from_native(to_native(e)) = e` for every stored object. -/
theorem endian_wrapper_roundtrip (h : Host) (w : Wrapper) (m : List UInt8) :
    (to_native h w m).bind (from_native h w) = some m := by
  rw [to_native_eq, Option.bind_some, from_native_eq]
  cases NEEDS_SWAP h w <;> simp

/-- **C16** (f). The memory of a big-endian wrapper is the value's most significant byte first, on
either host. -/
theorem bigEndian_memory (h : Host) (n v : Nat) :
    ∃ m, from_native h .bigEndian (store h n v) = some m ∧ m.length = n ∧
      ∀ i, i < n → m[i]? = some (UInt8.ofNat (v / 256 ^ (n - 1 - i))) := by
  refine ⟨(leBytes n v).reverse, ?_, by simp [leBytes_length], ?_⟩
  · rw [from_native_eq]; cases h <;> simp [NEEDS_SWAP, store]
  · intro i hi
    rw [List.getElem?_reverse (by simpa [leBytes_length] using hi), leBytes_length,
      leBytes_get n v _ (by omega)]

/-- **C16** (g). ... and of a little-endian wrapper its least significant byte first. -/
theorem littleEndian_memory (h : Host) (n v : Nat) :
    ∃ m, from_native h .littleEndian (store h n v) = some m ∧ m.length = n ∧
      ∀ i, i < n → m[i]? = some (UInt8.ofNat (v / 256 ^ i)) := by
  refine ⟨leBytes n v, ?_, by simp [leBytes_length], ?_⟩
  · rw [from_native_eq]; cases h <;> simp [NEEDS_SWAP, store]
  · intro i hi
    rw [leBytes_get n v _ hi]

/-- **C16** (h). Comparing wrappers compares the native integers, signed or unsigned. -/
theorem endian_compare (h : Host) (w : Wrapper) (t : IntTy) (a b : Nat)
    (ha : a < 256 ^ t.bytes) (hb : b < 256 ^ t.bytes) (ma mb : List UInt8)
    (ea : from_native h w (store h t.bytes a) = some ma) (eb : from_native h w (store h t.bytes b) = some mb) :
    wrapperEq h w t ma mb = some (decide (t.read a = t.read b)) ∧
    wrapperCmp h w t ma mb = some (compare (t.read a) (t.read b)) := by
  have na := endian_native_roundtrip h w t.bytes a ha
  have nb := endian_native_roundtrip h w t.bytes b hb
  rw [ea, Option.bind_some, to_native_eq] at na
  rw [eb, Option.bind_some, to_native_eq] at nb
  have na := Option.some.inj na
  have nb := Option.some.inj nb
  simp only [wrapperEq, wrapperCmp, to_native_eq, Option.bind_eq_bind, Option.bind_some, Option.pure_def, na, nb]
  exact ⟨trivial, trivial⟩

/-- **C16** (i). Equality of wrappers is equality of their memory. -/
theorem endian_eq_iff_bytes (h : Host) (w : Wrapper) (t : IntTy) (a b : List UInt8)
    (ha : a.length = t.bytes) (hb : b.length = t.bytes) :
    wrapperEq h w t a b = some (decide (a = b)) := by
  simp only [wrapperEq, to_native_eq, Option.bind_eq_bind, Option.bind_some, Option.pure_def]
  congr 1
  have hread : ∀ x y, x < 256 ^ t.bytes → y < 256 ^ t.bytes → (t.read x = t.read y ↔ x = y) := by
    intro x y hx hy
    have e : ((256 ^ t.bytes : Nat) : Int) = (256 : Int) ^ t.bytes := by simp
    simp only [IntTy.read, ← e]
    generalize 256 ^ t.bytes = B at hx hy ⊢
    cases t.signed
    · simp only [Bool.false_eq_true, false_and, if_false]; omega
    · simp only [true_and]
      split <;> split <;> constructor <;> intro h <;> omega
  have key : ∀ x y : List UInt8, x.length = t.bytes → y.length = t.bytes →
      (load h x = load h y ↔ x = y) := by
    intro x y hx hy
    constructor
    · intro he
      rw [← store_load h x, ← store_load h y, he, hx, hy]
    · intro he; rw [he]
  have l1 := load_lt h (if NEEDS_SWAP h w = true then a.reverse else a)
  have l2 := load_lt h (if NEEDS_SWAP h w = true then b.reverse else b)
  have e1 : (if NEEDS_SWAP h w = true then a.reverse else a).length = t.bytes := by split <;> simp [ha]
  have e2 : (if NEEDS_SWAP h w = true then b.reverse else b).length = t.bytes := by split <;> simp [hb]
  rw [e1] at l1
  rw [e2] at l2
  rw [decide_eq_decide, hread _ _ l1 l2, key _ _ e1 e2]
  cases NEEDS_SWAP h w <;> simp

/-- **C16** (j). The conversions keep non-zero integers non-zero, so they are valid on the `NonZero` types. -/
theorem endian_nonzero (h : Host) (w : Wrapper) (n v : Nat) (hv : v < 256 ^ n) (hz : v ≠ 0) (m : List UInt8)
    (e : from_native h w (store h n v) = some m) : load h m ≠ 0 := by
  have hval0 : ∀ l : List UInt8, leVal l = 0 ↔ ∀ b ∈ l, b = 0 := by
    intro l
    induction l with
    | nil => simp [leVal]
    | cons b l ih =>
      rw [leVal]
      constructor
      · intro h0
        have hb : b.toNat = 0 := by omega
        have hl : leVal l = 0 := by omega
        intro c hc
        rcases List.mem_cons.mp hc with rfl | hc
        · exact UInt8.toNat_inj.mp (by simpa using hb)
        · exact ih.mp hl c hc
      · intro h0
        have hb := h0 b (by simp)
        have hl := ih.mpr (fun c hc => h0 c (by simp [hc]))
        subst hb
        rw [hl]; simp
  have hload : ∀ l : List UInt8, load h l = 0 ↔ ∀ b ∈ l, b = 0 := by
    intro l
    cases h <;> simp [load, hval0]
  rw [from_native_eq] at e
  have e := Option.some.inj e
  intro h0
  apply hz
  have h1 := (hload m).mp h0
  rw [← load_store h n v hv, hload]
  intro b hb
  apply h1
  rw [← e]
  split
  · simpa using hb
  · exact hb

example : from_native .little .bigEndian (store .little 4 0x01020304) = some [1, 2, 3, 4] := by decide
example : from_native .big .littleEndian (store .big 4 0x01020304) = some [4, 3, 2, 1] := by decide
example : from_native .little .bigEndian (store .little 3 0x010203) = some [1, 2, 3] := by decide
example : wrapperCmp .little .bigEndian ⟨2, true⟩ [0xff, 0xff] [0, 1] = some .lt := by decide
example : wrapperCmp .little .bigEndian ⟨2, false⟩ [0xff, 0xff] [0, 1] = some .gt := by decide

/-- An instance of `endian_native_roundtrip`. -/
example := endian_native_roundtrip .little .bigEndian 4 0x01020304 (by decide)

end Verif.Ffi
