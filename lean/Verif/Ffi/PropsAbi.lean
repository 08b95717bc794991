import Verif.Ffi.LemmasAbi
/-! # Property theorems: types with a fixed ABI (C61-C63) -/
namespace Verif.Ffi.Abi
open Verif.Bin (Lay Fields reprC place roundUp)

/-! ## C61: layout -/

/-- **C61** (a). `Integer` has exactly the requested alignment; its size is the one of the value, rounded up to a multiple of the
alignment, and hence the one of the value if that is a multiple already. -/
theorem integer_layout (T : Target) (v : Ty) (a : Nat) (ha : 0 < a) :
    (lay T (.integer v a)).align = a ∧
    a ∣ size T (.integer v a) ∧ size T v ≤ size T (.integer v a) ∧ size T (.integer v a) < size T v + a ∧
    (a ∣ size T v → size T (.integer v a) = size T v) := by
  simp only [size, lay_integer T v a ha]
  exact ⟨trivial, Bin.roundUp_dvd _ _, Bin.roundUp_le _ _ ha, Bin.roundUp_lt _ _ ha, roundUp_of_dvd _ _ ha⟩

/-- **C61** (b). The value lies at the beginning of an `Integer`, and the marker takes no space. -/
theorem integer_offsets (T : Target) (v : Ty) (a : Nat) :
    ∃ e, (place 0 (integerFields (lay T v) a)).1 = [⟨"value", 0, size T v⟩, ⟨"alignment", e, 0⟩] :=
  ⟨_, by rw [place_integer]⟩

/-- **C61** (c). `Packed` has the size of its value and alignment 1; the endian wrappers and `Pointer` have the layout of what they wrap. -/
theorem wrapper_layout (T : Target) (v : Ty) (p : Prim) (e : Host) :
    lay T (.packed v) = ⟨size T v, 1⟩ ∧ lay T (.endian e p) = lay T (.prim p) ∧ lay T (.pointer v) = lay T v :=
  ⟨rfl, rfl, rfl⟩

/-- **C61** (d). The layout of an `Integer` does not depend on the platform, unless its number is as wide as an address. -/
theorem integer_host_independent (T T' : Target) (v : Ty) (a : Nat) (ha : Aligned (.integer v a))
    (hw : ∀ s z, scalar v ≠ .int .size s z) : lay T (.integer v a) = lay T' (.integer v a) := by
  have key : ∀ t : Ty, Aligned t → (∀ s z, scalar t ≠ .int .size s z) → size T t = size T' t := by
    have hp : ∀ p : Prim, (∀ s z, p ≠ .int .size s z) → p.bytes T = p.bytes T' := by
      intro p hp
      cases p with
      | int w s z => cases w <;> first | rfl | exact absurd rfl (hp s z)
      | float d => cases d <;> rfl
    intro t ha hw
    induction t with
    | prim p => exact hp p hw
    | endian e p => exact hp p hw
    | packed v ih => exact ih ha hw
    | integer v a ih =>
      show (lay T (.integer v a)).size = (lay T' (.integer v a)).size
      rw [lay_integer T v a ha.1, lay_integer T' v a ha.1, ih ha.2 hw]
    | pointer v ih => exact ih ha hw
  rw [lay_integer T v a ha.1, lay_integer T' v a ha.1, key v ha.2 hw]

theorem alignAsLay_eq (n : Nat) : alignAsLay n = if n ∈ [1, 2, 4, 8, 16, 32, 64, 128] then some ⟨0, n⟩ else none := by
  by_cases h : n ∈ [1, 2, 4, 8, 16, 32, 64, 128]
  · rw [if_pos h]
    simp only [List.mem_cons, List.not_mem_nil, or_false] at h
    rcases h with h | h | h | h | h | h | h | h <;> subst h <;> decide
  · rw [if_neg h]
    simp only [List.mem_cons, List.not_mem_nil, or_false, not_or] at h
    unfold alignAsLay
    split <;> first | rfl | omega

/-- **C61** (e). For every type with an alignment marker, the marker takes no space and has the alignment of the type, however arrays,
slices and references are nested. -/
theorem marker_alignment (T : Target) (hT : T.Ok) (m : Marker) (hm : Implemented m) : m.align T = some ⟨0, alignOfType T m⟩ := by
  have hT' : ∀ n ∈ [1, 2, 4, 8, 16], alignAsLay (T.alignOf n) = some ⟨0, T.alignOf n⟩ := by
    intro n hn
    rw [alignAsLay_eq, if_pos (hT n hn)]
  have hptr : T.ptr.bytes ∈ [1, 2, 4, 8, 16] := by cases T.ptr <;> decide
  induction m with
  | alignAs n =>
    have hm : n ∈ [1, 2, 4, 8, 16, 32, 64, 128] := hm
    rw [Marker.align, alignAsLay_eq, if_pos hm]; rfl
  | num p =>
    cases p with
    | int w s z =>
      have hz : z = false := hm
      subst hz
      apply hT'
      cases w
      case size => exact hptr
      all_goals simp [Width.bytes]
    | float d => cases d <;> exact hT' _ (by simp [Prim.bytes])
  | char => exact hT' 4 (by decide)
  | bool => exact hT' 1 (by decide)
  | unit => rfl
  | str => exact hT' 1 (by decide)
  | array m n ih => exact ih hm
  | slice m ih => exact ih hm
  | ref => exact hT' _ hptr

/-- **C61** (f). There is no marker for other types. -/
theorem marker_missing (T : Target) (m : Marker) (hm : ¬ Implemented m) : m.align T = none := by
  induction m with
  | alignAs n =>
    have hm : ¬ n ∈ [1, 2, 4, 8, 16, 32, 64, 128] := hm
    rw [Marker.align, alignAsLay_eq, if_neg hm]
  | num p =>
    cases p with
    | int w s z =>
      cases z
      · exact absurd rfl hm
      · rfl
    | float d => exact absurd rfl hm
  | array m n ih => exact ih hm
  | slice m ih => exact ih hm
  | _ => exact absurd trivial hm

/-- Size and alignment of the types of an ABI. -/
def abiTable (T : Target) (abi : List (String × Ty)) : List (String × Nat × Nat) :=
  abi.map (fun x => (x.1, (lay T x.2).size, (lay T x.2).align))

/-- **C61** (g). On every host, the types of the ABIs have the published sizes and alignments. -/
theorem abi_published (T : Target) :
    abiTable T aarch64_sysv = publishedLp64 ∧ abiTable T x86_64_sysv = publishedLp64 ∧ abiTable T x86_sysv = publishedIntel386 := by
  refine ⟨?_, ?_, ?_⟩ <;>
  simp [abiTable, aarch64_sysv, x86_64_sysv, x86_sysv, Le, lay, reprC_integer, roundUp, Prim.bytes, Width.bytes, i, u, nz,
    publishedIntel386, publishedLp64]

/-- **C61** (h). All their numbers are little-endian, fill the type, and are signed and `NonZero` as the native types of the same name. -/
theorem abi_numbers (T : Target) : ∀ abi ∈ [aarch64_sysv, x86_64_sysv, x86_sysv],
    (∀ x ∈ abi, order T x.2 = .little ∧ (scalar x.2).bytes T = (lay T x.2).size) ∧
    abi.map (fun x => (x.1, (scalar x.2).signed, (scalar x.2).nonzero)) =
      nativeAbi.map (fun x => (x.1, (scalar x.2).signed, (scalar x.2).nonzero)) := by
  intro abi h
  simp only [List.mem_cons, List.not_mem_nil, or_false] at h
  rcases h with h | h | h <;> subst h
  all_goals
    refine ⟨?_, by decide⟩
    intro x hx
    simp only [aarch64_sysv, x86_64_sysv, x86_sysv, List.mem_cons, List.not_mem_nil, or_false] at hx
    rcases hx with hx | hx | hx | hx | hx | hx | hx | hx | hx | hx | hx | hx | hx | hx | hx | hx <;> subst hx <;> refine ⟨rfl, ?_⟩ <;>
      simp [Le, scalar, lay, reprC_integer, roundUp, Prim.bytes, Width.bytes, i, u, nz]

/-- **C61** (i). The ABI that `target` stands for has the layout of the native types. -/
theorem abi_target :
    abiTable lp64 aarch64_sysv = abiTable lp64 nativeAbi ∧ abiTable lp64 x86_64_sysv = abiTable lp64 nativeAbi ∧
    abiTable intel386 x86_sysv = abiTable intel386 nativeAbi := by decide

example : lay lp64 (.integer (.prim (u .w8)) 16) = ⟨16, 16⟩ := by decide
example : lay lp64 (.integer (.endian .big (i .w128)) 1) = ⟨16, 1⟩ := by decide
example : lay lp64 (.integer (.integer (.prim (u .w8)) 4) 2) = ⟨4, 2⟩ := by decide
example : Target.Ok lp64 ∧ Target.Ok intel386 := ⟨by unfold Target.Ok; decide, by unfold Target.Ok; decide⟩
example : (Marker.array (.slice (.array (.num (u .w64)) 3)) 7).align intel386 = some ⟨0, 4⟩ := by decide

/-! ## C62: values -/

/-- **C62** (a). A value from `from_native` lies in memory in the byte order of the type, on every host and at the beginning of the object;
the object is a valid one of its type, and `to_native` yields the value again. -/
theorem from_native_holds (T : Target) (t : Ty) (ha : Aligned t) (hn : hasNative t = true) (v : Nat)
    (hv : v < 256 ^ (scalar t).bytes T) (hz : (scalar t).nonzero = true → v ≠ 0) :
    ∃ o, fromNative T t (store T.host ((scalar t).bytes T) v) = some o ∧ o.length = size T t ∧ valid T t o = true ∧ Holds T t o v ∧
      toNative T t o = some (store T.host ((scalar t).bytes T) v) := by
  have hl := store_length (order T t) ((scalar t).bytes T) v
  have hb : (scalar t).nonzero = true → ∃ b ∈ store (order T t) ((scalar t).bytes T) v, b ≠ 0 := by
    intro h
    rw [← load_nonzero_iff (order T t), load_store _ _ _ hv]
    exact hz h
  have hval := pad_valid T t ha _ hl hb
  have htake := pad_take T t (store (order T t) ((scalar t).bytes T) v)
  rw [hl] at htake
  refine ⟨_, fromNative_eq T t ha hn v hv hz, pad_length T t ha _ hl, hval, ?_, ?_⟩
  · rw [holds_iff]
    exact ⟨hv, htake⟩
  · rw [toNative_store T t ha hn _ hval _ htake hl, load_store _ _ _ hv]

/-- **C62** (b). Every valid object holds exactly one number; `to_native` yields it, never reads uninitialised memory, and yields a valid
`NonZero` integer if that is the type; `from_native` of it has the same value bytes again. -/
theorem to_native_holds (T : Target) (t : Ty) (ha : Aligned t) (hn : hasNative t = true) (o : Obj) (hv : valid T t o = true) :
    ∃ v, Holds T t o v ∧ (∀ w, Holds T t o w → w = v) ∧ ((scalar t).nonzero = true → v ≠ 0) ∧
      toNative T t o = some (store T.host ((scalar t).bytes T) v) ∧
      ∃ o', fromNative T t (store T.host ((scalar t).bytes T) v) = some o' ∧
        o'.take ((scalar t).bytes T) = o.take ((scalar t).bytes T) := by
  obtain ⟨m, hm, hl, hz⟩ := valid_bytes T t ha o hv
  have hlt := load_lt (order T t) m
  rw [hl] at hlt
  have hz' : (scalar t).nonzero = true → load (order T t) m ≠ 0 := fun h => (load_nonzero_iff _ _).mpr (hz h)
  refine ⟨load (order T t) m, holds_load T t o m hm hl, fun w hw => holds_eq T t o m hm w hw, hz',
    toNative_store T t ha hn o hv m hm hl, _, fromNative_eq T t ha hn _ hlt hz', ?_⟩
  have htake := pad_take T t (store (order T t) ((scalar t).bytes T) (load (order T t) m))
  rw [store_length] at htake
  rw [htake, hm, ← hl, store_load]

/-- **C62** (c). Raw access keeps the bytes. -/
theorem raw_roundtrip (T : Target) (t : Ty) (ha : Aligned t) (m : List UInt8) (hl : m.length = (scalar t).bytes T)
    (hz : (scalar t).nonzero = true → ∃ b ∈ m, b ≠ 0) :
    ∃ o, fromRaw T t m = some o ∧ o.take m.length = m.map some ∧ toRaw T t o = some m := by
  refine ⟨_, fromRaw_eq T t ha m hl hz, pad_take T t m, ?_⟩
  refine toRaw_eq T t ha _ (pad_valid T t ha m hl hz) m ?_
  rw [← hl]
  exact pad_take T t m

/-- **C62** (d). Comparing, hashing and printing objects compares, hashes and prints the numbers they hold, however deep the wrappers are
nested and whatever the padding is. -/
theorem compare_numbers (T : Target) (t : Ty) (ha : Aligned t) (hi : IsInt (scalar t)) (a b : Obj) (va : valid T t a = true)
    (vb : valid T t b = true) (x y : Nat) (hx : Holds T t a x) (hy : Holds T t b y) :
    viewed T t a = some (signedValue T (scalar t) x) ∧
    eq T t a b = some (decide (x = y)) ∧
    cmp T t a b = some (compare (signedValue T (scalar t) x) (signedValue T (scalar t) y)) ∧
    (hash T t a = hash T t b ↔ x = y) := by
  obtain ⟨ma, hma, hla, _⟩ := valid_bytes T t ha a va
  obtain ⟨mb, hmb, hlb, _⟩ := valid_bytes T t ha b vb
  have ea := viewed_eq T t ha hi a va ma hma hla
  have eb := viewed_eq T t ha hi b vb mb hmb hlb
  rw [← holds_eq T t a ma hma x hx] at ea
  rw [← holds_eq T t b mb hmb y hy] at eb
  have hinj := signedValue_inj T (scalar t) x y hx.fits hy.fits
  refine ⟨ea, ?_, ?_, ?_⟩
  · simp only [eq, ea, eb, Option.bind_eq_bind, Option.bind_some, Option.pure_def]
    exact congrArg some (decide_eq_decide.mpr hinj)
  · simp only [cmp, ea, eb, Option.bind_eq_bind, Option.bind_some, Option.pure_def]
  · simp only [hash, ea, eb, Option.map_some, Option.some.injEq, Prod.mk.injEq, true_and]
    exact hinj

/-- **C62** (e). `Integer` is a container: it is valid exactly if its value is, whatever is put in comes out, by `new`, `set` and `replace`,
and `replace` returns what was there before. -/
theorem integer_container (T : Target) (v : Ty) (a : Nat) (ha : 0 < a) (x y o : Obj) (hx : x.length = size T v)
    (hy : y.length = size T v) (ho : o.length = size T (.integer v a)) :
    (valid T (.integer v a) (Integer.new T v a x) = true ↔ valid T v x = true) ∧
    Integer.get T v (Integer.new T v a x) = x ∧
    Integer.get T v (Integer.set o x) = x ∧
    (Integer.set o x).length = o.length ∧
    (Integer.set o x).drop (size T v) = o.drop (size T v) ∧
    Integer.replace T v (Integer.new T v a x) y = (Integer.new T v a y, x) ∧
    Integer.set o (Integer.get T v o) = o := by
  have hle := size_le_integer T v a ha
  have hnew : (Integer.new T v a x).length = size T (.integer v a) := by
    rw [Integer.new, List.length_append, List.length_replicate, hx]; omega
  have hget : ∀ z w : Obj, z.length = size T v → (z ++ w).take (size T v) = z := by
    intro z w hz
    rw [← hz]; exact List.take_left
  have hdrop : ∀ z w : Obj, z.length = size T v → (z ++ w).drop (size T v) = w := by
    intro z w hz
    rw [← hz]; exact List.drop_left
  refine ⟨?_, hget _ _ hx, hget _ _ hx, ?_, ?_, ?_, ?_⟩
  · rw [valid, Bool.and_eq_true, beq_iff_eq, Integer.new, hget _ _ hx]
    exact ⟨fun h => h.2, fun h => ⟨hnew, h⟩⟩
  · rw [Integer.set, List.length_append, List.length_drop, hx]; omega
  · rw [Integer.set, hdrop _ _ hx, hx]
  · rw [Integer.replace, Prod.mk.injEq]
    refine ⟨?_, hget _ _ hx⟩
    rw [Integer.set, Integer.new, Integer.new, hy, hdrop _ _ hx, hx]
  · rw [Integer.set, Integer.get, List.length_take, ho, Nat.min_eq_left hle]
    exact List.take_append_drop _ _

theorem default_holds (T : Target) (t : Ty) (ha : Aligned t) (hi : IsInt (scalar t)) (o : Obj) (h : defaultOf T t = some o) :
    valid T t o = true ∧ o.length = size T t ∧ Holds T t o 0 ∧ (scalar t).nonzero = false := by
  induction t generalizing o with
  | prim p =>
    rw [defaultOf] at h
    cases hz : p.nonzero
    · rw [hz] at h
      have h := Option.some.inj h
      subst h
      have hl := store_length T.host (p.bytes T) 0
      have ht : ((store T.host (p.bytes T) 0).map some).take (p.bytes T) = (store T.host (p.bytes T) 0).map some :=
        List.take_of_length_le (by rw [List.length_map, hl]; exact Nat.le_refl _)
      have hv : validPrim T p ((store T.host (p.bytes T) 0).map some) = true := by
        rw [validPrim_iff]
        exact ⟨_, rfl, hl, by rw [hz]; intro h; cases h⟩
      refine ⟨hv, by rw [List.length_map, hl]; rfl, ?_, hz⟩
      rw [holds_iff]
      exact ⟨Nat.pow_pos (by decide), ht⟩
    · rw [hz] at h; cases h
  | endian e p =>
    rw [defaultOf] at h
    cases hz : p.nonzero
    · rw [hz] at h
      have hn : hasNative (.endian e p) = true := by
        cases p with
        | int w s z => rfl
        | float d => exact hi.elim
      obtain ⟨o', h1, h2, h3, h4, _⟩ := from_native_holds T (.endian e p) trivial hn 0 (Nat.pow_pos (by decide))
        (by intro h; rw [scalar, hz] at h; cases h)
      have : some o = some o' := h.symm.trans h1
      injection this with this
      subst this
      exact ⟨h3, h2, h4, hz⟩
    · rw [hz] at h; cases h
  | packed v ih =>
    obtain ⟨h1, h2, h3, h4⟩ := ih ha hi o h
    exact ⟨h1, h2, ⟨h3.fits, h3.byte⟩, h4⟩
  | integer v a ih =>
    rw [defaultOf, Option.map_eq_some_iff] at h
    obtain ⟨x, hx, ho⟩ := h
    subst ho
    obtain ⟨h1, h2, h3, h4⟩ := ih ha.2 hi x hx
    have hle := size_le_integer T v a ha.1
    have hs := scalar_le_size T v ha.2
    refine ⟨(integer_container T v a ha.1 x x (Integer.new T v a x) h2 h2 ?_).1.mpr h1, ?_, ?_, h4⟩
    · rw [Integer.new, List.length_append, List.length_replicate, h2]; omega
    · rw [Integer.new, List.length_append, List.length_replicate, h2]; omega
    · refine ⟨h3.fits, fun k hk => ?_⟩
      obtain ⟨b, hb, hb'⟩ := h3.byte k hk
      refine ⟨b, ?_, hb'⟩
      rw [Integer.new, List.getElem?_append_left (by rw [h2]; exact Nat.lt_of_lt_of_le hk hs)]
      exact hb
  | pointer v ih => cases h

/-- **C62** (f). The default value is zero and is valid; `take` leaves it behind and returns the value. -/
theorem integer_take (T : Target) (v : Ty) (a : Nat) (ha : Aligned (.integer v a)) (hi : IsInt (scalar v)) (x o' old : Obj)
    (hx : x.length = size T v) (h : Integer.takeOut T v (Integer.new T v a x) = some (o', old)) :
    old = x ∧ valid T (.integer v a) o' = true ∧ Holds T (.integer v a) o' 0 ∧ defaultOf T (.integer v a) = some o' := by
  rw [Integer.takeOut, Option.map_eq_some_iff] at h
  obtain ⟨d, hd, he⟩ := h
  obtain ⟨h1, h2, h3, h4⟩ := default_holds T v ha.2 hi d hd
  have hc := integer_container T v a ha.1 x d (Integer.new T v a x) hx h2 (by
    have := size_le_integer T v a ha.1
    rw [Integer.new, List.length_append, List.length_replicate, hx]; omega)
  have hrep := hc.2.2.2.2.2.1
  rw [hrep, Prod.mk.injEq] at he
  obtain ⟨e1, e2⟩ := he
  have hdef : defaultOf T (.integer v a) = some o' := by rw [defaultOf, hd, Option.map_some, e1]
  obtain ⟨g1, _, g3, _⟩ := default_holds T (.integer v a) ha hi o' hdef
  exact ⟨e2.symm, g1, g3, hdef⟩

/-- **C62** (g). There is a default value for every type without `NonZero` and without pointers. -/
theorem default_exists (T : Target) (v : Ty) (a : Nat) (p : Prim) (e : Host) :
    (defaultOf T (.prim p)).isSome = !p.nonzero ∧
    (IsInt p → (defaultOf T (.endian e p)).isSome = !p.nonzero) ∧
    (defaultOf T (.packed v)).isSome = (defaultOf T v).isSome ∧
    (defaultOf T (.integer v a)).isSome = (defaultOf T v).isSome ∧
    (defaultOf T (.pointer v)).isSome = false := by
  refine ⟨?_, ?_, rfl, ?_, rfl⟩
  · rw [defaultOf]; cases p.nonzero <;> rfl
  · intro hi
    rw [defaultOf]
    cases hz : p.nonzero
    · have hn : hasNative (.endian e p) = true := by
        cases p with
        | int w s z => rfl
        | float d => exact hi.elim
      obtain ⟨o', h1, _⟩ := from_native_holds T (.endian e p) trivial hn 0 (Nat.pow_pos (by decide))
        (by intro h; rw [scalar, hz] at h; cases h)
      have h1 : fromNative T (.endian e p) (store T.host (p.bytes T) 0) = some o' := h1
      show (fromNative T (.endian e p) (store T.host (p.bytes T) 0)).isSome = _
      rw [h1]; rfl
    · rfl
  · rw [defaultOf, Option.isSome_map]

example : fromNative lp64 (.integer (.endian .big (u .w16)) 4) [0x02, 0x01] = some [some 1, some 2, none, none] := by decide
example : toNative lp64 (.integer (.endian .big (u .w16)) 4) [some 1, some 2, none, none] = some [0x02, 0x01] := by decide
example : fromNative lp64 (.pointer (.integer (.endian .big (nz .w16)) 4)) [0, 0] = none := by decide
example : cmp lp64 (.integer (.endian .big (i .w16)) 4) [some 0xff, some 0xff, none, some 7] [some 0, some 1, none, none] = some .lt := by
  decide
example : Integer.takeOut lp64 (.endian .big (u .w16)) [some 1, some 2, none, none] = some ([some 0, some 0, none, none], [some 1, some 2]) := by
  decide

/-! ## C63: pointers -/

theorem addressPrim_iff (T : Target) (p : Prim) :
    addressPrim T p = true ↔ ∃ w z, p = .int w false z ∧ (w = .size ∨ ((w = .w16 ∨ w = .w32 ∨ w = .w64) ∧ w.bytes T = T.ptr.bytes)) := by
  cases p with
  | int w s z =>
    cases w <;> cases s <;> cases hT : T.ptr <;> simp [addressPrim, Width.bytes, PtrWidth.bytes, hT]
  | float d => simp [addressPrim]

theorem hasAddress_scalar (T : Target) (t : Ty) (h : hasAddress T t = true) : addressPrim T (scalar t) = true := by
  induction t with
  | prim p => exact h
  | endian e p => cases h
  | packed v ih => cases h
  | integer v a ih => exact ih h
  | pointer v ih => exact ih h

theorem hasAddress_order (T : Target) (t : Ty) (h : hasAddress T t = true) : order T t = T.host := by
  induction t with
  | prim p => rfl
  | endian e p => cases h
  | packed v ih => cases h
  | integer v a ih => exact ih h
  | pointer v ih => exact ih h

theorem addressPrim_bytes (T : Target) (p : Prim) (h : addressPrim T p = true) :
    p.bytes T = T.ptr.bytes ∧ p.signed = false ∧ IsInt p := by
  obtain ⟨w, z, rfl, hw⟩ := (addressPrim_iff T p).mp h
  refine ⟨?_, rfl, trivial⟩
  rcases hw with rfl | hw
  · rfl
  · exact hw.2

theorem new_pad (T : Target) (v : Ty) (a : Nat) (ha : Aligned (.integer v a)) (m : List UInt8) (hl : m.length = (scalar v).bytes T) :
    Integer.new T v a (pad T v m) = pad T (.integer v a) m := by
  have h1 := scalar_le_size T v ha.2
  have h2 := size_le_integer T v a ha.1
  rw [Integer.new, pad_length T v ha.2 m hl, pad, pad, List.append_assoc, List.replicate_append_replicate]
  congr 2
  omega

theorem fromUsizeUnchecked_eq (T : Target) (t : Ty) (ha : Aligned t) (h : hasAddress T t = true) (u : Nat)
    (hu : u < 256 ^ T.ptr.bytes) (hz : (scalar t).nonzero = true → u ≠ 0) :
    fromUsizeUnchecked T t u = .ok (pad T t (store T.host T.ptr.bytes u)) := by
  induction t with
  | prim p =>
    obtain ⟨hb, hs, hi⟩ := addressPrim_bytes T p h
    have hl := store_length T.host T.ptr.bytes u
    have hval : validPrim T p ((store T.host T.ptr.bytes u).map some) = true := by
      rw [validPrim_iff]
      refine ⟨_, rfl, by rw [hl, hb], ?_⟩
      intro h'
      rw [← load_nonzero_iff T.host, load_store _ _ _ hu]
      exact hz h'
    have hpad : pad T (.prim p) (store T.host T.ptr.bytes u) = (store T.host T.ptr.bytes u).map some := by
      have : size T (.prim p) - (store T.host T.ptr.bytes u).length = 0 := by
        rw [hl]; show p.bytes T - _ = 0; omega
      rw [pad, this, List.replicate_zero, List.append_nil]
    have e : fromUsizeUnchecked T (.prim p) u = if addressPrim T p then
        if T.ptr.bytes ≤ p.bytes T then
          (if validPrim T p ((store T.host (p.bytes T) (u % 256 ^ p.bytes T)).map some) then
            .ok ((store T.host (p.bytes T) (u % 256 ^ p.bytes T)).map some) else .ub)
        else .panic
      else .missing := rfl
    have h' : addressPrim T p = true := h
    rw [e, if_pos h', hb, if_pos (Nat.le_refl _), Nat.mod_eq_of_lt hu, if_pos hval, hpad]
  | endian e p => cases h
  | packed v ih => cases h
  | integer v a ih =>
    rw [fromUsizeUnchecked, ih ha.2 h hz, Out.map, new_pad T v a ha]
    rw [store_length]
    exact (addressPrim_bytes T _ (hasAddress_scalar T v h)).1.symm
  | pointer v ih => exact ih ha h hz

theorem toUsize_eq (T : Target) (t : Ty) (ha : Aligned t) (h : hasAddress T t = true) (o : Obj) (hv : valid T t o = true) (m : List UInt8)
    (hm : o.take ((scalar t).bytes T) = m.map some) (hl : m.length = (scalar t).bytes T) :
    toUsize T t o = .ok (load T.host m) := by
  induction t generalizing o with
  | prim p =>
    obtain ⟨hb, hs, hi⟩ := addressPrim_bytes T p h
    have hlen := validPrim_length T p o hv
    have h' : addressPrim T p = true := h
    rw [scalar, List.take_of_length_le (by rw [hlen]; exact Nat.le_refl _)] at hm
    have hlt := load_lt T.host m
    rw [hl] at hlt
    have hlt : load T.host m < 256 ^ T.ptr.bytes := by rw [← hb]; exact hlt
    rw [toUsize, if_pos h', if_pos (by omega), hm, assume_init_some]
    show Out.ok (load T.host m % 256 ^ T.ptr.bytes) = _
    rw [Nat.mod_eq_of_lt hlt]
  | endian e p => cases h
  | packed v ih => cases h
  | integer v a ih =>
    rw [toUsize, Integer.get]
    have hs := scalar_le_size T v ha.2
    rw [valid, Bool.and_eq_true] at hv
    exact ih ha.2 h _ hv.2 (by rw [List.take_take, Nat.min_eq_left hs]; exact hm) hl
  | pointer v ih => exact ih ha h o hv hm hl

/-- **C63** (a). `from_usize` yields nothing for address 0, and for every other address a valid object that holds the address and yields it
again; neither panics. -/
theorem from_usize_spec (T : Target) (t : Ty) (ha : Aligned t) (h : hasAddress T t = true) (u : Nat) (hu : u < 256 ^ T.ptr.bytes) :
    (u = 0 → fromUsize T t u = .ok none) ∧
    (u ≠ 0 → ∃ o, fromUsize T t u = .ok (some o) ∧ valid T t o = true ∧ Holds T t o u ∧ toUsize T t o = .ok u) := by
  constructor
  · intro h0
    rw [fromUsize, if_pos h0]
  · intro h0
    obtain ⟨hb, hs, hi⟩ := addressPrim_bytes T _ (hasAddress_scalar T t h)
    have hl : (store T.host T.ptr.bytes u).length = (scalar t).bytes T := by rw [store_length, hb]
    have hval := pad_valid T t ha _ hl (by
      intro _
      rw [← load_nonzero_iff T.host, load_store _ _ _ hu]
      exact h0)
    have ht : (pad T t (store T.host T.ptr.bytes u)).take ((scalar t).bytes T) = (store T.host T.ptr.bytes u).map some := by
      rw [← hl]; exact pad_take T t _
    refine ⟨_, ?_, hval, ?_, ?_⟩
    · rw [fromUsize, if_neg h0, fromUsizeUnchecked_eq T t ha h u hu (fun _ => h0)]
      rfl
    · rw [holds_iff, hasAddress_order T t h]
      exact ⟨by rw [hb]; exact hu, by rw [ht, hb]⟩
    · rw [toUsize_eq T t ha h _ hval _ ht hl, load_store _ _ _ hu]

/-- **C63** (b). `to_usize` of every valid object yields the number it holds, without panic, also for `as_ptr`. With a `NonZero` address
type, it is not zero, and `from_usize` of it yields an object with the same value bytes. -/
theorem to_usize_partial (T : Target) (t : Ty) (ha : Aligned t) (h : hasAddress T t = true) (o : Obj) (hv : valid T t o = true) :
    ∃ u, toUsize T t o = .ok u ∧ u < 256 ^ T.ptr.bytes ∧ Holds T t o u ∧ ((scalar t).nonzero = true → u ≠ 0) ∧
      (u ≠ 0 → ∃ o', fromUsize T t u = .ok (some o') ∧ o'.take T.ptr.bytes = o.take T.ptr.bytes) := by
  obtain ⟨hb, hs, hi⟩ := addressPrim_bytes T _ (hasAddress_scalar T t h)
  obtain ⟨m, hm, hl, hz⟩ := valid_bytes T t ha o hv
  have hlt := load_lt T.host m
  rw [hl, hb] at hlt
  have hh := holds_load T t o m hm hl
  rw [hasAddress_order T t h] at hh
  refine ⟨load T.host m, toUsize_eq T t ha h o hv m hm hl, hlt, hh, fun h' => (load_nonzero_iff _ _).mpr (hz h'), ?_⟩
  intro h0
  refine ⟨_, by rw [fromUsize, if_neg h0, fromUsizeUnchecked_eq T t ha h _ hlt (fun _ => h0)]; rfl, ?_⟩
  have ht := pad_take T t (store T.host T.ptr.bytes (load T.host m))
  rw [store_length] at ht
  rw [ht]
  rw [hb] at hm hl
  rw [hm, ← hl, store_load]

/-- **C63** (c). Pointers are compared and ordered by their addresses, as unsigned numbers. -/
theorem pointer_compare (T : Target) (t : Ty) (ha : Aligned t) (h : hasAddress T t = true) (a b : Obj) (va : valid T t a = true)
    (vb : valid T t b = true) :
    ∃ x y, toUsize T t a = .ok x ∧ toUsize T t b = .ok y ∧ eq T t a b = some (decide (x = y)) ∧ cmp T t a b = some (compare x y) ∧
      (hash T t a = hash T t b ↔ x = y) := by
  obtain ⟨hb, hs, hi⟩ := addressPrim_bytes T _ (hasAddress_scalar T t h)
  obtain ⟨x, h1, _, h2, _⟩ := to_usize_partial T t ha h a va
  obtain ⟨y, g1, _, g2, _⟩ := to_usize_partial T t ha h b vb
  obtain ⟨_, e1, e2, e3⟩ := compare_numbers T t ha hi a b va vb x y h2 g2
  refine ⟨x, y, h1, g1, e1, ?_, e3⟩
  rw [e2]
  have hsv : ∀ z, signedValue T (scalar t) z = (z : Int) := by
    intro z
    rw [signedValue, if_neg (by rw [hs]; simp)]
  rw [hsv, hsv]
  congr 1
  simp only [compare, compareOfLessAndEq]
  by_cases h1 : x < y
  · rw [if_pos h1, if_pos (by omega)]
  · rw [if_neg h1, if_neg (by omega)]
    by_cases h2 : x = y
    · rw [if_pos h2, if_pos (by omega)]
    · rw [if_neg h2, if_neg (by omega)]

/-- **C63** (d). A dangling pointer is valid, not null, and aligned for its target. -/
theorem dangling_spec (T : Target) (t : Ty) (ha : Aligned t) (h : hasAddress T t = true) (align : Nat) (h0 : 0 < align)
    (hu : align < 256 ^ T.ptr.bytes) :
    ∃ o u, dangling T t align = .ok o ∧ valid T t o = true ∧ toUsize T t o = .ok u ∧ u ≠ 0 ∧ align ∣ u := by
  obtain ⟨o, h1, h2, _, h3⟩ := (from_usize_spec T t ha h align hu).2 (by omega)
  rw [fromUsize, if_neg (by omega)] at h1
  refine ⟨o, align, ?_, h2, h3, by omega, Nat.dvd_refl _⟩
  rw [dangling]
  revert h1
  cases fromUsizeUnchecked T t align <;> simp [Out.map]

/-- **C63** (e). Without a `NonZero` address type, there are valid objects with address 0, although the address is documented never to be
zero. -/
theorem to_usize_zero : ∃ o, valid lp64 (.pointer (.prim (u .size))) o = true ∧ toUsize lp64 (.pointer (.prim (u .size))) o = .ok 0 :=
  ⟨List.replicate 8 (some 0), by decide, by decide⟩

/-- **C63** (f). Addresses of foreign width or byte order cannot be used as native ones: the calls do not compile. -/
theorem foreign_address (T : Target) (w : Width) (s z : Bool) (e : Host) (p : Prim) (n : Nat) (o : Obj) :
    (w.bytes T ≠ T.ptr.bytes → fromUsizeUnchecked T (.prim (.int w s z)) n = .missing ∧ toUsize T (.prim (.int w s z)) o = .missing) ∧
    fromUsizeUnchecked T (.endian e p) n = .missing ∧ toUsize T (.endian e p) o = .missing := by
  refine ⟨fun hw => ?_, rfl, rfl⟩
  have : addressPrim T (.int w s z) = false := by
    rw [Bool.eq_false_iff]
    intro h
    exact hw (addressPrim_bytes T _ h).1
  constructor
  · rw [fromUsizeUnchecked, if_neg (by rw [this]; decide)]
  · rw [toUsize, if_neg (by rw [this]; decide)]

example : hasAddress lp64 (.pointer (.integer (.prim (nz .w64)) 16)) = true ∧ Aligned (.pointer (.integer (.prim (nz .w64)) 16)) := by
  exact ⟨by decide, by decide, trivial⟩
example : fromUsize intel386 (.pointer (.integer (.prim (nz .w32)) 8)) 0x12345678 =
    .ok (some [some 0x78, some 0x56, some 0x34, some 0x12, none, none, none, none]) := by decide
example : fromUsizeUnchecked lp64 (.prim (nz .size)) 0 = .ub := by decide

/-! ## Instances -/

/-- A pointer with an address aligned to 16, on a 64 bit platform. -/
def exampleTy : Ty := .pointer (.integer (.prim (nz .w64)) 16)

theorem exampleTy_aligned : Aligned exampleTy := ⟨by decide, trivial⟩

/-- Two such pointers, with different padding. -/
def exampleObj (n : UInt8) (pad : Option UInt8) : Obj := [some n, some 1, some 0, some 0, some 0, some 0, some 0, some 0] ++ List.replicate 8 pad

example := integer_layout lp64 (.prim (u .w8)) 16 (by decide)
example := integer_host_independent lp64 intel386 (.prim (u .w32)) 8 ⟨by decide, trivial⟩ (fun _ _ h => nomatch h)
example := raw_roundtrip lp64 exampleTy exampleTy_aligned [0, 1, 2, 3, 4, 5, 6, 7] (by decide) (fun _ => ⟨1, by decide, by decide⟩)
example := integer_container lp64 (.prim (u .w8)) 4 (by decide) [some 1] [some 2] [some 3, none, some 9, none] (by decide) (by decide) (by decide)
example := from_usize_spec lp64 exampleTy exampleTy_aligned (by decide) 0x102 (by decide)
example := to_usize_partial lp64 exampleTy exampleTy_aligned (by decide) (exampleObj 2 none) (by decide)
example := pointer_compare lp64 exampleTy exampleTy_aligned (by decide) (exampleObj 2 none) (exampleObj 2 (some 7)) (by decide) (by decide)
example : (Marker.array (.slice (.array (.num (u .w64)) 3)) 7).align intel386
    = some ⟨0, alignOfType intel386 (Marker.array (.slice (.array (.num (u .w64)) 3)) 7)⟩ :=
  marker_alignment intel386 (by unfold Target.Ok; decide) _ rfl

end Verif.Ffi.Abi
