import Verif.Bin.SpecFormats
import Verif.Ffi.PropsEndian
/-! # Properties of the structures of file formats -/
namespace Verif.Bin

/-! ## Layouts in general -/

theorem roundUp_le (n a : Nat) (ha : 0 < a) : n ≤ roundUp n a := by
  unfold roundUp
  have h1 := Nat.div_add_mod (n + a - 1) a
  have h2 := Nat.mod_lt (n + a - 1) ha
  have h3 : a * ((n + a - 1) / a) = (n + a - 1) / a * a := Nat.mul_comm _ _
  omega

theorem roundUp_lt (n a : Nat) (ha : 0 < a) : roundUp n a < n + a := by
  unfold roundUp
  have h1 := Nat.div_add_mod (n + a - 1) a
  have h3 : a * ((n + a - 1) / a) = (n + a - 1) / a * a := Nat.mul_comm _ _
  omega

theorem roundUp_dvd (n a : Nat) : a ∣ roundUp n a := Nat.dvd_mul_left _ _

theorem place_bounds : ∀ (fs : Fields) (c : Nat), (∀ f ∈ fs, 0 < f.2.align) →
    c ≤ (place c fs).2 ∧ ∀ p ∈ (place c fs).1, c ≤ p.off ∧ p.off + p.size ≤ (place c fs).2
  | [], c, _ => ⟨Nat.le_refl _, fun _ h => by cases h⟩
  | (n, l) :: fs, c, h => by
    have hp := roundUp_le c l.align (h (n, l) (by simp))
    obtain ⟨h1, h2⟩ := place_bounds fs (roundUp c l.align + l.size) (fun f hf => h f (by simp [hf]))
    simp only [place, List.mem_cons]
    refine ⟨by omega, fun p hpm => ?_⟩
    rcases hpm with rfl | hpm
    · exact ⟨hp, h1⟩
    · have := h2 p hpm
      omega

/-- Fields are in the order of their declaration and do not overlap. -/
theorem fields_disjoint : ∀ (fs : Fields) (c : Nat), (∀ f ∈ fs, 0 < f.2.align) →
    (place c fs).1.Pairwise (fun p q => p.off + p.size ≤ q.off)
  | [], _, _ => List.Pairwise.nil
  | (n, l) :: fs, c, h => by
    have hf : ∀ f ∈ fs, 0 < f.2.align := fun f hf => h f (by simp [hf])
    simp only [place]
    refine List.Pairwise.cons (fun q hq => ?_) (fields_disjoint fs _ hf)
    exact ((place_bounds fs _ hf).2 q hq).1

theorem alignOf_ge (attr : Nat) : ∀ (fs : Fields), attr ≤ alignOf attr fs ∧ ∀ f ∈ fs, f.2.align ≤ alignOf attr fs
  | [] => ⟨Nat.le_refl _, fun _ h => by cases h⟩
  | f :: fs => by
    obtain ⟨h1, h2⟩ := alignOf_ge attr fs
    show attr ≤ max f.2.align (alignOf attr fs) ∧ _
    refine ⟨by omega, fun g hg => ?_⟩
    show g.2.align ≤ max f.2.align (alignOf attr fs)
    rcases List.mem_cons.mp hg with rfl | hg
    · omega
    · have := h2 g hg; omega

/-- Fields are aligned and within the structure, whose size is a multiple of its alignment. -/
theorem fields_placed (attr : Nat) (hattr : 0 < attr) (fs : Fields) (h : ∀ f ∈ fs, 0 < f.2.align) :
    (reprC attr fs).align ∣ (reprC attr fs).size ∧ (∀ p ∈ (place 0 fs).1, p.off + p.size ≤ (reprC attr fs).size) ∧
    (place 0 fs).1.length = fs.length ∧
    ∀ (i : Nat) (n : String) (l : Lay) (p : Placed), fs[i]? = some (n, l) → (place 0 fs).1[i]? = some p → p.name = n ∧ p.size = l.size ∧ l.align ∣ p.off := by
  refine ⟨roundUp_dvd _ _, fun p hp => ?_, ?_, ?_⟩
  · have h1 := ((place_bounds fs 0 h).2 p hp).2
    have h2 := roundUp_le (place 0 fs).2 (alignOf attr fs) (by have := (alignOf_ge attr fs).1; omega)
    exact Nat.le_trans h1 h2
  · have : ∀ (fs : Fields) (c : Nat), (place c fs).1.length = fs.length := by
      intro fs
      induction fs with
      | nil => intro c; rfl
      | cons f fs ih => intro c; simp [place, ih]
    exact this fs 0
  · have : ∀ (fs : Fields) (c i : Nat) (n : String) (l : Lay) (p : Placed), fs[i]? = some (n, l) → (place c fs).1[i]? = some p →
        p.name = n ∧ p.size = l.size ∧ l.align ∣ p.off := by
      intro fs
      induction fs with
      | nil => intro c i n l p h; simp at h
      | cons f fs ih =>
        intro c i n l p h1 h2
        cases i with
        | zero =>
          simp [place] at h1 h2
          subst h1
          rw [← h2]
          exact ⟨rfl, rfl, roundUp_dvd _ _⟩
        | succ i =>
          simp only [place, List.getElem?_cons_succ] at h1 h2
          exact ih _ i n l p h1 h2
    exact fun i n l p => this fs 0 i n l p

example : (place 0 [("a", bytes 3), ("b", u32le), ("c", bytes 1)]).1 = [⟨"a", 0, 3⟩, ⟨"b", 4, 4⟩, ⟨"c", 8, 1⟩] ∧
    reprC 1 [("a", bytes 3), ("b", u32le), ("c", bytes 1)] = ⟨12, 4⟩ := by decide

/-! ## Values of structures -/

/-- Fields have the sizes of their types. -/
def Sized (fs : Fields) (vs : List (List UInt8)) : Prop := vs.map List.length = fs.map (·.2.size)

theorem fields_build : ∀ (fs : Fields) (vs : List (List UInt8)) (c : Nat) (pre suf : List (Option UInt8)), (∀ f ∈ fs, 0 < f.2.align) →
    Sized fs vs → pre.length = c → (place c fs).1.map (getField (pre ++ build c fs vs ++ suf)) = vs.map (·.map some)
  | [], vs, c, pre, suf, _, hs, _ => by
    have : vs = [] := by simpa [Sized] using hs
    subst this; rfl
  | (n, l) :: fs, [], _, _, _, _, hs, _ => by simp [Sized] at hs
  | (n, l) :: fs, v :: vs, c, pre, suf, ha, hs, hc => by
    simp only [Sized, List.map_cons, List.cons.injEq] at hs
    have hr := roundUp_le c l.align (ha (n, l) (by simp))
    have hp : (pre ++ List.replicate (roundUp c l.align - c) none ++ v.map some).length = roundUp c l.align + l.size := by
      simp [hc, hs.1]; omega
    have ih := fields_build fs vs (roundUp c l.align + l.size) (pre ++ List.replicate (roundUp c l.align - c) none ++ v.map some) suf
      (fun f hf => ha f (by simp [hf])) hs.2 hp
    have he : pre ++ build c ((n, l) :: fs) (v :: vs) ++ suf =
        pre ++ List.replicate (roundUp c l.align - c) none ++ v.map some ++ build (roundUp c l.align + l.size) fs vs ++ suf := by
      simp [build]
    rw [he]
    simp only [place, List.map_cons, List.cons.injEq]
    refine ⟨?_, ih⟩
    have h1 : (pre ++ List.replicate (roundUp c l.align - c) none).length = roundUp c l.align := by simp [hc]; omega
    simp only [getField, List.append_assoc]
    rw [← List.append_assoc pre, List.drop_left' h1, List.take_left' (by simp [hs.1])]

/-- A structure has in its fields what was put there, whatever the padding. -/
theorem struct_fields (attr : Nat) (fs : Fields) (vs : List (List UInt8)) (ha : ∀ f ∈ fs, 0 < f.2.align) (hs : Sized fs vs) :
    (place 0 fs).1.map (getField (mkStruct attr fs vs)) = vs.map (·.map some) :=
  fields_build fs vs 0 [] _ ha hs rfl

example : Sized [("a", bytes 1), ("b", u16le)] [[1], [2, 3]] ∧ mkStruct 1 [("a", bytes 1), ("b", u16le)] [[1], [2, 3]] = [some 1, none, some 2, some 3] := by
  unfold Sized; decide

theorem build_gapless : ∀ (fs : Fields) (c : Nat) (pre data : List UInt8), Gapless c (c + data.length) (place c fs).1 → pre.length = c →
    build c fs ((place c fs).1.map fun p => slice (pre ++ data) p.off p.size) = data.map some
  | [], c, pre, data, hg, _ => by
    have : data = [] := by
      have : c = c + data.length := hg
      exact List.length_eq_zero_iff.mp (by omega)
    subst this; rfl
  | (n, l) :: fs, c, pre, data, hg, hc => by
    simp only [place, Gapless] at hg
    obtain ⟨h1, h2⟩ := hg
    have hle : ∀ (ps : List Placed) (c e : Nat), Gapless c e ps → c ≤ e := by
      intro ps
      induction ps with
      | nil => intro c e h; exact Nat.le_of_eq h
      | cons p ps ih => intro c e h; have := ih _ _ h.2; omega
    have hlen := hle _ _ _ h2
    simp only [place, List.map_cons, build]
    rw [h1, Nat.sub_self]
    rw [h1] at h2
    have hs : slice (pre ++ data) c l.size = data.take l.size := by
      unfold slice
      rw [List.drop_left' hc]
    have hpre : pre ++ data = (pre ++ data.take l.size) ++ data.drop l.size := by simp
    have hl : (data.drop l.size).length = data.length - l.size := List.length_drop
    have ih := build_gapless fs (c + l.size) (pre ++ data.take l.size) (data.drop l.size)
      (by rw [hl]; have : c + l.size + (data.length - l.size) = c + data.length := by omega
          rw [this]; exact h2) (by simp; omega)
    rw [← hpre] at ih
    rw [ih, hs]
    simp

theorem gapless_end : ∀ (fs : Fields) (c e : Nat), Gapless c e (place c fs).1 → (place c fs).2 = e
  | [], _, _, h => h
  | (n, l) :: fs, c, e, h => by
    simp only [place, Gapless] at h
    obtain ⟨h1, h2⟩ := h
    refine gapless_end fs _ e ?_
    rw [h1] at h2 ⊢
    exact h2

/-- Without padding, a structure is determined by its fields: each content is that of the structure with these fields. -/
theorem struct_bytes (attr : Nat) (fs : Fields) (data : List UInt8) (hg : Gapless 0 (reprC attr fs).size (place 0 fs).1)
    (hl : data.length = (reprC attr fs).size) : mkStruct attr fs ((place 0 fs).1.map fun p => slice data p.off p.size) = data.map some := by
  have h := build_gapless fs 0 [] data (by rw [Nat.zero_add, hl]; exact hg) rfl
  unfold mkStruct
  rw [gapless_end fs 0 _ hg, Nat.sub_self]
  simpa using h

/-- Without padding, the bytes of a structure are its fields in order. -/
theorem struct_flatten (attr : Nat) (fs : Fields) (vs : List (List UInt8)) (hs : Sized fs vs)
    (hg : Gapless 0 (reprC attr fs).size (place 0 fs).1) : mkStruct attr fs vs = vs.flatten.map some := by
  have hb : ∀ (fs : Fields) (vs : List (List UInt8)) (c e : Nat), Sized fs vs → Gapless c e (place c fs).1 → build c fs vs = vs.flatten.map some := by
    intro fs
    induction fs with
    | nil =>
      intro vs c e hs _
      have : vs = [] := by simpa [Sized] using hs
      subst this; rfl
    | cons f fs ih =>
      intro vs c e hs hg
      obtain ⟨n, l⟩ := f
      match vs, hs with
      | [], hs => simp [Sized] at hs
      | v :: vs, hs =>
        simp only [Sized, List.map_cons, List.cons.injEq] at hs
        simp only [place, Gapless] at hg
        simp only [build]
        obtain ⟨hg1, hg2⟩ := hg
        rw [hg1] at hg2 ⊢
        rw [ih vs _ e hs.2 hg2]
        simp
  unfold mkStruct
  rw [gapless_end fs 0 _ hg, Nat.sub_self, hb fs vs 0 _ hs hg]
  simp

/-- The bytes of a structure without padding and its fields determine each other: each content has fields, of which it consists;
and fields are read back from the content made of them. -/
def OneToOne (attr : Nat) (fs : Fields) : Prop :=
  (∀ data : List UInt8, data.length = (reprC attr fs).size →
    mkStruct attr fs ((place 0 fs).1.map fun p => slice data p.off p.size) = data.map some) ∧
  (∀ vs, Sized fs vs → mkStruct attr fs vs = vs.flatten.map some ∧ vs.flatten.length = (reprC attr fs).size ∧
    (place 0 fs).1.map (fun p => slice vs.flatten p.off p.size) = vs)

theorem gapless_size : ∀ (fs : Fields) (c e : Nat), Gapless c e (place c fs).1 → c + (fs.map (·.2.size)).sum = e
  | [], _, _, h => h
  | (n, l) :: fs, c, e, h => by
    simp only [place, Gapless] at h
    obtain ⟨h1, h2⟩ := h
    rw [h1] at h2
    have := gapless_size fs _ e h2
    simp only [List.map_cons, List.sum_cons]
    omega

theorem oneToOne (attr : Nat) (fs : Fields) (ha : ∀ f ∈ fs, 0 < f.2.align) (hg : Gapless 0 (reprC attr fs).size (place 0 fs).1) :
    OneToOne attr fs := by
  refine ⟨fun data hl => struct_bytes attr fs data hg hl, fun vs hs => ?_⟩
  have hf := struct_flatten attr fs vs hs hg
  refine ⟨hf, ?_, ?_⟩
  · rw [List.length_flatten, hs, ← gapless_size fs 0 _ hg, Nat.zero_add]
  · have h := struct_fields attr fs vs ha hs
    rw [hf] at h
    have hi : ∀ l : List UInt8, (l.map some).filterMap id = l := fun l => by simp
    have hp : ∀ p, (getField (vs.flatten.map some) p).filterMap id = slice vs.flatten p.off p.size := fun p => by
      unfold getField slice
      rw [← List.map_drop, ← List.map_take, hi]
    have h2 := congrArg (List.map (List.filterMap id)) h
    rw [List.map_map, List.map_map] at h2
    have e1 : (List.filterMap id ∘ getField (vs.flatten.map some)) = fun p => slice vs.flatten p.off p.size := funext hp
    have e2 : (List.filterMap id ∘ fun x : List UInt8 => x.map some) = id := funext hi
    rw [e1, e2, List.map_id] at h2
    exact h2

theorem mapM_some : ∀ data : List UInt8, (data.map some).mapM id = some data
  | [] => rfl
  | b :: l => by
    have ih := mapM_some l
    simp only [List.map_cons, List.mapM_cons, ih]
    rfl

/-! ## DOS -/

theorem dos_gapless : Gapless 0 (reprC 1 dosHeader).size (place 0 dosHeader).1 ∧ Gapless 0 (reprC 1 dosHeaderExt).size (place 0 dosHeaderExt).1 ∧
    Gapless 0 (reprC 1 dosRelocation).size (place 0 dosRelocation).1 := by
  refine ⟨?_, ?_, ?_⟩ <;> decide

/-- The DOS structures are those of the published format. -/
theorem dos_layout :
    offsets 0 dosHeader = dosHeaderTable ∧ reprC 1 dosHeader = ⟨28, 2⟩ ∧
    offsets 28 dosHeaderExt = dosHeaderExtTable ∧ reprC 1 dosHeaderExt = ⟨36, 4⟩ ∧
    offsets 0 dosRelocation = dosRelocationTable ∧ reprC 1 dosRelocation = ⟨4, 2⟩ := by decide

/-- Importing a header from bytes never panics; its fields are the bytes at their offsets, and exporting it gives the bytes back. -/
theorem dos_import (fs : Fields) (n : Nat) (h : (fs, n) ∈ [(dosHeader, 28), (dosHeaderExt, 36), (dosRelocation, 4)]) (data : List UInt8)
    (hl : data.length = n) :
    ∃ mem, fromBytes fs n data = some mem ∧ asBytes fs n mem = some data ∧ (∀ p, getField mem p = (slice data p.off p.size).map some) ∧
      mem = mkStruct 1 fs ((place 0 fs).1.map fun p => slice data p.off p.size) := by
  obtain ⟨g1, g2, g3⟩ := dos_gapless
  obtain ⟨_, l1, _, l2, _, l3⟩ := dos_layout
  have key : (reprC 1 fs).size = n ∧ 1 ≤ (reprC 1 fs).align ∧ Gapless 0 (reprC 1 fs).size (place 0 fs).1 := by
    simp only [List.mem_cons, Prod.mk.injEq, List.not_mem_nil, or_false] at h
    rcases h with ⟨rfl, rfl⟩ | ⟨rfl, rfl⟩ | ⟨rfl, rfl⟩
    · exact ⟨by rw [l1], by rw [l1]; decide, g1⟩
    · exact ⟨by rw [l2], by rw [l2]; decide, g2⟩
    · exact ⟨by rw [l3], by rw [l3]; decide, g3⟩
  obtain ⟨k1, k2, k3⟩ := key
  have hc : (bytes n).align ≤ (reprC 1 fs).align ∧ (bytes n).size = (reprC 1 fs).size := ⟨k2, k1.symm⟩
  refine ⟨data.map some, if_pos hc, ?_, fun p => ?_, (struct_bytes 1 fs data k3 (by rw [k1, hl])).symm⟩
  · unfold asBytes
    rw [if_pos hc, mapM_some]
  · simp [getField, slice, List.map_drop, List.map_take]

/-- Exporting a header never panics; it gives its fields at their offsets, and importing them gives the header back. -/
theorem dos_export (fs : Fields) (n : Nat) (h : (fs, n) ∈ [(dosHeader, 28), (dosHeaderExt, 36), (dosRelocation, 4)]) (vs : List (List UInt8))
    (hs : Sized fs vs) :
    ∃ data, asBytes fs n (mkStruct 1 fs vs) = some data ∧ data = vs.flatten ∧ data.length = n ∧
      fromBytes fs n data = some (mkStruct 1 fs vs) := by
  obtain ⟨_, l1, _, l2, _, l3⟩ := dos_layout
  have key : (reprC 1 fs).size = n ∧ 1 ≤ (reprC 1 fs).align ∧ (∀ f ∈ fs, 0 < f.2.align) ∧ (fs.map (·.2.size)).sum = n ∧
      Gapless 0 (reprC 1 fs).size (place 0 fs).1 := by
    obtain ⟨g1, g2, g3⟩ := dos_gapless
    simp only [List.mem_cons, Prod.mk.injEq, List.not_mem_nil, or_false] at h
    rcases h with ⟨rfl, rfl⟩ | ⟨rfl, rfl⟩ | ⟨rfl, rfl⟩
    · exact ⟨by rw [l1], by rw [l1]; decide, by decide, by decide, g1⟩
    · exact ⟨by rw [l2], by rw [l2]; decide, by decide, by decide, g2⟩
    · exact ⟨by rw [l3], by rw [l3]; decide, by decide, by decide, g3⟩
  obtain ⟨k1, k2, k3, k4, k5⟩ := key
  have hc : (bytes n).align ≤ (reprC 1 fs).align ∧ (bytes n).size = (reprC 1 fs).size := ⟨k2, k1.symm⟩
  have hd := struct_flatten 1 fs vs hs k5
  have hlen : vs.flatten.length = n := by
    rw [List.length_flatten, hs, k4]
  refine ⟨vs.flatten, ?_, rfl, hlen, ?_⟩
  · unfold asBytes
    rw [if_pos hc, hd, mapM_some]
  · unfold fromBytes
    rw [if_pos hc, hd]

example : Sized dosRelocation [[0x10, 0], [0x20, 0]] := rfl

/-- The value of a little-endian field, on every host: `to_native()` gives an integer of the host, whose memory is loaded by the host. -/
theorem field_native (h : Ffi.Host) (b : List UInt8) : (Ffi.to_native h .littleEndian b).map (Ffi.load h) = some (number b) := by
  have hn : ∀ b, Ffi.leVal b = number b := by
    intro b
    induction b with
    | nil => rfl
    | cons x b ih => simp only [Ffi.leVal, number, List.foldr_cons] at ih ⊢; rw [ih]
  rw [← hn]
  cases h with
  | little =>
    rw [Ffi.to_native_eq]
    simp [Ffi.NEEDS_SWAP, Ffi.load]
  | big =>
    rw [Ffi.to_native_eq]
    simp [Ffi.NEEDS_SWAP, Ffi.load]

example : number [0x68, 0xa7] = 0xa768 := by decide

/-! ## PE -/

/-- The PE structures are those of the published format; the Windows-specific fields directly follow the standard fields. -/
theorem pe_layout :
    offsets 0 peHeader = peHeaderTable ∧ reprC 1 peHeader = ⟨20, 4⟩ ∧
    offsets 0 (peOptional .pe) = pe32Table ∧ reprC 1 (peOptional .pe) = ⟨28, 4⟩ ∧
    offsets 28 (peOptionalExt .pe) = pe32ExtTable ∧ reprC 1 (peOptionalExt .pe) = ⟨68, 4⟩ ∧
    offsets 0 (peOptional .pe32p) = pe32pTable ∧ reprC 1 (peOptional .pe32p) = ⟨24, 4⟩ ∧
    offsets 24 (peOptionalExt .pe32p) = pe32pExtTable ∧ reprC 1 (peOptionalExt .pe32p) = ⟨88, 8⟩ ∧
    offsets 0 peDataDirectory = peDataDirectoryTable ∧ reprC 1 peDataDirectory = ⟨8, 4⟩ ∧
    offsets 0 peSection = peSectionTable ∧ reprC 1 peSection = ⟨40, 4⟩ := by decide +kernel

/-- The PE structures have no padding. -/
theorem pe_gapless : ∀ fs ∈ [peHeader, peOptional .pe, peOptionalExt .pe, peOptional .pe32p, peOptionalExt .pe32p, peDataDirectory, peSection],
    Gapless 0 (reprC 1 fs).size (place 0 fs).1 := by
  intro fs h
  simp only [List.mem_cons, List.not_mem_nil, or_false] at h
  rcases h with rfl | rfl | rfl | rfl | rfl | rfl | rfl <;> decide +kernel

theorem pe_oneToOne : ∀ fs ∈ [peHeader, peOptional .pe, peOptionalExt .pe, peOptional .pe32p, peOptionalExt .pe32p, peDataDirectory, peSection],
    OneToOne 1 fs := fun fs h => by
  refine oneToOne 1 fs ?_ (pe_gapless fs h)
  simp only [List.mem_cons, List.not_mem_nil, or_false] at h
  rcases h with rfl | rfl | rfl | rfl | rfl | rfl | rfl <;> decide

/-! ## ELF -/

theorem target_cases {t : Target} (h : t.Sane) :
    (t.a16 = 1 ∨ t.a16 = 2) ∧ (t.a32 = 1 ∨ t.a32 = 2 ∨ t.a32 = 4) ∧ (t.a64 = 1 ∨ t.a64 = 2 ∨ t.a64 = 4 ∨ t.a64 = 8) := by
  have h1 := Nat.le_of_dvd (by decide) h.h16
  have h2 := Nat.le_of_dvd (by decide) h.h32
  have h3 := Nat.le_of_dvd (by decide) h.h64
  have d1 := h.h16
  have d2 := h.h32
  have d3 := h.h64
  generalize t.a16 = a at *
  generalize t.a32 = b at *
  generalize t.a64 = c at *
  refine ⟨?_, ?_, ?_⟩
  · rcases (by omega : a = 0 ∨ a = 1 ∨ a = 2) with rfl | rfl | rfl <;> revert d1 <;> decide
  · have : b ≤ 4 := h2
    rcases (by omega : b = 0 ∨ b = 1 ∨ b = 2 ∨ b = 3 ∨ b = 4) with rfl | rfl | rfl | rfl | rfl <;> revert d2 <;> decide
  · rcases (by omega : c = 0 ∨ c = 1 ∨ c = 2 ∨ c = 3 ∨ c = 4 ∨ c = 5 ∨ c = 6 ∨ c = 7 ∨ c = 8) with rfl | rfl | rfl | rfl | rfl | rfl | rfl | rfl | rfl <;>
      revert d3 <;> decide

/-- Layout, size, alignment and absence of padding of one structure. -/
def fits (attr : Nat) (fs : Fields) (table : List Placed) (size : Nat) : Bool :=
  (place 0 fs).1 == table && reprC attr fs == ⟨size, attr⟩

theorem elf_fits {t : Target} (h : t.Sane) (c : Class) :
    fits (elfAlign c) (elfEhdr t c) (elfEhdrTable c) (match c with | .elf32 => 52 | .elf64 => 64) = true ∧
    fits (elfAlign c) (elfShdr t c) (elfShdrTable c) (match c with | .elf32 => 40 | .elf64 => 64) = true ∧
    fits (elfAlign c) (elfPhdr t c) (elfPhdrTable c) (match c with | .elf32 => 32 | .elf64 => 56) = true ∧
    fits (elfAlign c) (elfSym t c) (elfSymTable c) (match c with | .elf32 => 16 | .elf64 => 24) = true ∧
    fits (elfAlign c) (elfDyn t c) (elfDynTable c) (match c with | .elf32 => 8 | .elf64 => 16) = true ∧
    fits (elfAlign c) (elfRel t c) (elfRelTable c) (match c with | .elf32 => 8 | .elf64 => 16) = true ∧
    fits (elfAlign c) (elfRela t c) (elfRelaTable c) (match c with | .elf32 => 12 | .elf64 => 24) = true := by
  obtain ⟨ha, hb, hc⟩ := target_cases h
  obtain ⟨a, b, c'⟩ := t
  dsimp only at ha hb hc
  rcases ha with rfl | rfl <;> rcases hb with rfl | rfl | rfl <;> rcases hc with rfl | rfl | rfl | rfl <;> cases c <;> decide +kernel

/-- On every target, the ELF structures are those of the published format, and have the alignment of their class. -/
theorem elf_layout {t : Target} (h : t.Sane) (c : Class) :
    ((place 0 (elfEhdr t c)).1 = elfEhdrTable c ∧ reprC (elfAlign c) (elfEhdr t c) = ⟨match c with | .elf32 => 52 | .elf64 => 64, elfAlign c⟩) ∧
    ((place 0 (elfShdr t c)).1 = elfShdrTable c ∧ reprC (elfAlign c) (elfShdr t c) = ⟨match c with | .elf32 => 40 | .elf64 => 64, elfAlign c⟩) ∧
    ((place 0 (elfPhdr t c)).1 = elfPhdrTable c ∧ reprC (elfAlign c) (elfPhdr t c) = ⟨match c with | .elf32 => 32 | .elf64 => 56, elfAlign c⟩) ∧
    ((place 0 (elfSym t c)).1 = elfSymTable c ∧ reprC (elfAlign c) (elfSym t c) = ⟨match c with | .elf32 => 16 | .elf64 => 24, elfAlign c⟩) ∧
    ((place 0 (elfDyn t c)).1 = elfDynTable c ∧ reprC (elfAlign c) (elfDyn t c) = ⟨match c with | .elf32 => 8 | .elf64 => 16, elfAlign c⟩) ∧
    ((place 0 (elfRel t c)).1 = elfRelTable c ∧ reprC (elfAlign c) (elfRel t c) = ⟨match c with | .elf32 => 8 | .elf64 => 16, elfAlign c⟩) ∧
    ((place 0 (elfRela t c)).1 = elfRelaTable c ∧ reprC (elfAlign c) (elfRela t c) = ⟨match c with | .elf32 => 12 | .elf64 => 24, elfAlign c⟩) := by
  have key : ∀ {attr fs table size}, fits attr fs table size = true → (place 0 fs).1 = table ∧ reprC attr fs = ⟨size, attr⟩ := by
    intro attr fs table size h
    simpa [fits] using h
  obtain ⟨h1, h2, h3, h4, h5, h6, h7⟩ := elf_fits h c
  exact ⟨key h1, key h2, key h3, key h4, key h5, key h6, key h7⟩

/-- The ELF identification. -/
theorem elf_ident : (place 0 elfIdent).1 = elfIdentTable ∧ reprC 1 elfIdent = ⟨16, 1⟩ := by decide

/-- `u64` is aligned to 4 on x86, and to 8 on x86-64 and aarch64. -/
example : Target.Sane ⟨2, 4, 4⟩ ∧ Target.Sane ⟨2, 4, 8⟩ := ⟨⟨by decide, by decide, by decide⟩, ⟨by decide, by decide, by decide⟩⟩

/-- The published ELF structures have no gaps, hence neither have the structures of the model. -/
theorem elf_gapless (c : Class) :
    Gapless 0 (match c with | .elf32 => 52 | .elf64 => 64) (elfEhdrTable c) ∧ Gapless 0 (match c with | .elf32 => 40 | .elf64 => 64) (elfShdrTable c) ∧
    Gapless 0 (match c with | .elf32 => 32 | .elf64 => 56) (elfPhdrTable c) ∧ Gapless 0 (match c with | .elf32 => 16 | .elf64 => 24) (elfSymTable c) ∧
    Gapless 0 (match c with | .elf32 => 8 | .elf64 => 16) (elfDynTable c) ∧ Gapless 0 (match c with | .elf32 => 8 | .elf64 => 16) (elfRelTable c) ∧
    Gapless 0 (match c with | .elf32 => 12 | .elf64 => 24) (elfRelaTable c) ∧ Gapless 0 16 elfIdentTable := by
  cases c <;> simp [Gapless, elfEhdrTable, elfShdrTable, elfPhdrTable, elfSymTable, elfDynTable, elfRelTable, elfRelaTable, elfIdentTable]

theorem elf_aligned {t : Target} (h : t.Sane) (c : Class) :
    ∀ fs ∈ [elfIdent, elfEhdr t c, elfShdr t c, elfPhdr t c, elfSym t c, elfDyn t c, elfRel t c, elfRela t c], ∀ f ∈ fs, 0 < f.2.align := by
  obtain ⟨ha, hb, hc⟩ := target_cases h
  obtain ⟨a, b, c'⟩ := t
  dsimp only at ha hb hc
  rcases ha with rfl | rfl <;> rcases hb with rfl | rfl | rfl <;> rcases hc with rfl | rfl | rfl | rfl <;> cases c <;> decide +kernel

/-- On every target, the bytes of the ELF structures and their fields determine each other. -/
theorem elf_oneToOne {t : Target} (h : t.Sane) (c : Class) :
    OneToOne 1 elfIdent ∧ ∀ fs ∈ [elfEhdr t c, elfShdr t c, elfPhdr t c, elfSym t c, elfDyn t c, elfRel t c, elfRela t c], OneToOne (elfAlign c) fs := by
  have ha := elf_aligned h c
  obtain ⟨g1, g2, g3, g4, g5, g6, g7, g8⟩ := elf_gapless c
  obtain ⟨⟨a1, b1⟩, ⟨a2, b2⟩, ⟨a3, b3⟩, ⟨a4, b4⟩, ⟨a5, b5⟩, ⟨a6, b6⟩, ⟨a7, b7⟩⟩ := elf_layout h c
  refine ⟨oneToOne 1 elfIdent (ha _ (by simp)) (by rw [elf_ident.1, elf_ident.2]; exact g8), fun fs hfs => ?_⟩
  refine oneToOne _ fs (ha fs (List.mem_cons_of_mem _ hfs)) ?_
  simp only [List.mem_cons, List.not_mem_nil, or_false] at hfs
  rcases hfs with rfl | rfl | rfl | rfl | rfl | rfl | rfl
  · rw [a1, b1]; exact g1
  · rw [a2, b2]; exact g2
  · rw [a3, b3]; exact g3
  · rw [a4, b4]; exact g4
  · rw [a5, b5]; exact g5
  · rw [a6, b6]; exact g6
  · rw [a7, b7]; exact g7

example : Sized (elfDyn ⟨2, 4, 8⟩ .elf64) [[1, 2, 3, 4, 5, 6, 7, 8], [9, 0, 0, 0, 0, 0, 0, 0]] := rfl

end Verif.Bin
