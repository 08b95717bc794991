import Verif.Dbus.LemmasGlue
import Verif.Dbus.PropsUnique
/-! # C138: encodings are put together from those of their parts -/
namespace Verif.Dbus.Glue
open Verif.Io

variable {s : Sig} {t : Ty}

/-- A value that is encoded alone: its type, which is not position dependent, a signature of it, calls that write it, and what they write. -/
structure Piece where
  ty : Ty
  val : Val
  sig : Sig
  ops : List Op
  bytes : List UInt8

/-- `bytes` is what an encoder for `sig` writes with these calls for the value, which has lengths that fit. -/
structure Piece.Made (be : Bool) (p : Piece) : Prop where
  view : View p.sig p.ty
  free : p.ty.posDep = false
  has : p.val.has p.ty
  fits : p.val.fits be 0
  small : (p.val.marshal be 0).length ≤ isizeMax
  writes : Writes p.val p.ops
  made : Encoded p.sig be p.ops p.bytes

theorem made_bytes {be : Bool} {p : Piece} (h : p.Made be) : p.bytes = p.val.marshal be 0 :=
  encoded_eq h.view be p.val h.has h.fits h.small p.ops h.writes p.bytes h.made

theorem made_glue {be : Bool} (ps : List Piece) (acc : List UInt8) (h : ∀ p ∈ ps, p.Made be) :
    glue acc (ps.map fun p => (2 ^ p.ty.dvarAlign, p.bytes)) = acc ++ Val.marshals be acc.length (ps.map (·.val)) := by
  have := glue_marshals be (ps.map fun p => (p.ty, p.val)) acc (by
    intro q hq
    obtain ⟨p, hp, rfl⟩ := List.mem_map.mp hq
    exact ⟨(h p hp).has, (h p hp).free, (h p hp).fits⟩)
  simp only [List.map_map] at this
  rw [show (ps.map fun p => (2 ^ p.ty.dvarAlign, p.bytes)) = ps.map fun p => (2 ^ p.ty.dvarAlign, p.val.marshal be 0) from
    List.map_congr_left fun p hp => by rw [made_bytes (h p hp)]]
  exact this

/-- C138. A structure is encoded as its members alone, put one behind the other. -/
theorem struct_assembled (be : Bool) (ps : List Piece) (hp : ∀ p ∈ ps, p.Made be) (hs : View s (.struct (ps.map (·.ty)))) (ops : List Op)
    (ho : Writes (.struct (ps.map (·.val))) ops)
    (hl : (glue [] (ps.map fun p => (2 ^ p.ty.dvarAlign, p.bytes))).length ≤ isizeMax) :
    Encoded s be ops (glue [] (ps.map fun p => (2 ^ p.ty.dvarAlign, p.bytes))) := by
  have ha : ∀ q ∈ ps.map fun p => (p.ty, p.val), Alone be q.1 q.2 := by
    intro q hq
    obtain ⟨p, hm, rfl⟩ := List.mem_map.mp hq
    exact ⟨(hp p hm).has, (hp p hm).free, (hp p hm).fits⟩
  have hall := all_of be _ ha
  have hfit := glue_fit be _ 0 ha
  rw [List.map_map, List.map_map] at hall
  rw [List.map_map] at hfit
  have hz := struct_zero be (ps.map (·.val))
  have hg := made_glue ps [] hp
  rw [List.nil_append, List.length_nil, ← hz] at hg
  rw [hg] at hl ⊢
  have hv : (Val.struct (ps.map (·.val))).has (.struct (ps.map (·.ty))) := by
    unfold Val.has
    exact hall
  exact encoded hs be _ hv ((struct_fits be _).mpr hfit) hl ops ho

/-- C138. An array is encoded as the length, padding for the first element, and its elements alone, put one behind the other. -/
theorem array_assembled (be : Bool) (ps : List Piece) (hp : ∀ p ∈ ps, p.Made be ∧ p.ty = t) (hs : View s (.array t)) (ops : List Op)
    (ho : Writes (.array t (ps.map (·.val))) ops) (n : Nat) (hn : n < 2 ^ 32)
    (hlen : (glue (enNum be 4 n ++ pad 4 (2 ^ t.dvarAlign)) (ps.map fun p => (2 ^ t.dvarAlign, p.bytes))).length = 4 + padding 4 (2 ^ t.dvarAlign) + n)
    (hl : 4 + padding 4 (2 ^ t.dvarAlign) + n ≤ isizeMax) :
    Encoded s be ops (glue (enNum be 4 n ++ pad 4 (2 ^ t.dvarAlign)) (ps.map fun p => (2 ^ t.dvarAlign, p.bytes))) := by
  have ha : ∀ q ∈ ps.map fun p => (p.ty, p.val), Alone be q.1 q.2 := by
    intro q hq
    obtain ⟨p, hm, rfl⟩ := List.mem_map.mp hq
    exact ⟨(hp p hm).1.has, (hp p hm).1.free, (hp p hm).1.fits⟩
  have hfit := glue_fit be _ (firstElement 0 t) ha
  rw [List.map_map] at hfit
  have heach : Val.each (ps.map (·.val)) t := each_of t _ fun v hv => by
    obtain ⟨p, hm, rfl⟩ := List.mem_map.mp hv
    rw [← (hp p hm).2]
    exact (hp p hm).1.has
  have hf : (enNum be 4 n ++ pad 4 (2 ^ t.dvarAlign)).length = firstElement 0 t := by
    rw [first_zero, List.length_append, enNum_length, pad_length]
  have hg := made_glue ps (enNum be 4 n ++ pad 4 (2 ^ t.dvarAlign)) fun p hm => (hp p hm).1
  rw [show (ps.map fun p => (2 ^ p.ty.dvarAlign, p.bytes)) = ps.map fun p => (2 ^ t.dvarAlign, p.bytes) from
    List.map_congr_left fun p hm => by rw [(hp p hm).2], hf] at hg
  rw [hg] at hlen ⊢
  have hm : (Val.marshals be (firstElement 0 t) (ps.map (·.val))).length = n := by
    rw [List.length_append, hf] at hlen
    have := first_zero t
    omega
  have hz := array_zero be t (ps.map (·.val))
  rw [hm] at hz
  rw [← hz] at hlen ⊢
  have hv : (Val.array t (ps.map (·.val))).has (.array t) := by
    unfold Val.has
    exact ⟨rfl, heach⟩
  exact encoded hs be _ hv (array_fits be t _ n hm hn hfit) (Nat.le_trans (Nat.le_of_eq hlen) hl) ops ho

/-- C138. A variant is encoded as its signature, and its value alone behind it. -/
theorem variant_assembled (be : Bool) (p : Piece) (hp : p.Made be) (hs : View s .variant) (ops : List Op) (ho : Writes (.variant p.ty p.val) ops)
    (hz : p.ty.size < 2 ^ 8)
    (hl : (glue (enNum be 1 p.ty.size ++ p.ty.bytes ++ [0]) [(2 ^ p.ty.dvarAlign, p.bytes)]).length ≤ isizeMax) :
    Encoded s be ops (glue (enNum be 1 p.ty.size ++ p.ty.bytes ++ [0]) [(2 ^ p.ty.dvarAlign, p.bytes)]) := by
  have hz' := variant_zero be p.ty p.val hp.has hp.free
  rw [← made_bytes hp] at hz'
  rw [← hz'] at hl ⊢
  have hv : (Val.variant p.ty p.val).has .variant := by
    unfold Val.has
    exact hp.has
  exact encoded hs be _ hv (variant_fits be p.ty p.val hp.has hp.free hz hp.fits) hl ops ho

/-- C138. Whatever the types are: a member of a structure that stands at a multiple of eight is encoded as it is alone. -/
theorem member_at_eight (be : Bool) {u : Sig} {r : Sig} {ts ts' : List Ty} (vs vs' : List Val) (v : Val) (hs : View s (.struct (ts ++ t :: ts'))) (hu : View u t)
    (hr : View r (.struct ts)) (hv : Val.all vs ts) (hw : v.has t) (hv' : Val.all vs' ts') (hf : (Val.struct (vs ++ v :: vs')).fits be 0)
    (hl : ((Val.struct (vs ++ v :: vs')).marshal be 0).length ≤ isizeMax) (ops ops₁ ops₂ : List Op) (bs front own : List UInt8)
    (h : Encoded s be ops bs) (ho : Writes (.struct (vs ++ v :: vs')) ops)
    (h1 : Encoded r be ops₁ front) (ho1 : Writes (.struct vs) ops₁) (h2 : Encoded u be ops₂ own) (ho2 : Writes v ops₂)
    (h8 : front.length % 8 = 0) : front ++ own <+: bs := by
  have hall : (Val.struct (vs ++ v :: vs')).has (.struct (ts ++ t :: ts')) := by
    unfold Val.has
    exact all_app vs ts (v :: vs') (t :: ts') hv ⟨hw, hv'⟩
  have hstr : (Val.struct vs).has (.struct ts) := by
    unfold Val.has
    exact hv
  have hm : (Val.struct (vs ++ v :: vs')).marshal be 0 = Val.marshals be 0 vs ++ (v.marshal be (Val.marshals be 0 vs).length
      ++ Val.marshals be ((Val.marshals be 0 vs).length + (v.marshal be (Val.marshals be 0 vs).length).length) vs') := by
    rw [struct_zero, marshals_append, Val.marshals]
    simp only [Nat.zero_add]
  have hfit := (fit_append be vs (v :: vs') 0).mp ((struct_fits be _).mp hf)
  rw [Nat.zero_add] at hfit
  rw [encoded_eq hs be _ hall hf hl ops ho bs h, hm]
  rw [hm, List.length_append, List.length_append] at hl
  have e1 : front = Val.marshals be 0 vs := by
    rw [← struct_zero]
    refine encoded_eq hr be (.struct vs) hstr ((struct_fits be _).mpr hfit.1) ?_ ops₁ ho1 front h1
    rw [struct_zero]
    exact Nat.le_trans (Nat.le_add_right _ _) hl
  subst e1
  have e3 := marshal_mod8 be v (Val.marshals be 0 vs).length 0 (by rw [h8])
  rw [e3] at hl ⊢
  have e2 : own = v.marshal be 0 := encoded_eq hu be v hw (fits_mod8 be v _ 0 (by rw [h8]) hfit.2.1)
    (Nat.le_trans (Nat.le_trans (Nat.le_add_right _ _) (Nat.le_add_left _ _)) hl) ops₂ ho2 own h2
  rw [e2, ← List.append_assoc]
  exact List.prefix_append ..

/-- The pieces of a structure with a number and a string, and of an array of such structures. -/
example : ∃ p q : Piece, p.Made false ∧ q.Made false ∧ p.ty = .basic .uint16 ∧ q.ty = .basic .string ∧ p.bytes = [7, 0] ∧ q.bytes = [1, 0, 0, 0, 97, 0]
    ∧ glue [] ([p, q].map fun p => (2 ^ p.ty.dvarAlign, p.bytes)) = [7, 0, 0, 0, 1, 0, 0, 0, 97, 0] := by
  have hp := encoded (view_ofTy (.basic .uint16) (by decide)) false (.u16 7) trivial trivial (by decide) [.u16 7] (.u16 7)
  have hq := encoded (view_ofTy (.basic .string) (by decide)) false (.string [97]) trivial (by decide : [97].length < 2 ^ 32) (by decide) [.string [97]] (.string [97])
  refine ⟨⟨.basic .uint16, .u16 7, _, [.u16 7], _⟩, ⟨.basic .string, .string [97], _, [.string [97]], _⟩, ⟨view_ofTy _ (by decide), rfl, trivial, trivial, (by decide), .u16 7, hp⟩,
    ⟨view_ofTy _ (by decide), rfl, trivial, (by decide : [97].length < 2 ^ 32), (by decide), .string [97], hq⟩, rfl, rfl, by decide, by decide, by decide⟩

/-- Three structures of ten bytes in an array. -/
example : glue (enNum false 4 42 ++ pad 4 8) [(8, [7, 0, 0, 0, 1, 0, 0, 0, 97, 0]), (8, [8, 0, 0, 0, 1, 0, 0, 0, 98, 0]), (8, [9, 0, 0, 0, 1, 0, 0, 0, 99, 0])]
    = (Val.array (.struct [.basic .uint16, .basic .string]) [.struct [.u16 7, .string [97]], .struct [.u16 8, .string [98]], .struct [.u16 9, .string [99]]]).marshal false 0 := by
  decide +kernel

/-- Types that are position dependent: an array of 64-bit numbers is not the same behind a 32-bit number as it is alone. -/
example : (Val.struct [.u32 1, .array (.basic .uint64) [.u64 2]]).marshal false 0 ≠ glue [] [(4, (Val.u32 1).marshal false 0), (4, (Val.array (.basic .uint64) [.u64 2]).marshal false 0)]
    ∧ (Ty.array (.basic .uint64)).posDep = true := by
  decide +kernel

end Verif.Dbus.Glue
