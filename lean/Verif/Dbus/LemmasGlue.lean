import Verif.Dbus.SpecGlue
import Verif.Dbus.LemmasMeaning
/-! # Helper lemmas: putting encodings together -/
namespace Verif.Dbus.Glue
open Verif.Io

mutual
/-- For lengths, too, positions only matter modulo 8. -/
theorem fits_mod8 (be : Bool) : (v : Val) → (x y : Nat) → x % 8 = y % 8 → v.fits be x → v.fits be y
  | .u16 _, _, _, _, _ => trivial
  | .u32 _, _, _, _, _ => trivial
  | .u64 _, _, _, _, _ => trivial
  | .string _, _, _, _, h => h
  | .object _, _, _, _, h => h
  | .signature _, _, _, _, h => h
  | .variant t v, x, y, h, hf => ⟨hf.1, fits_mod8 be v (x + t.size + 2) (y + t.size + 2) (by omega) hf.2⟩
  | .array t vs, x, y, h, hf => by
    have p : padding x 4 = padding y 4 := padding_congr (by omega)
    have q : (x + padding x 4 + 4) % 8 = (y + padding y 4 + 4) % 8 := by omega
    have r := padding_congr (mod_pow (dvarAlign_le t) q)
    have f : firstElement x t % 8 = firstElement y t % 8 := by unfold firstElement; omega
    exact ⟨by rw [← marshals_mod8 be vs _ _ f]; exact hf.1, fit_mod8 be vs _ _ f hf.2⟩
  | .struct vs, x, y, h, hf => by
    have p : padding x 8 = padding y 8 := padding_congr h
    exact fit_mod8 be vs (x + padding x 8) (y + padding y 8) (by omega) hf
  | .dict k v, x, y, h, hf => by
    have p : padding x 8 = padding y 8 := padding_congr h
    have e := marshal_mod8 be k (x + padding x 8) (y + padding y 8) (by omega)
    refine ⟨fits_mod8 be k (x + padding x 8) (y + padding y 8) (by omega) hf.1, ?_⟩
    rw [← e]
    exact fits_mod8 be v (x + padding x 8 + (k.marshal be (x + padding x 8)).length) _ (by omega) hf.2
theorem fit_mod8 (be : Bool) : (vs : List Val) → (x y : Nat) → x % 8 = y % 8 → Val.fit be x vs → Val.fit be y vs
  | [], _, _, _, _ => trivial
  | v :: vs, x, y, h, hf => by
    refine ⟨fits_mod8 be v x y h hf.1, ?_⟩
    rw [← marshal_mod8 be v x y h]
    exact fit_mod8 be vs (x + (v.marshal be x).length) _ (by omega) hf.2
end

theorem first_mod (x : Nat) (t : Ty) : firstElement x t % 2 ^ t.dvarAlign = 0 := by
  unfold firstElement
  exact (padding_spec _ _ (Nat.two_pow_pos _)).1

theorem padded_mod8 (x : Nat) : (x + padding x 8) % 8 = 0 := (padding_spec x 8 (by decide)).1

mutual
/-- Values whose type is not position dependent fit anywhere if they fit somewhere. -/
theorem fits_any (be : Bool) : (v : Val) → (t : Ty) → (x y : Nat) → v.has t → t.posDep = false → v.fits be x → v.fits be y
  | .u16 _, _, _, _, _, _, _ => trivial
  | .u32 _, _, _, _, _, _, _ => trivial
  | .u64 _, _, _, _, _, _, _ => trivial
  | .string _, _, _, _, _, _, h => h
  | .object _, _, _, _, _, _, h => h
  | .signature _, _, _, _, _, _, h => h
  | .variant u v, t, x, y, hv, hp, _ => by
    cases t with
    | variant => cases hp
    | basic b => cases b <;> simp [Val.has] at hv
    | _ => simp [Val.has] at hv
  | .array u vs, t, x, y, hv, hp, hf => by
    cases t with
    | array u' =>
      simp only [Val.has] at hv
      obtain ⟨rfl, hv⟩ := hv
      simp only [Ty.posDep, Bool.or_eq_false_iff, decide_eq_false_iff_not] at hp
      refine ⟨?_, fit_any be vs u _ _ hv hp.2 hf.2⟩
      rw [marshals_align be vs u (firstElement y u) (firstElement x u) hv hp.2 (by rw [first_mod, first_mod])]
      exact hf.1
    | basic b => cases b <;> simp [Val.has] at hv
    | _ => simp [Val.has] at hv
  | .struct vs, t, x, y, _, _, hf => fit_mod8 be vs (x + padding x 8) (y + padding y 8) (by rw [padded_mod8, padded_mod8]) hf
  | .dict k v, t, x, y, _, _, hf => by
    have hx := padded_mod8 x
    have hy := padded_mod8 y
    have e := marshal_mod8 be k (x + padding x 8) (y + padding y 8) (by omega)
    refine ⟨fits_mod8 be k (x + padding x 8) (y + padding y 8) (by omega) hf.1, ?_⟩
    rw [← e]
    exact fits_mod8 be v (x + padding x 8 + (k.marshal be (x + padding x 8)).length) _ (by omega) hf.2
theorem fit_any (be : Bool) : (vs : List Val) → (t : Ty) → (x y : Nat) → Val.each vs t → t.posDep = false → Val.fit be x vs → Val.fit be y vs
  | [], _, _, _, _, _, _ => trivial
  | v :: vs, t, _, _, hv, hp, hf => ⟨fits_any be v t _ _ hv.1 hp hf.1, fit_any be vs t _ _ hv.2 hp hf.2⟩
end

/-- A value whose type is not position dependent is what it is alone, behind its padding. -/
theorem marshal_alone (be : Bool) (v : Val) (t : Ty) (x : Nat) (hv : v.has t) (hp : t.posDep = false) :
    v.marshal be x = pad x (2 ^ t.dvarAlign) ++ v.marshal be 0 := by
  rw [marshal_pad be v t x hv, marshal_align be v t (x + padding x (2 ^ t.dvarAlign)) 0 hv hp]
  rw [(padding_spec x _ (Nat.two_pow_pos _)).1, Nat.zero_mod]

/-- Values with their types. -/
def Alone (be : Bool) (t : Ty) (v : Val) : Prop := v.has t ∧ t.posDep = false ∧ v.fits be 0

theorem glue_marshals (be : Bool) : ∀ (ps : List (Ty × Val)) (acc : List UInt8), (∀ p ∈ ps, Alone be p.1 p.2) →
    glue acc (ps.map fun p => (2 ^ p.1.dvarAlign, p.2.marshal be 0)) = acc ++ Val.marshals be acc.length (ps.map (·.2))
  | [], acc, _ => by simp [glue, Val.marshals]
  | p :: ps, acc, h => by
    have hp := h p (List.mem_cons_self ..)
    have e := marshal_alone be p.2 p.1 acc.length hp.1 hp.2.1
    simp only [List.map_cons, glue, Val.marshals]
    rw [glue_marshals be ps _ fun q hq => h q (List.mem_cons_of_mem _ hq), e]
    simp only [List.append_assoc, List.length_append, Nat.add_assoc]

theorem glue_fit (be : Bool) : ∀ (ps : List (Ty × Val)) (x : Nat), (∀ p ∈ ps, Alone be p.1 p.2) → Val.fit be x (ps.map (·.2))
  | [], _, _ => trivial
  | p :: ps, _, h =>
    have hp := h p (List.mem_cons_self ..)
    ⟨fits_any be p.2 p.1 0 _ hp.1 hp.2.1 hp.2.2, glue_fit be ps _ fun q hq => h q (List.mem_cons_of_mem _ hq)⟩

theorem all_of (be : Bool) : ∀ (ps : List (Ty × Val)), (∀ p ∈ ps, Alone be p.1 p.2) → Val.all (ps.map (·.2)) (ps.map (·.1))
  | [], _ => trivial
  | p :: ps, h => ⟨(h p (List.mem_cons_self ..)).1, all_of be ps fun q hq => h q (List.mem_cons_of_mem _ hq)⟩

theorem each_of (t : Ty) : ∀ (vs : List Val), (∀ v ∈ vs, v.has t) → Val.each vs t
  | [], _ => trivial
  | v :: vs, h => ⟨h v (List.mem_cons_self ..), each_of t vs fun q hq => h q (List.mem_cons_of_mem _ hq)⟩

theorem all_app : ∀ (vs : List Val) (ts : List Ty) (ws : List Val) (us : List Ty), Val.all vs ts → Val.all ws us → Val.all (vs ++ ws) (ts ++ us)
  | [], [], _, _, _, h => h
  | _ :: vs, _ :: ts, ws, us, hv, h => ⟨hv.1, all_app vs ts ws us hv.2 h⟩
  | [], _ :: _, _, _, hv, _ => hv.elim
  | _ :: _, [], _, _, hv, _ => hv.elim

theorem struct_zero (be : Bool) (vs : List Val) : (Val.struct vs).marshal be 0 = Val.marshals be 0 vs := by
  simp only [Val.marshal, show padding 0 8 = 0 from rfl, show pad 0 8 = [] from rfl, List.nil_append, Nat.add_zero]

theorem struct_fits (be : Bool) (vs : List Val) : (Val.struct vs).fits be 0 ↔ Val.fit be 0 vs := by
  simp only [Val.fits, show padding 0 8 = 0 from rfl, Nat.add_zero]

theorem first_zero (t : Ty) : firstElement 0 t = 4 + padding 4 (2 ^ t.dvarAlign) := by
  simp only [firstElement, show padding 0 4 = 0 from rfl, Nat.zero_add]

theorem array_zero (be : Bool) (t : Ty) (vs : List Val) : (Val.array t vs).marshal be 0
    = enNum be 4 (Val.marshals be (firstElement 0 t) vs).length ++ pad 4 (2 ^ t.dvarAlign) ++ Val.marshals be (firstElement 0 t) vs := by
  simp only [Val.marshal, show padding 0 4 = 0 from rfl, show pad 0 4 = [] from rfl, List.nil_append, Nat.zero_add]

theorem array_fits (be : Bool) (t : Ty) (vs : List Val) (n : Nat) (h : (Val.marshals be (firstElement 0 t) vs).length = n) (hn : n < 2 ^ 32)
    (hf : Val.fit be (firstElement 0 t) vs) : (Val.array t vs).fits be 0 := by
  unfold Val.fits
  exact ⟨h ▸ hn, hf⟩

theorem variant_zero (be : Bool) (t : Ty) (v : Val) (hv : v.has t) (hp : t.posDep = false) : (Val.variant t v).marshal be 0
    = glue (enNum be 1 t.size ++ t.bytes ++ [0]) [(2 ^ t.dvarAlign, v.marshal be 0)] := by
  have hlen : (enNum be 1 t.size ++ t.bytes ++ [0]).length = t.size + 2 := by
    simp only [List.length_append, enNum_length, bytes_length, List.length_cons, List.length_nil]; omega
  simp only [Val.marshal, glue, hlen, Nat.zero_add]
  rw [marshal_alone be v t (t.size + 2) hv hp]
  simp only [List.append_assoc]

theorem variant_fits (be : Bool) (t : Ty) (v : Val) (hv : v.has t) (hp : t.posDep = false) (hz : t.size < 2 ^ 8) (hf : v.fits be 0) :
    (Val.variant t v).fits be 0 := by
  unfold Val.fits
  exact ⟨hz, fits_any be v t 0 _ hv hp hf⟩

end Verif.Dbus.Glue
