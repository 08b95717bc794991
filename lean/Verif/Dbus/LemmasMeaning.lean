import Verif.Dbus.LemmasDvar
/-! # Lemmas: how marshalled values depend on their position and on their type -/
namespace Verif.Dbus
open Verif.Io

theorem padding_at_one (n : Nat) : padding n 1 = 0 := by unfold padding; omega

theorem padding_congr {x y a : Nat} (h : x % a = y % a) : padding x a = padding y a := by
  unfold padding; rw [h]

theorem mod_pow {x y d : Nat} (hd : d ≤ 3) (h : x % 8 = y % 8) : x % 2 ^ d = y % 2 ^ d := by
  match d, hd with
  | 0, _ => omega
  | 1, _ => omega
  | 2, _ => omega
  | 3, _ => omega

theorem dvarAlign_le (t : Ty) : t.dvarAlign ≤ 3 := by
  cases t with
  | basic b => cases b <;> decide
  | _ => simp only [Ty.dvarAlign]; decide

theorem pad_congr {x y a : Nat} (h : x % a = y % a) : pad x a = pad y a := by
  unfold pad; rw [padding_congr h]

mutual
/-- Positions only matter modulo 8. -/
theorem marshal_mod8 (be : Bool) : (v : Val) → (x y : Nat) → x % 8 = y % 8 → v.marshal be x = v.marshal be y
  | .u16 v, x, y, h => by simp only [Val.marshal]; rw [pad_congr (show x % 2 = y % 2 by omega)]
  | .u32 v, x, y, h => by simp only [Val.marshal]; rw [pad_congr (show x % 4 = y % 4 by omega)]
  | .u64 v, x, y, h => by simp only [Val.marshal]; rw [pad_congr h]
  | .string s, x, y, h => by simp only [Val.marshal]; rw [pad_congr (show x % 4 = y % 4 by omega)]
  | .object s, x, y, h => by simp only [Val.marshal]; rw [pad_congr (show x % 4 = y % 4 by omega)]
  | .signature s, x, y, h => by simp only [Val.marshal]
  | .variant t v, x, y, h => by
    simp only [Val.marshal]
    rw [marshal_mod8 be v (x + t.size + 2) (y + t.size + 2) (by omega)]
  | .array t vs, x, y, h => by
    have p : padding x 4 = padding y 4 := padding_congr (by omega)
    have q : (x + padding x 4 + 4) % 8 = (y + padding y 4 + 4) % 8 := by omega
    have r := padding_congr (mod_pow (dvarAlign_le t) q)
    have f : firstElement x t % 8 = firstElement y t % 8 := by unfold firstElement; omega
    simp only [Val.marshal]
    rw [pad_congr (show x % 4 = y % 4 by omega), pad_congr (mod_pow (dvarAlign_le t) q),
      marshals_mod8 be vs _ _ f]
  | .struct vs, x, y, h => by
    have p : padding x 8 = padding y 8 := padding_congr h
    simp only [Val.marshal]
    rw [pad_congr h, marshals_mod8 be vs (x + padding x 8) (y + padding y 8) (by omega)]
  | .dict k v, x, y, h => by
    have p : padding x 8 = padding y 8 := padding_congr h
    have e := marshal_mod8 be k (x + padding x 8) (y + padding y 8) (by omega)
    simp only [Val.marshal]
    rw [pad_congr h, e, marshal_mod8 be v (x + padding x 8 + (k.marshal be (y + padding y 8)).length)
      (y + padding y 8 + (k.marshal be (y + padding y 8)).length) (by omega)]
theorem marshals_mod8 (be : Bool) : (vs : List Val) → (x y : Nat) → x % 8 = y % 8 →
    Val.marshals be x vs = Val.marshals be y vs
  | [], x, y, h => rfl
  | v :: vs, x, y, h => by
    simp only [Val.marshals]
    rw [marshal_mod8 be v x y h, marshals_mod8 be vs (x + (v.marshal be y).length) (y + (v.marshal be y).length) (by omega)]
end

mutual
/-- Positions only matter modulo the alignment, for types that are not position dependent. -/
theorem marshal_align (be : Bool) : (v : Val) → (t : Ty) → (x y : Nat) → v.has t → t.posDep = false →
    x % 2 ^ t.dvarAlign = y % 2 ^ t.dvarAlign → v.marshal be x = v.marshal be y
  | .u16 v, t, x, y, hv, _, h => by
    have e : t = .basic .uint16 := by
      cases t with
      | basic b => cases b <;> simp_all [Val.has]
      | _ => simp [Val.has] at hv
    subst e
    simp only [Val.marshal]; rw [pad_congr (show x % 2 = y % 2 from h)]
  | .u32 v, t, x, y, hv, _, h => by
    have e : t = .basic .uint32 := by
      cases t with
      | basic b => cases b <;> simp_all [Val.has]
      | _ => simp [Val.has] at hv
    subst e
    simp only [Val.marshal]; rw [pad_congr (show x % 4 = y % 4 from h)]
  | .u64 v, t, x, y, hv, _, h => by
    have e : t = .basic .uint64 := by
      cases t with
      | basic b => cases b <;> simp_all [Val.has]
      | _ => simp [Val.has] at hv
    subst e
    simp only [Val.marshal]; rw [pad_congr (show x % 8 = y % 8 from h)]
  | .string s, t, x, y, hv, _, h => by
    have e : t = .basic .string := by
      cases t with
      | basic b => cases b <;> simp_all [Val.has]
      | _ => simp [Val.has] at hv
    subst e
    simp only [Val.marshal]; rw [pad_congr (show x % 4 = y % 4 from h)]
  | .object s, t, x, y, hv, _, h => by
    have e : t = .basic .objectPath := by
      cases t with
      | basic b => cases b <;> simp_all [Val.has]
      | _ => simp [Val.has] at hv
    subst e
    simp only [Val.marshal]; rw [pad_congr (show x % 4 = y % 4 from h)]
  | .signature s, t, x, y, _, _, h => by simp only [Val.marshal]
  | .variant u v, t, x, y, hv, hp, h => by
    cases t with
    | variant => simp [Ty.posDep] at hp
    | basic b => cases b <;> simp [Val.has] at hv
    | _ => simp [Val.has] at hv
  | .array u vs, t, x, y, hv, hp, h => by
    cases t with
    | array u' =>
      simp only [Val.has] at hv
      obtain ⟨rfl, hv⟩ := hv
      simp only [Ty.posDep, Bool.or_eq_false_iff, decide_eq_false_iff_not] at hp
      have h4 : x % 4 = y % 4 := h
      have p : padding x 4 = padding y 4 := padding_congr h4
      have q : (x + padding x 4 + 4) % 2 ^ u.dvarAlign = (y + padding y 4 + 4) % 2 ^ u.dvarAlign := by
        have h4' : (x + padding x 4 + 4) % 4 = (y + padding y 4 + 4) % 4 := by omega
        match hd : u.dvarAlign, hp.1 with
        | 0, _ => omega
        | 1, _ => omega
        | 2, _ => omega
        | _ + 3, hh => omega
      have r := padding_congr q
      have f : firstElement x u % 2 ^ u.dvarAlign = firstElement y u % 2 ^ u.dvarAlign := by
        unfold firstElement
        rw [r, Nat.add_mod, q, ← Nat.add_mod]
      simp only [Val.marshal]
      rw [pad_congr h4, pad_congr q, marshals_align be vs u _ _ hv hp.2 f]
    | basic b => cases b <;> simp [Val.has] at hv
    | _ => simp [Val.has] at hv
  | .struct vs, t, x, y, hv, hp, h => by
    cases t with
    | struct ts => exact marshal_mod8 be _ _ _ h
    | basic b => cases b <;> simp [Val.has] at hv
    | _ => simp [Val.has] at hv
  | .dict k v, t, x, y, hv, hp, h => by
    cases t with
    | dict kt vt => exact marshal_mod8 be _ _ _ h
    | basic b => cases b <;> simp [Val.has] at hv
    | _ => simp [Val.has] at hv
theorem marshals_align (be : Bool) : (vs : List Val) → (t : Ty) → (x y : Nat) → Val.each vs t → t.posDep = false →
    x % 2 ^ t.dvarAlign = y % 2 ^ t.dvarAlign → Val.marshals be x vs = Val.marshals be y vs
  | [], _, _, _, _, _, _ => rfl
  | v :: vs, t, x, y, hv, hp, h => by
    simp only [Val.marshals]
    rw [marshal_align be v t x y hv.1 hp h]
    rw [marshals_align be vs t (x + (v.marshal be y).length) (y + (v.marshal be y).length) hv.2 hp
      (by rw [Nat.add_mod, h, ← Nat.add_mod])]
end


theorem pad_zero (x a : Nat) (ha : 0 < a) : pad (x + padding x a) a = [] := by
  have := (padding_spec x a ha).1
  unfold pad
  have e : padding (x + padding x a) a = 0 := by
    generalize hz : x + padding x a = z at this
    unfold padding
    rw [this, Nat.sub_zero, Nat.mod_self]
  rw [e]; rfl

theorem padding_zero (x a : Nat) (ha : 0 < a) : padding (x + padding x a) a = 0 := by
  have h := pad_zero x a ha
  have := congrArg List.length h
  simpa using this

/-- Values begin with the padding of their alignment. -/
theorem marshal_pad (be : Bool) (v : Val) (t : Ty) (x : Nat) (hv : v.has t) :
    v.marshal be x = pad x (2 ^ t.dvarAlign) ++ v.marshal be (x + padding x (2 ^ t.dvarAlign)) := by
  have h1 : ∀ l : List UInt8, pad x 1 ++ l = l := by intro l; simp [pad, padding_at_one]
  cases v with
  | u16 v =>
    have e : t = .basic .uint16 := by
      cases t with
      | basic b => cases b <;> simp_all [Val.has]
      | _ => simp [Val.has] at hv
    subst e
    show _ = pad x 2 ++ (Val.u16 v).marshal be (x + padding x 2)
    simp only [Val.marshal, pad_zero x 2 (by decide), List.nil_append]
  | u32 v =>
    have e : t = .basic .uint32 := by
      cases t with
      | basic b => cases b <;> simp_all [Val.has]
      | _ => simp [Val.has] at hv
    subst e
    show _ = pad x 4 ++ (Val.u32 v).marshal be (x + padding x 4)
    simp only [Val.marshal, pad_zero x 4 (by decide), List.nil_append]
  | u64 v =>
    have e : t = .basic .uint64 := by
      cases t with
      | basic b => cases b <;> simp_all [Val.has]
      | _ => simp [Val.has] at hv
    subst e
    show _ = pad x 8 ++ (Val.u64 v).marshal be (x + padding x 8)
    simp only [Val.marshal, pad_zero x 8 (by decide), List.nil_append]
  | string s =>
    have e : t = .basic .string := by
      cases t with
      | basic b => cases b <;> simp_all [Val.has]
      | _ => simp [Val.has] at hv
    subst e
    show _ = pad x 4 ++ (Val.string s).marshal be (x + padding x 4)
    simp only [Val.marshal, pad_zero x 4 (by decide), List.nil_append, List.append_assoc]
  | object s =>
    have e : t = .basic .objectPath := by
      cases t with
      | basic b => cases b <;> simp_all [Val.has]
      | _ => simp [Val.has] at hv
    subst e
    show _ = pad x 4 ++ (Val.object s).marshal be (x + padding x 4)
    simp only [Val.marshal, pad_zero x 4 (by decide), List.nil_append, List.append_assoc]
  | signature s =>
    have e : t = .basic .signature := by
      cases t with
      | basic b => cases b <;> simp_all [Val.has]
      | _ => simp [Val.has] at hv
    subst e
    show _ = pad x 1 ++ (Val.signature s).marshal be (x + padding x 1)
    rw [h1]; simp only [Val.marshal]
  | variant u v =>
    have e : t = .variant := by
      cases t with
      | basic b => cases b <;> simp_all [Val.has]
      | variant => rfl
      | _ => simp [Val.has] at hv
    subst e
    show _ = pad x 1 ++ (Val.variant u v).marshal be (x + padding x 1)
    rw [h1, padding_at_one, Nat.add_zero]
  | array u vs =>
    have e : t = .array u := by
      cases t with
      | basic b => cases b <;> simp_all [Val.has]
      | array u' => simp only [Val.has] at hv; rw [hv.1]
      | _ => simp [Val.has] at hv
    subst e
    show _ = pad x 4 ++ (Val.array u vs).marshal be (x + padding x 4)
    simp only [Val.marshal, firstElement, pad_zero x 4 (by decide), padding_zero x 4 (by decide), List.nil_append,
      List.append_assoc, Nat.add_zero]
  | struct vs =>
    have e : t.dvarAlign = 3 := by
      cases t with
      | basic b => cases b <;> simp [Val.has] at hv
      | struct ts => rfl
      | _ => simp [Val.has] at hv
    rw [e]
    show _ = pad x 8 ++ (Val.struct vs).marshal be (x + padding x 8)
    simp only [Val.marshal, pad_zero x 8 (by decide), padding_zero x 8 (by decide), List.nil_append, Nat.add_zero]
  | dict k v =>
    have e : t.dvarAlign = 3 := by
      cases t with
      | basic b => cases b <;> simp [Val.has] at hv
      | dict _ _ => rfl
      | _ => simp [Val.has] at hv
    rw [e]
    show _ = pad x 8 ++ (Val.dict k v).marshal be (x + padding x 8)
    simp only [Val.marshal, pad_zero x 8 (by decide), padding_zero x 8 (by decide), List.nil_append, Nat.add_zero,
      List.append_assoc]

mutual
/-- Values of a type that is not dynamic have the same size. -/
theorem marshal_fixed (be : Bool) : (v w : Val) → (t : Ty) → (x y : Nat) → v.has t → w.has t → t.dynamic = false →
    x % 8 = y % 8 → (v.marshal be x).length = (w.marshal be y).length
  | .u16 v, w, t, x, y, hv, hw, hd, h => by
    cases t with
    | basic b =>
      cases b <;> simp [Val.has] at hv
      cases w <;> simp [Val.has] at hw
      simp [Val.marshal, padding_congr (show x % 2 = y % 2 by omega)]
    | _ => simp [Val.has] at hv
  | .u32 v, w, t, x, y, hv, hw, hd, h => by
    cases t with
    | basic b =>
      cases b <;> simp [Val.has] at hv
      cases w <;> simp [Val.has] at hw
      simp [Val.marshal, padding_congr (show x % 4 = y % 4 by omega)]
    | _ => simp [Val.has] at hv
  | .u64 v, w, t, x, y, hv, hw, hd, h => by
    cases t with
    | basic b =>
      cases b <;> simp [Val.has] at hv
      cases w <;> simp [Val.has] at hw
      simp [Val.marshal, padding_congr h]
    | _ => simp [Val.has] at hv
  | .string s, w, t, x, y, hv, hw, hd, h => by
    cases t with
    | basic b => cases b <;> first | (simp [Val.has] at hv; done) | cases hd
    | _ => simp [Val.has] at hv
  | .object s, w, t, x, y, hv, hw, hd, h => by
    cases t with
    | basic b => cases b <;> first | (simp [Val.has] at hv; done) | cases hd
    | _ => simp [Val.has] at hv
  | .signature s, w, t, x, y, hv, hw, hd, h => by
    cases t with
    | basic b => cases b <;> first | (simp [Val.has] at hv; done) | cases hd
    | _ => simp [Val.has] at hv
  | .variant u v, w, t, x, y, hv, hw, hd, h => by
    cases t with
    | basic b => cases b <;> simp [Val.has] at hv
    | variant => cases hd
    | _ => simp [Val.has] at hv
  | .array u vs, w, t, x, y, hv, hw, hd, h => by
    cases t with
    | basic b => cases b <;> simp [Val.has] at hv
    | array u' => simp [Ty.dynamic, Ty.text] at hd
    | _ => simp [Val.has] at hv
  | .struct vs, w, t, x, y, hv, hw, hd, h => by
    cases t with
    | basic b => cases b <;> simp [Val.has] at hv
    | struct ts =>
      cases w with
      | struct ws =>
        simp only [Val.has] at hv hw
        have p : padding x 8 = padding y 8 := padding_congr h
        have hd' : (Ty.texts ts).any (· ∈ ['s', 'o', 'g', 'v', 'a', 'm']) = false := by
          simp only [Ty.dynamic, Ty.text, List.any_cons, List.any_append, Bool.or_eq_false_iff] at hd
          exact hd.2.1
        have := marshals_fixed be vs ws ts (x + padding x 8) (y + padding y 8) hv hw hd' (by omega)
        simp only [Val.marshal, List.length_append, pad_length]
        omega
      | _ => simp [Val.has] at hw
    | _ => simp [Val.has] at hv
  | .dict k v, w, t, x, y, hv, hw, hd, h => by
    cases t with
    | basic b => cases b <;> simp [Val.has] at hv
    | dict kt vt =>
      cases w with
      | dict k' v' =>
        simp only [Val.has] at hv hw
        have p : padding x 8 = padding y 8 := padding_congr h
        simp only [Ty.dynamic, Ty.text, List.any_cons, List.any_append, Bool.or_eq_false_iff] at hd
        have hk : (Ty.basic kt).dynamic = false := by
          simp only [Ty.dynamic, Ty.text, List.any_cons, List.any_nil, Bool.or_false]; exact hd.2.1
        have e1 := marshal_fixed be k k' (.basic kt) (x + padding x 8) (y + padding y 8) hv.1 hw.1 hk (by omega)
        have e2 := marshal_fixed be v v' vt (x + padding x 8 + (k.marshal be (x + padding x 8)).length)
          (y + padding y 8 + (k'.marshal be (y + padding y 8)).length) hv.2 hw.2 hd.2.2.1 (by omega)
        simp only [Val.marshal, List.length_append, pad_length]
        omega
      | _ => simp [Val.has] at hw
    | _ => simp [Val.has] at hv
theorem marshals_fixed (be : Bool) : (vs ws : List Val) → (ts : List Ty) → (x y : Nat) → Val.all vs ts → Val.all ws ts →
    (Ty.texts ts).any (· ∈ ['s', 'o', 'g', 'v', 'a', 'm']) = false → x % 8 = y % 8 →
    (Val.marshals be x vs).length = (Val.marshals be y ws).length
  | [], ws, ts, x, y, hv, hw, hd, h => by
    cases ts with
    | nil => cases ws with
      | nil => rfl
      | cons w ws => simp [Val.all] at hw
    | cons t ts => simp [Val.all] at hv
  | v :: vs, ws, ts, x, y, hv, hw, hd, h => by
    cases ts with
    | nil => simp [Val.all] at hv
    | cons t ts =>
      cases ws with
      | nil => simp [Val.all] at hw
      | cons w ws =>
        simp only [Val.all] at hv hw
        simp only [Ty.texts, List.any_append, Bool.or_eq_false_iff] at hd
        have e1 := marshal_fixed be v w t x y hv.1 hw.1 hd.1 h
        have e2 := marshals_fixed be vs ws ts (x + (v.marshal be x).length) (y + (w.marshal be y).length) hv.2 hw.2 hd.2
          (by omega)
        simp only [Val.marshals, List.length_append]
        omega
end

/-- A value whose size depends on the position, among those that are aligned. -/
theorem marshal_differs (be : Bool) : (t : Ty) → 'm' ∉ t.text → t.posDep = true →
    t.dvarAlign ≤ 2 ∧ ∃ v : Val, v.has t ∧ (v.marshal be 0).length ≠ (v.marshal be 4).length
  | .basic b, _, h => by cases h
  | .variant, _, _ => by
    refine ⟨by decide, .variant (.basic .uint64) (.u64 0), trivial, ?_⟩
    have e : (Ty.basic .uint64).size = 1 := by decide
    simp only [Val.marshal, List.length_append, enNum_length, pad_length, List.length_cons, List.length_nil, e]
    decide
  | .array t, hm, h => by
    refine ⟨by simp [Ty.dvarAlign], ?_⟩
    simp only [Ty.posDep, Bool.or_eq_true, decide_eq_true_iff] at h
    rcases h with h | h
    · have e : t.dvarAlign = 3 := by have := dvarAlign_le t; omega
      refine ⟨.array t [], ⟨rfl, trivial⟩, ?_⟩
      simp only [Val.marshal, Val.marshals, List.length_append, enNum_length, pad_length, List.length_nil, e]
      decide
    · obtain ⟨ha, v, hv, hl⟩ := marshal_differs be t (fun hh => hm (List.mem_cons_of_mem _ hh)) h
      refine ⟨.array t [v], ⟨rfl, hv, trivial⟩, ?_⟩
      have p0 : padding 4 (2 ^ t.dvarAlign) = 0 := by
        match hd : t.dvarAlign, ha with
        | 0, _ => rfl
        | 1, _ => rfl
        | 2, _ => rfl
      have p1 : padding 8 (2 ^ t.dvarAlign) = 0 := by
        match hd : t.dvarAlign, ha with
        | 0, _ => rfl
        | 1, _ => rfl
        | 2, _ => rfl
      have q0 : padding 0 4 = 0 := rfl
      have q1 : padding 4 4 = 0 := rfl
      have e8 : v.marshal be 8 = v.marshal be 0 := marshal_mod8 be v 8 0 rfl
      simp only [Val.marshal, marshals_one, firstElement, List.length_append, enNum_length, pad_length, q0, q1, Nat.zero_add,
        Nat.add_zero, Nat.reduceAdd, p0, p1, e8]
      omega
  | .maybe t, hm, _ => absurd (List.mem_cons_self) hm
  | .struct _, _, h => by cases h
  | .dict .., _, h => by cases h

end Verif.Dbus
