import Verif.Dbus.SpecUnique
import Verif.Dbus.LemmasReads
/-! # Lemmas about telling values apart -/
namespace Verif.Dbus
open Verif.Io

theorem app_inj {α : Type} {a b x y : List α} (h : a ++ x = b ++ y) (hl : a.length = b.length) : a = b ∧ x = y :=
  List.append_inj h hl

theorem enNum_inj {be : Bool} {w m n : Nat} (hm : m < 256 ^ w) (hn : n < 256 ^ w) (h : enNum be w m = enNum be w n) : m = n := by
  rw [← deNum_enNum be w m hm, ← deNum_enNum be w n hn, h]

/-- A number with padding, and what follows. -/
theorem num_tell {be : Bool} {off w m n : Nat} {a : Nat} {x y : List UInt8} (hm : m < 256 ^ w) (hn : n < 256 ^ w)
    (h : pad off a ++ enNum be w m ++ x = pad off a ++ enNum be w n ++ y) : m = n ∧ x = y := by
  rw [List.append_assoc, List.append_assoc] at h
  have h1 := List.append_cancel_left h
  obtain ⟨h2, h3⟩ := app_inj h1 (by simp)
  exact ⟨enNum_inj hm hn h2, h3⟩

/-- A text with its length, and what follows. -/
theorem text_tell {be : Bool} {off w : Nat} {a : Nat} {s r x y : List UInt8} (hs : s.length < 256 ^ w) (hr : r.length < 256 ^ w)
    (h : pad off a ++ enNum be w s.length ++ s ++ [0] ++ x = pad off a ++ enNum be w r.length ++ r ++ [0] ++ y) : s = r ∧ x = y := by
  rw [List.append_assoc _ [0], List.append_assoc _ [0], List.append_assoc _ s, List.append_assoc _ r] at h
  obtain ⟨h1, h2⟩ := num_tell hs hr h
  obtain ⟨h3, h4⟩ := app_inj h2 h1
  exact ⟨h3, by simpa using h4⟩

theorem marshal_sig (be : Bool) (off : Nat) (s : List UInt8) :
    (Val.signature s).marshal be off = pad off 1 ++ enNum be 1 s.length ++ s ++ [0] := by
  simp [Val.marshal, pad, padding, Nat.mod_one]

theorem marshal_variant (be : Bool) (off : Nat) (t : Ty) (v : Val) : (Val.variant t v).marshal be off
    = pad off 1 ++ enNum be 1 t.bytes.length ++ t.bytes ++ [0] ++ v.marshal be (off + t.size + 2) := by
  simp [Val.marshal, pad, padding, Nat.mod_one, bytes_length]

mutual
theorem marshal_pos (be : Bool) : (off : Nat) → (v : Val) → (t : Ty) → v.has t → t.hollow = false → 0 < (v.marshal be off).length
  | _, .u16 _, _, _, _ => by simp [Val.marshal]
  | _, .u32 _, _, _, _ => by simp [Val.marshal]
  | _, .u64 _, _, _, _ => by simp [Val.marshal]
  | _, .string _, _, _, _ => by simp [Val.marshal]; omega
  | _, .object _, _, _, _ => by simp [Val.marshal]; omega
  | _, .signature _, _, _, _ => by simp [Val.marshal]; omega
  | _, .variant .., _, _, _ => by simp [Val.marshal]; omega
  | _, .array .., _, _, _ => by simp [Val.marshal]; omega
  | off, .struct vs, t, h, hh => by
    obtain ⟨ts, rfl, h⟩ := ty_struct h
    have := marshals_pos be (off + padding off 8) vs ts h hh
    simp [Val.marshal]; omega
  | off, .dict k v, t, h, hh => by
    obtain ⟨kt, vt, rfl, h1, h2⟩ : ∃ kt vt, t = .dict kt vt ∧ k.has (.basic kt) ∧ v.has vt := by
      match t, h with
      | .dict kt vt, h => exact ⟨kt, vt, rfl, h.1, h.2⟩
    have := marshal_pos be (off + padding off 8) k _ h1 rfl
    simp [Val.marshal]; omega
theorem marshals_pos (be : Bool) : (off : Nat) → (vs : List Val) → (ts : List Ty) → Val.all vs ts → Ty.hollows ts = false →
    0 < (Val.marshals be off vs).length
  | _, [], [], _, h => by cases h
  | off, v :: vs, t :: ts, h, hh => by
    simp only [Val.marshals, List.length_append]
    cases h1 : t.hollow with
    | false =>
      have := marshal_pos be off v t h.1 h1
      omega
    | true =>
      have h2 : Ty.hollows ts = false := by simpa [Ty.hollows, h1] using hh
      have := marshals_pos be (off + (v.marshal be off).length) vs ts h.2 h2
      omega
end

mutual
/-- What is marshalled, and where it ends, is told by the bytes. -/
theorem marshal_tell (be : Bool) : (v : Val) → ∀ (w : Val) (t : Ty) (off : Nat) (x y : List UInt8), v.has t → w.has t →
    v.fits be off → w.fits be off → v.solid → v.marshal be off ++ x = w.marshal be off ++ y → v = w ∧ x = y
  | .u16 v, w, t, off, x, y, hv, hw, _, _, _, h => by
    have := ty_u16 hv
    subst this
    match w, hw with
    | .u16 w, _ =>
      obtain ⟨h1, h2⟩ := num_tell (by have := v.isLt; omega) (by have := w.isLt; omega) h
      exact ⟨congrArg _ (BitVec.eq_of_toNat_eq h1), h2⟩
  | .u32 v, w, t, off, x, y, hv, hw, _, _, _, h => by
    match t, hv with
    | .basic .uint32, _ =>
    match w, hw with
    | .u32 w, _ =>
      obtain ⟨h1, h2⟩ := num_tell (by have := v.isLt; omega) (by have := w.isLt; omega) h
      exact ⟨congrArg _ (BitVec.eq_of_toNat_eq h1), h2⟩
  | .u64 v, w, t, off, x, y, hv, hw, _, _, _, h => by
    match t, hv with
    | .basic .uint64, _ =>
    match w, hw with
    | .u64 w, _ =>
      obtain ⟨h1, h2⟩ := num_tell (by have := v.isLt; omega) (by have := w.isLt; omega) h
      exact ⟨congrArg _ (BitVec.eq_of_toNat_eq h1), h2⟩
  | .string s, w, t, off, x, y, hv, hw, hf, hg, _, h => by
    match t, hv with
    | .basic .string, _ =>
    match w, hw with
    | .string r, _ =>
      obtain ⟨rfl, h2⟩ := text_tell hf hg h
      exact ⟨rfl, h2⟩
  | .object s, w, t, off, x, y, hv, hw, hf, hg, _, h => by
    match t, hv with
    | .basic .objectPath, _ =>
    match w, hw with
    | .object r, _ =>
      obtain ⟨rfl, h2⟩ := text_tell hf hg h
      exact ⟨rfl, h2⟩
  | .signature s, w, t, off, x, y, hv, hw, hf, hg, _, h => by
    match t, hv with
    | .basic .signature, _ =>
    match w, hw with
    | .signature r, _ =>
      rw [marshal_sig, marshal_sig] at h
      obtain ⟨rfl, h2⟩ := text_tell hf hg h
      exact ⟨rfl, h2⟩
  | .variant u v, w, t, off, x, y, hv, hw, hf, hg, hs, h => by
    match t, hv with
    | .variant, hv =>
    match w, hw with
    | .variant u' w, hw =>
      rw [marshal_variant, marshal_variant] at h
      rw [List.append_assoc _ (v.marshal be _), List.append_assoc _ (w.marshal be _)] at h
      obtain ⟨h1, h2⟩ := text_tell (by rw [bytes_length]; exact hf.1) (by rw [bytes_length]; exact hg.1) h
      have := bytes_inj h1
      subst this
      obtain ⟨rfl, h3⟩ := marshal_tell be v w u _ x y hv hw hf.2 hg.2 hs h2
      exact ⟨rfl, h3⟩
  | .array u vs, w, t, off, x, y, hv, hw, hf, hg, hs, h => by
    obtain ⟨rfl, he⟩ := ty_array hv
    match w, hw with
    | .array u' ws, hw =>
      obtain ⟨rfl, hw'⟩ := hw
      simp only [Val.marshal] at h
      rw [List.append_assoc _ (Val.marshals be _ vs), List.append_assoc _ (Val.marshals be _ ws), List.append_assoc _ (pad _ _),
        List.append_assoc _ (pad _ _)] at h
      obtain ⟨h1, h2⟩ := num_tell hf.1 hg.1 h
      obtain ⟨h3, h4⟩ := app_inj (List.append_cancel_left h2) h1
      have := marshals_tell be vs ws u' _ he hw' hf.2 hg.2 hs.1 hs.2 h3
      subst this
      exact ⟨rfl, h4⟩
  | .struct vs, w, t, off, x, y, hv, hw, hf, hg, hs, h => by
    obtain ⟨ts, rfl, hv⟩ := ty_struct hv
    match w, hw with
    | .struct ws, hw =>
      simp only [Val.marshal] at h
      rw [List.append_assoc, List.append_assoc] at h
      obtain ⟨rfl, h1⟩ := fields_tell be vs ws ts _ x y hv hw hf hg hs (List.append_cancel_left h)
      exact ⟨rfl, h1⟩
  | .dict k v, w, t, off, x, y, hv, hw, hf, hg, hs, h => by
    match t, hv with
    | .dict kt vt, hv =>
    match w, hw with
    | .dict k' v', hw =>
      simp only [Val.marshal] at h
      rw [List.append_assoc, List.append_assoc, List.append_assoc, List.append_assoc] at h
      obtain ⟨rfl, h1⟩ := marshal_tell be k k' _ _ _ _ hv.1 hw.1 hf.1 hg.1 hs.1 (List.append_cancel_left h)
      obtain ⟨rfl, h2⟩ := marshal_tell be v v' _ _ _ _ hv.2 hw.2 hf.2 hg.2 hs.2 h1
      exact ⟨rfl, h2⟩
theorem fields_tell (be : Bool) : (vs : List Val) → ∀ (ws : List Val) (ts : List Ty) (off : Nat) (x y : List UInt8), Val.all vs ts →
    Val.all ws ts → Val.fit be off vs → Val.fit be off ws → Val.solids vs →
    Val.marshals be off vs ++ x = Val.marshals be off ws ++ y → vs = ws ∧ x = y
  | [], ws, [], off, x, y, _, hw, _, _, _, h => by
    match ws, hw with
    | [], _ => exact ⟨rfl, h⟩
  | v :: vs, ws, t :: ts, off, x, y, hv, hw, hf, hg, hs, h => by
    match ws, hw with
    | w :: ws, hw =>
      simp only [Val.marshals, List.append_assoc] at h
      obtain ⟨rfl, h1⟩ := marshal_tell be v w t off _ _ hv.1 hw.1 hf.1 hg.1 hs.1 h
      obtain ⟨rfl, h2⟩ := fields_tell be vs ws ts _ x y hv.2 hw.2 hf.2 hg.2 hs.2 h1
      exact ⟨rfl, h2⟩
theorem marshals_tell (be : Bool) : (vs : List Val) → ∀ (ws : List Val) (t : Ty) (off : Nat), Val.each vs t → Val.each ws t →
    Val.fit be off vs → Val.fit be off ws → t.hollow = false → Val.solids vs →
    Val.marshals be off vs = Val.marshals be off ws → vs = ws
  | [], [], _, _, _, _, _, _, _, _, _ => rfl
  | [], w :: ws, t, off, _, hw, _, _, hh, _, h => by
    have h1 := marshal_pos be off w t hw.1 hh
    have h2 := congrArg List.length h
    simp only [Val.marshals, List.length_append, List.length_nil] at h2
    omega
  | v :: vs, [], t, off, hv, _, _, _, hh, _, h => by
    have h1 := marshal_pos be off v t hv.1 hh
    have h2 := congrArg List.length h
    simp only [Val.marshals, List.length_append, List.length_nil] at h2
    omega
  | v :: vs, w :: ws, t, off, hv, hw, hf, hg, hh, hs, h => by
    simp only [Val.marshals] at h
    obtain ⟨rfl, h1⟩ := marshal_tell be v w t off _ _ hv.1 hw.1 hf.1 hg.1 hs.1 h
    have := marshals_tell be vs ws t _ hv.2 hw.2 hf.2 hg.2 hh hs.2 h1
    rw [this]
end

/-! ## Hollow structures -/

theorem padding_eight {off : Nat} (h : off % 8 = 0) : padding off 8 = 0 := by
  unfold padding; rw [h]

mutual
theorem marshal_hollow (be : Bool) : (v : Val) → (t : Ty) → (off : Nat) → v.has t → t.hollow = true → off % 8 = 0 →
    v.marshal be off = []
  | .struct vs, .struct ts, off, hv, hh, ho => by
    have hp := padding_eight ho
    have := fields_hollow be vs ts off hv hh ho
    simp only [Val.marshal, pad, hp, List.replicate_zero, List.nil_append, Nat.add_zero, this]
  | .u16 _, .basic b, _, _, hh, _ => by cases hh
  | .u32 _, .basic b, _, _, hh, _ => by cases hh
  | .u64 _, .basic b, _, _, hh, _ => by cases hh
  | .string _, .basic b, _, _, hh, _ => by cases hh
  | .object _, .basic b, _, _, hh, _ => by cases hh
  | .signature _, .basic b, _, _, hh, _ => by cases hh
  | .variant .., .variant, _, _, hh, _ => by cases hh
  | .array .., .array _, _, _, hh, _ => by cases hh
  | .dict .., .dict .., _, _, hh, _ => by cases hh
theorem fields_hollow (be : Bool) : (vs : List Val) → (ts : List Ty) → (off : Nat) → Val.all vs ts → Ty.hollows ts = true →
    off % 8 = 0 → Val.marshals be off vs = []
  | [], [], _, _, _, _ => rfl
  | v :: vs, t :: ts, off, hv, hh, ho => by
    simp only [Ty.hollows, Bool.and_eq_true] at hh
    have h1 := marshal_hollow be v t off hv.1 hh.1 ho
    have h2 := fields_hollow be vs ts off hv.2 hh.2 ho
    simp only [Val.marshals, h1, List.nil_append, List.length_nil, Nat.add_zero, h2]
end

theorem elements_hollow (be : Bool) (t : Ty) (hh : t.hollow = true) : ∀ (vs : List Val) (off : Nat), Val.each vs t → off % 8 = 0 →
    Val.marshals be off vs = []
  | [], _, _, _ => rfl
  | v :: vs, off, hv, ho => by
    have h1 := marshal_hollow be v t off hv.1 hh ho
    have h2 := elements_hollow be t hh vs off hv.2 ho
    simp only [Val.marshals, h1, List.nil_append, List.length_nil, Nat.add_zero, h2]

theorem hollow_first (off : Nat) (t : Ty) (hh : t.hollow = true) : firstElement off t % 8 = 0 := by
  cases t with
  | struct ts =>
    have e : 2 ^ (Ty.struct ts).dvarAlign = 8 := by simp [Ty.dvarAlign]
    unfold firstElement padding
    rw [e]
    omega
  | _ => cases hh

mutual
theorem hollow_fits (be : Bool) : (v : Val) → (t : Ty) → (off : Nat) → v.has t → t.hollow = true → v.fits be off
  | .struct vs, .struct ts, off, hv, hh => fields_fit be vs ts _ hv hh
  | .u16 _, .basic b, _, _, hh => by cases hh
  | .u32 _, .basic b, _, _, hh => by cases hh
  | .u64 _, .basic b, _, _, hh => by cases hh
  | .string _, .basic b, _, _, hh => by cases hh
  | .object _, .basic b, _, _, hh => by cases hh
  | .signature _, .basic b, _, _, hh => by cases hh
  | .variant .., .variant, _, _, hh => by cases hh
  | .array .., .array _, _, _, hh => by cases hh
  | .dict .., .dict .., _, _, hh => by cases hh
theorem fields_fit (be : Bool) : (vs : List Val) → (ts : List Ty) → (off : Nat) → Val.all vs ts → Ty.hollows ts = true →
    Val.fit be off vs
  | [], [], _, _, _ => trivial
  | v :: vs, t :: ts, off, hv, hh => by
    simp only [Ty.hollows, Bool.and_eq_true] at hh
    exact ⟨hollow_fits be v t off hv.1 hh.1, fields_fit be vs ts _ hv.2 hh.2⟩
end

theorem elements_fit (be : Bool) (t : Ty) (hh : t.hollow = true) : ∀ (vs : List Val) (off : Nat), Val.each vs t → Val.fit be off vs
  | [], _, _ => trivial
  | v :: vs, off, hv => ⟨hollow_fits be v t off hv.1 hh, elements_fit be t hh vs _ hv.2⟩

end Verif.Dbus
