import Verif.Dbus.LemmasGrow
/-! # Properties: what it costs to encode into a growing vector -/
namespace Verif.Dbus
open Verif.Io

/-- The start of an encoding. -/
theorem with_fresh {s : Sig} {be : Bool} {e : Enc} (he : Enc.with_ s be = some e) : e.link = none ∧ e.done = false ∧ Placed e := by
  simp only [Enc.with_, Option.bind_eq_bind, Option.bind_eq_some_iff] at he
  obtain ⟨c, -, he⟩ := he
  cases he
  exact ⟨rfl, rfl, fun p hp => by cases hp⟩

/-- C100. If all calls are accepted and everything is committed, also in sub-encoders, then at most two bytes are copied for each byte of the encoding
because the vector grows, in addition to those that C99 is about. -/
theorem encoding_moves {A : Alloc} (hA : A.Doubles) (ops : List Op) {s : Sig} {be : Bool} {e e' : Enc} {v : RawVec} {m : Mem}
    {w' : Writer (RawVec × Nat)} {os : List Out} (he : Enc.with_ s be = some e) (h : Op.runs (growWrite A) ops e ⟨(v, 0), m⟩ = some (e', w', os))
    (hc : Op.complete ops = true) (ho : Out.fines os = true) : v.len ≤ w'.st.1.len ∧ w'.st.2 ≤ 2 * (w'.st.1.len - v.len) := by
  obtain ⟨hl, hd, hp⟩ := with_fresh he
  obtain ⟨x, ⟨⟨h1, -⟩, h2⟩, h3⟩ := (runs_held (grow_obeys (paid_kept hA) v.len) ops _ _ _ _ _ h hc ho).top hl hd hp e'.level.idx (Nat.le_refl _)
    ⟨⟨Nat.zero_le _, .inl (Nat.zero_le _)⟩, rfl⟩
  rw [h3]
  simp only [growWrite]
  omega

/-- C100. The vector takes at most twice the memory of the encoding, or what it had before, or 8 bytes. -/
theorem encoding_room {A : Alloc} (hA : A.Modest) (ops : List Op) {s : Sig} {be : Bool} {e e' : Enc} {v : RawVec} {m : Mem}
    {w' : Writer (RawVec × Nat)} {os : List Out} (he : Enc.with_ s be = some e) (h : Op.runs (growWrite A) ops e ⟨(v, 0), m⟩ = some (e', w', os))
    (hc : Op.complete ops = true) (ho : Out.fines os = true) : w'.st.1.cap ≤ max v.cap (max 8 (2 * (w'.st.1.len - v.len))) := by
  obtain ⟨hl, hd, hp⟩ := with_fresh he
  obtain ⟨x, ⟨h1, h2⟩, h3⟩ := (runs_held (grow_obeys (Q := fun k x _ => x ≤ max v.cap (max 8 (2 * k))) (fun k => room_kept hA k v.cap) v.len) ops _ _ _ _ _ h
    hc ho).top hl hd hp e'.level.idx (Nat.le_refl _) ⟨Nat.le_max_left _ _, rfl⟩
  rw [h3]
  simp only [growWrite]
  omega

/-- 35 bytes, with an array of strings in a sub-encoder: the vector is moved with 8, 16 and 32 bytes. -/
example : (do
    let e ← Enc.with_ (sg "(uas)") false
    let x ← Op.runs (growWrite doubling)
      [.structure, .u32 7, .sub none [.array, .string (sb "foo"), .string (sb "bar"), .string (sb "foobar"), .close, .commit], .close, .commit] e
      ⟨(.of [] 0, 0), fun _ => none⟩
    some (x.2.1.st.1.len, x.2.1.st.1.cap, x.2.1.st.2, Out.fines x.2.2)) = some (35, 64, 8 + 16 + 32, true) := by decide +kernel

end Verif.Dbus
