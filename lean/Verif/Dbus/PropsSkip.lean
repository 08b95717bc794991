import Verif.Dbus.LemmasSkip
import Verif.Dbus.PropsDec
/-! # C120: which data a D-Bus decoder accepts

The property: the data a decoder accepts for a value is the marshalled form of that value. The decoder violates it. -/
namespace Verif.Dbus
open Verif.Io

variable {σ : Type} {I : ReadImpl σ} {data : List UInt8} {s : Sig} {t : Ty} {v : Val} {l : List Ask} {rs : List Ans}

/-- A decoder of these bytes gives these answers, and is finished then. -/
def Delivers (s : Sig) (be : Bool) (data : List UInt8) (l : List Ask) (rs : List Ans) : Prop :=
  ∃ d d', Dec.with_ s be = some d ∧ Ask.runs (sliceRead data) (l ++ [.commit]) d () = some (d', (), rs ++ [.ok])

/-- Accepted data is as long as the marshalled form and has the same bytes, except for those which are not looked at. -/
theorem cells_are (be : Bool) (off : Nat) (v : Val) : (v.cells be off).length = (v.marshal be off).length
    ∧ ∀ (i : Nat) (b : UInt8), (v.cells be off)[i]? = some (.byte b) → (v.marshal be off)[i]? = some b := by
  refine ⟨cells_marshal_length be off v, fun i b h => ?_⟩
  have := marshal_meets be off v i _ h
  rwa [Nat.zero_add] at this

/-- C120. (`_partial`: see `not_canonical`.) For every reader of some data, every type, every value of it and every way to
read the value: if the answers are those for the value, then the data begins with the marshalled value, except for the
padding, the terminators and the lengths of arrays. -/
theorem accepted_partial (hL : Linear I data) (hd : data.length < usizeMax) (hs : View s t) (be : Bool) (st st' : σ) (d d' : Dec)
    (hv : v.has t) (hr : Reads v l rs) (h : Dec.with_ s be = some d) (hrun : Ask.runs I l d st = some (d', st', rs)) :
    v.texts ∧ Meets data 0 (v.cells be 0) := by
  obtain ⟨e, e', st2, rs', b, h1, h2, h3⟩ := decoder_refines hL hd hs be st l (reads_sane hr)
  rw [h] at h1; cases h1
  rw [hrun] at h2; cases h2
  obtain ⟨g1, g2, _⟩ := reads_tells _ be data hr (DSt.new t 0) b t rfl hv h3
  exact ⟨g1, g2⟩

/-- C120. Exactly this data is accepted: whatever is in the padding, in place of the terminators and of the lengths of
arrays, and whether or not the last terminator is there. -/
theorem delivers_iff (hd : data.length ≤ isizeMax) (hs : View s t) (be : Bool) (hv : v.has t) (hr : Reads v l rs) :
    Delivers s be data l rs ↔ v.texts ∧ Meets data 0 (v.cells be 0) := by
  have hd' : data.length + 8 ≤ usizeMax := Nat.le_trans (Nat.add_le_add_right hd 8) (by decide)
  have hL := (slice_read data (by omega)).1
  obtain ⟨d, d', st', rs', b, h1, h2, h3⟩ := decoder_refines hL (by omega) hs be () (l ++ [.commit])
    (asks_append (reads_sane hr) (by simp [Ask.sanes, Ask.sane]))
  obtain ⟨rs1, rs2, m, rfl, h4, h5⟩ := givesAll_append h3
  obtain ⟨r, rfl, h6⟩ := givesAll_one h5
  constructor
  · rintro ⟨e, e', g1, g2⟩
    rw [h1] at g1; cases g1
    rw [h2] at g2
    simp only [Option.some.injEq, Prod.mk.injEq] at g2
    have e := List.append_inj_left' g2.2.2 rfl
    subst e
    obtain ⟨k1, k2, _⟩ := reads_tells _ be data hr (DSt.new t 0) m t rfl hv h4
    exact ⟨k1, k2⟩
  · rintro ⟨k1, k2⟩
    have e := reads_told (Short (sliceRead data)) be data (fun n hn h => by rw [slice_short data (by omega)] at h; omega) hd' hr
      (DSt.new t 0) m t rs1 rfl hv k1 k2 h4
    subst e
    obtain ⟨_, _, rfl⟩ := reads_tells _ be data hr (DSt.new t 0) m t rfl hv h4
    obtain ⟨rfl, _⟩ := gives_commit rfl rfl h6
    exact ⟨d, d', h1, h2⟩

/-- C120. In particular the marshalled form is accepted, with anything behind it. -/
theorem marshalled_accepted (hs : View s t) (be : Bool) (hv : v.has t) (hr : Reads v l rs) (ht : v.texts) (rest : List UInt8)
    (hl : (v.marshal be 0 ++ rest).length ≤ isizeMax) : Delivers s be (v.marshal be 0 ++ rest) l rs :=
  (delivers_iff hl hs be hv hr).mpr ⟨ht, by simpa using meets_shift [] rest (marshal_meets be 0 v)⟩

/-- C120, disagreement. What follows a string is not looked at. -/
theorem terminator_ignored (hs : View s (.basic .string)) (be : Bool) (x : List UInt8) (hx : Args.isUtf8 x = true)
    (hl : x.length < 2 ^ 32) (rest : List UInt8) (hr : (enNum be 4 x.length ++ x ++ rest).length ≤ isizeMax) :
    Delivers s be (enNum be 4 x.length ++ x ++ rest) [.string] [.str x] := by
  refine (delivers_iff hr hs be (v := .string x) trivial (.string x hx)).mpr ⟨hl, ?_⟩
  simp only [Val.cells, show padding 0 4 = 0 by decide, List.replicate_zero, List.nil_append]
  refine meets_append.mpr ⟨by simpa using meets_shift [] rest (meets_self (enNum be 4 x.length ++ x)), meets_one _ _⟩

/-- C120, disagreement. The length of an array is not looked at: if the data is accepted then so is data with another
length. -/
theorem length_ignored {u : Ty} {vs : List Val} (hs : View s (.array u)) (be : Bool) (hv : Val.each vs u)
    (hr : Reads (.array u vs) l rs) (x y rest : List UInt8) (hx : x.length = 4) (hy : y.length = 4)
    (hl : (x ++ rest).length ≤ isizeMax) (h : Delivers s be (x ++ rest) l rs) : Delivers s be (y ++ rest) l rs := by
  obtain ⟨h1, h2⟩ := (delivers_iff hl hs be (v := .array u vs) ⟨rfl, hv⟩ hr).mp h
  refine (delivers_iff (by simpa [hx, hy] using hl) hs be (v := .array u vs) ⟨rfl, hv⟩ hr).mpr ⟨h1, fun i c hc => ?_⟩
  by_cases hi : i < 4
  · have : c = .any := by
      simp only [Val.cells, show padding 0 4 = 0 by decide, List.replicate_zero, List.nil_append, List.append_assoc] at hc
      rw [List.getElem?_append_left (by simpa using hi), List.getElem?_replicate, if_pos hi] at hc
      cases hc; rfl
    subst this
    show (y ++ rest)[0 + i]? ≠ none
    rw [ne_eq, List.getElem?_eq_none_iff, List.length_append]
    omega
  · have := h2 i c hc
    rw [List.getElem?_append_right (by omega), hx] at this
    rw [List.getElem?_append_right (by omega), hy]
    exact this

/-- C120, disagreement. Data has no unique value: an array can be read as any beginning of it. -/
theorem elements_ignored {u : Ty} {vs ws : List Val} {l' : List Ask} {rs' : List Ans} (hd : data.length ≤ isizeMax)
    (hs : View s (.array u)) (be : Bool) (hv : Val.each (vs ++ ws) u) (hr : Reads (.array u (vs ++ ws)) l rs)
    (hr' : Reads (.array u vs) l' rs') (h : Delivers s be data l rs) : Delivers s be data l' rs' := by
  obtain ⟨h1, h2⟩ := (delivers_iff hd hs be (v := .array u (vs ++ ws)) ⟨rfl, hv⟩ hr).mp h
  refine (delivers_iff hd hs be (v := .array u vs) ⟨rfl, each_left _ _ _ hv⟩ hr').mpr ⟨textsAll_append _ _ h1, ?_⟩
  simp only [Val.cells, cellsAll_append, ← List.append_assoc] at h2 ⊢
  exact (meets_append.mp h2).1

/-- C120, disagreement. The property fails for every string: the same answers for data that is not the marshalled form, data
that is too short for it, and (`length_ignored`, `elements_ignored`) for arrays. -/
theorem not_canonical (hs : View s (.basic .string)) (be : Bool) (x : List UInt8) (hx : Args.isUtf8 x = true)
    (hl : x.length < 2 ^ 32) :
    ∃ data data', Delivers s be data [.string] [.str x] ∧ Delivers s be data' [.string] [.str x]
      ∧ ¬ (Val.string x).marshal be 0 <+: data ∧ data.length = ((Val.string x).marshal be 0).length
      ∧ data'.length < ((Val.string x).marshal be 0).length := by
  have hi : 2 ^ 32 + 5 ≤ isizeMax := by decide
  refine ⟨_, _, terminator_ignored hs be x hx hl [1] (by simp; omega), terminator_ignored hs be x hx hl [] (by simp; omega), ?_, ?_, ?_⟩
  · intro h
    have e := h.eq_of_length (by simp [Val.marshal, padding])
    simp only [Val.marshal, pad, show padding 0 4 = 0 by decide, List.replicate_zero, List.nil_append] at e
    have := List.append_cancel_left e
    cases this
  · simp [Val.marshal, padding]
  · simp [Val.marshal, padding]

/-- An array of two strings: a wrong length, padding and terminators that are not zero, and the last terminator missing. -/
example : (decFrom false "as" [255, 255, 255, 255, 1, 0, 0, 0, 97, 9, 9, 9, 1, 0, 0, 0, 98] [.array, .string, .string, .close, .commit]).map
    (·.map Ans.show) = some [.inr [], .inr [97], .inr [98], .inr [], .inr []] := by decide +kernel

/-- The same data as an array of one element. -/
example : (decFrom false "as" [255, 255, 255, 255, 1, 0, 0, 0, 97, 9, 9, 9, 1, 0, 0, 0, 98] [.array, .string, .close, .commit]).map
    (·.map Ans.show) = some [.inr [], .inr [97], .inr [], .inr []] := by decide +kernel

example : ∃ s, View s (.array (.basic .string)) ∧ (Val.array (.basic .string) [.string [97], .string [98]]).has (.array (.basic .string))
    ∧ (Val.array (.basic .string) [.string [97], .string [98]]).texts
    ∧ Reads (.array (.basic .string) [.string [97], .string [98]]) [.array, .string, .string, .close] [.ok, .str [97], .str [98], .ok]
    ∧ Meets [255, 255, 255, 255, 1, 0, 0, 0, 97, 9, 9, 9, 1, 0, 0, 0, 98] 0
        ((Val.array (.basic .string) [.string [97], .string [98]]).cells false 0) := by
  exact ⟨_, view_ofTy (.array (.basic .string)) (by decide), ⟨rfl, trivial, trivial, trivial⟩,
    ⟨show [97].length < 2 ^ 32 by decide, show [98].length < 2 ^ 32 by decide, trivial⟩,
    .array _ _ _ _ (.cons _ _ _ _ _ _ (.string _ (by decide)) (.cons _ _ _ _ _ _ (.string _ (by decide)) .nil)), by decide +kernel⟩

end Verif.Dbus
