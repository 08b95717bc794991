import Verif.Dbus.LemmasFinal
import Verif.Dbus.PropsDvar
/-! # C137: what a D-Bus encoder has written is final, but for the lengths of arrays that are open

`e1.level.idx` is where an encoder is: the number of bytes from the beginning of the mapping to the end of what it has
written (dvar.rs 36-41, 195-225). All statements are about any implementation of `io::map::Write`, and about calls that
were accepted as well as calls that were refused, with sub-encoders. -/
namespace Verif.Dbus.Final
open Verif.Io
variable {σ : Type}

/-- Where the encoder is after the first calls, how many arrays are open then, and the first bytes then and after the other calls; for examples. -/
def demo (sig : String) (a b : List Op) (n : Nat) : Option (Nat × Nat × List (Option UInt8) × List (Option UInt8)) := do
  let e ← Enc.with_ (sg sig) false
  let (e1, w1, o1) ← Op.runs vecWrite a e (vecOf [])
  let (_, w2, _) ← Op.runs vecWrite b e1 w1
  some (e1.level.idx, openArrays a o1, (List.range n).map w1.mem, (List.range n).map w2.mem)

/-- After any calls there is, for every array that is open, one place of four bytes in front of where the encoder is. These
places do not overlap. Whatever is called from then on, of what is in front of the encoder only these places change, and
the encoder never goes back. -/
theorem written_final (I : WriteImpl σ) {e e1 : Enc} {w w1 : Writer σ} {a : List Op} {o1 : List Out} (hb : Begins e)
    (h1 : Op.runs I a e w = some (e1, w1, o1)) :
    ∃ places : List Nat, places.length = openArrays a o1 ∧ places.Pairwise (fun f g => g + 4 ≤ f) ∧ (∀ p ∈ places, e.level.idx ≤ p ∧ p + 4 ≤ e1.level.idx)
      ∧ ∀ (b : List Op) (e2 : Enc) (w2 : Writer σ) (o2 : List Out), Op.runs I b e1 w1 = some (e2, w2, o2) →
          e1.level.idx ≤ e2.level.idx ∧ ∀ j, j < e1.level.idx → (∀ p ∈ places, j < p ∨ p + 4 ≤ j) → w2.mem j = w1.mem j := by
  have hst := begins_stack hb
  obtain ⟨_, m⟩ := runs_fine I a e w e1 w1 o1 h1
  have hi : Inv e := ⟨by rw [slots_begins hst]; exact List.Pairwise.nil, by rw [slots_begins hst]; nofun⟩
  have hi1 := m.inv hi
  refine ⟨slots e1, ?_, hi1.apart, fun p hp => ⟨?_, hi1.front p hp⟩, fun b e2 w2 o2 h2 => ?_⟩
  · have hk := runs_kinds I a e w e1 w1 o1 h1
    have h0 : kinds e = [] := by simp only [kinds, hst, List.map_nil]
    rw [h0] at hk
    rw [openArrays, ← hk]
    exact slotsFrom_length _ _
  · rcases m.slots p hp with h | h
    · rw [slots_begins hst] at h; cases h
    · exact h
  · obtain ⟨k2, m2⟩ := runs_fine I b e1 w1 e2 w2 o2 h2
    exact ⟨m2.idx, k2⟩

-- An array of arrays is open: only the two lengths, at 4 and 8, change when it is closed.
example : demo "(qaau)" [.structure, .u16 7, .array, .array, .u32 5, .u16 1] [.u32 6, .close, .close, .close, .commit] 16
    = some (16, 2, [7, 0, 0, 0, 0, 0, 0, 0, 0, 0, 0, 0, 5, 0, 0, 0].map some, [7, 0, 0, 0, 12, 0, 0, 0, 8, 0, 0, 0, 5, 0, 0, 0].map some) := by decide +kernel

/-- While no array is open, all that is written is final: it can be sent already. -/
theorem none_open_final (I : WriteImpl σ) {e e1 e2 : Enc} {w w1 w2 : Writer σ} {a b : List Op} {o1 o2 : List Out} (hb : Begins e)
    (h1 : Op.runs I a e w = some (e1, w1, o1)) (hn : openArrays a o1 = 0) (h2 : Op.runs I b e1 w1 = some (e2, w2, o2)) :
    ∀ j, j < e1.level.idx → w2.mem j = w1.mem j := by
  obtain ⟨places, hl, _, _, h⟩ := written_final I hb h1
  rw [hn] at hl
  have : places = [] := List.length_eq_zero_iff.mp hl
  subst this
  intro j hj
  exact (h b e2 w2 o2 h2).2 j hj nofun

-- The first of two values: it stays although an array, in a sub-encoder, comes behind it.
example : demo "(uau)" [.structure, .u32 7] [.sub none [.array, .u32 1, .close, .commit], .close, .commit] 4
    = some (4, 0, [7, 0, 0, 0].map some, [7, 0, 0, 0].map some) := by decide +kernel

/-- A commit that is accepted has no array open, so that what was committed never changes. -/
theorem committed_final (I : WriteImpl σ) {e e1 e2 : Enc} {w w1 w2 : Writer σ} {a b : List Op} {o1 o2 : List Out} (hb : Begins e)
    (h1 : Op.runs I (a ++ [.commit]) e w = some (e1, w1, o1)) (hc : o1.getLast? = some (.res .ok)) (h2 : Op.runs I b e1 w1 = some (e2, w2, o2)) :
    openArrays (a ++ [.commit]) o1 = 0 ∧ ∀ j, j < e1.level.idx → w2.mem j = w1.mem j := by
  have hk := runs_kinds I _ e w e1 w1 o1 h1
  have h0 : kinds e = [] := by simp only [kinds, begins_stack hb, List.map_nil]
  rw [h0] at hk
  have hs := committed_stack I a e w e1 w1 o1 h1 hc
  have hz : openArrays (a ++ [.commit]) o1 = 0 := by
    rw [openArrays, ← hk]
    simp only [kinds, hs, List.map_nil, List.count_nil]
  exact ⟨hz, none_open_final I hb h1 hz h2⟩

-- A commit, and calls behind it that are refused.
example : demo "au" [.array, .u32 7, .close, .commit] [.u32 1, .array, .commit] 8
    = some (8, 0, [4, 0, 0, 0, 7, 0, 0, 0].map some, [4, 0, 0, 0, 7, 0, 0, 0].map some) := by decide +kernel
example : (do
    let e ← Enc.with_ (sg "au") false
    let (_, _, o) ← Op.runs vecWrite [.array, .u32 7, .close, .commit] e (vecOf [])
    some (match o.getLast? with | some (.res .ok) => true | _ => false)) = some true := by decide +kernel

/-- What was in front of the encoder when it began is never touched, whether it is that of another encoder or not. -/
theorem front_final (I : WriteImpl σ) {e e1 : Enc} {w w1 : Writer σ} {a : List Op} {o1 : List Out} (hb : Begins e)
    (h1 : Op.runs I a e w = some (e1, w1, o1)) : e.level.idx ≤ e1.level.idx ∧ ∀ j, j < e.level.idx → w1.mem j = w.mem j := by
  obtain ⟨k, m⟩ := runs_fine I a e w e1 w1 o1 h1
  exact ⟨m.idx, fun j hj => k j hj (by rw [slots_begins (begins_stack hb)]; nofun)⟩

-- A sub-encoder begins where its parent is.
example : (do
    let e ← Enc.with_ (sg "(uau)") false
    let (e1, w1, _) ← Op.runs vecWrite [.structure, .u32 7] e (vecOf [])
    let x ← e1.sub.bind id
    let (x1, w2, _) ← Op.runs vecWrite [.array, .u32 1] x w1
    some (x.level.idx, x1.level.idx, (List.range 4).map w2.mem)) = some (4, 12, [7, 0, 0, 0].map some) := by decide +kernel

end Verif.Dbus.Final
