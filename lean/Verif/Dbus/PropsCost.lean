import Verif.Dbus.LemmasCost
import Verif.Dbus.LemmasCost3
import Verif.Dbus.LemmasCost4
/-! # Properties: the time that signatures, encoders and decoders take -/
namespace Verif.Dbus
open Verif.Io
variable {σ : Type}

/-! ## Signatures -/

/-- C99. Parsing takes at most two turns of its loops for each byte, whatever the bytes are. -/
theorem signature_time (bs : List UInt8) : (Sig.newT bs).1 = Sig.new bs ∧ (Sig.newT bs).2 ≤ 2 * bs.length := ⟨new_fst bs, new_time bs⟩

/-- The bound is close: all arrays are left at the end. -/
example : (Sig.newT (sb "aaaaaaaaau")).2 = 10 + 9 := by decide +kernel

/-! ## Encoders -/

/-- C99. Counting does not change what an encoder does. -/
theorem encoding_same (I : WriteImpl σ) (ops : List Op) (e : Enc) (w : Writer (σ × Tally)) :
    (Op.runs (countWrites I) ops e w).map (fun x => (x.1, ⟨x.2.1.st.1, x.2.1.mem⟩, x.2.2)) = Op.runs I ops e ⟨w.st.1, w.mem⟩ := bare_runs ops e w

/-- C99. Whatever is called on an encoder, and however the writer behaves: a call copies the data that it is given and at most 15 bytes in addition,
and maps the buffer once for each byte at most, and once more. -/
theorem encoding_time (I : WriteImpl σ) (ops : List Op) {e e' : Enc} {w w' : Writer (σ × Tally)} {os : List Out}
    (h : Op.runs (countWrites I) ops e w = some (e', w', os)) :
    w'.st.2.bytes ≤ w.st.2.bytes + (Op.payloads ops + 15 * Op.counts ops)
      ∧ w'.st.2.calls + w.st.2.bytes ≤ w.st.2.calls + w'.st.2.bytes + Op.counts ops := runs_cost ops e e' w w' os h

/-- C99. If all calls are accepted and everything is committed, also in sub-encoders, at most twice as many bytes are copied as are committed. The
buffer is mapped no more often. -/
theorem encoding_linear (I : WriteImpl σ) (ops : List Op) {s : Sig} {be : Bool} {e e' : Enc} {st : σ} {m : Mem} {w' : Writer (σ × Tally)} {os : List Out}
    (he : Enc.with_ s be = some e) (h : Op.runs (countWrites I) ops e ⟨(st, .zero), m⟩ = some (e', w', os)) (hc : Op.complete ops = true)
    (ho : Out.fines os = true) : w'.st.2.bytes ≤ 2 * w'.st.2.committed ∧ w'.st.2.calls ≤ w'.st.2.bytes := by
  simp only [Enc.with_, Option.bind_eq_bind, Option.bind_eq_some_iff] at he
  obtain ⟨c, -, he⟩ := he
  cases he
  obtain ⟨h1, h2, h3, -⟩ := runs_whole ops _ _ _ _ _ h hc ho
  have h3 := h3 rfl rfl
  simp only [open_, Tally.zero] at h1 h2 h3
  exact ⟨by omega, by omega⟩

/-- Lengths of arrays are written twice: 36 bytes for 20. -/
example : tallyTo false "aaaau" [.array, .array, .array, .array, .u32 7, .close, .close, .close, .close, .commit] = some ⟨9, 36, 20⟩ := by decide +kernel

/-- A sub-encoder. -/
example : (do
    let e ← Enc.with_ (sg "(uas)") false
    let x ← Op.runs (countWrites vecWrite)
      [.structure, .u32 7, .sub none [.array, .string (sb "foo"), .close, .commit], .close, .commit] e ⟨(0, .zero), fun _ => none⟩
    some (x.2.1.st.2, Out.fines x.2.2)) = some (⟨6, 20, 16⟩, true) := by decide +kernel
example : Op.complete [.structure, .u32 7, .sub none [.array, .string (sb "foo"), .close, .commit], .close, .commit] = true := by decide +kernel

/-! ## Decoders -/

/-- C99. Counting does not change what a decoder does. -/
theorem decoding_same (I : ReadImpl σ) (l : List Ask) (d : Dec) (st : σ × Tally) :
    (Ask.runs (countReads I) l d st).map (fun x => (x.1, x.2.1.1, x.2.2)) = Ask.runs I l d st.1 := plain_runs l d st

/-- C99. Whatever is called on a decoder, and whatever the data is: a call copies no more bytes than there are, and maps the data once for each byte
at most, and once more. -/
theorem decoding_time {I : ReadImpl σ} {data : List UInt8} (hI : Linear I data) (l : List Ask) {d d' : Dec} {st st' : σ × Tally} {rs : List Ans}
    (h : Ask.runs (countReads I) l d st = some (d', st', rs)) :
    st'.2.bytes ≤ st.2.bytes + Ask.counts l * data.length ∧ st'.2.calls + st.2.bytes ≤ st.2.calls + st'.2.bytes + Ask.counts l :=
  asks_cost hI l d d' st st' rs h

/-- C99. If all sub-decoders are committed, all calls together copy no byte more than once; only calls that are refused may have copied up to all of the
data in vain. -/
theorem decoding_linear {I : ReadImpl σ} {data : List UInt8} (hI : Linear I data) (l : List Ask) {d d' : Dec} {st : σ}
    {st' : σ × Tally} {rs : List Ans} (h : Ask.runs (countReads I) l d (st, .zero) = some (d', st', rs))
    (ht : ∀ x ∈ l, x.tidy = true) : st'.2.bytes ≤ (1 + Ans.refused rs) * data.length := by
  obtain ⟨-, h⟩ := asks_pays hI l _ _ _ _ _ h ht
  simp only [Tally.zero] at h
  rw [Nat.add_mul]
  omega

example : tallyFrom false "as" [16, 0, 0, 0, 3, 0, 0, 0, 102, 111, 111, 0, 3, 0, 0, 0, 98, 97, 114, 0]
  [.array, .string, .string, .close, .commit] = some ⟨5, 18, 0⟩ := by decide +kernel

/-! ## Calls start over -/

/-- A reader for a stream of which one more byte arrives whenever it has nothing to offer. -/
def slow (data : List UInt8) : ReadImpl Nat where
  map st idx len := if idx < st ∧ idx < data.length then (st, .cont ((data.drop idx).take (min len (st - idx)))) else (st + 1, .brk none)

theorem slow_linear (data : List UInt8) (h : data.length ≤ usizeMax) : Linear (slow data) data where
  size := h
  map := by
    intro st idx len hl
    simp only [slow]
    split
    · rename_i heq
      split at heq
      · cases heq
        refine ⟨fun hn => ?_, List.take_prefix _ _⟩
        have := congrArg List.length hn
        simp at this
        omega
      · cases heq
    · trivial
    · rename_i heq
      split at heq <;> cases heq

/-- A string of `n` characters. -/
def stringOf (n : Nat) : List UInt8 := enNum false 4 n ++ List.replicate n 97

theorem stringOf_length (n : Nat) : (stringOf n).length = 4 + n := by
  unfold stringOf
  rw [List.length_append, enNum_len, List.length_replicate]

theorem cost_leNat_leBytes : ∀ (w v : Nat), v < 256 ^ w → leNat (leBytes w v) = v
  | 0, v, h => by simp at h; rw [h]; rfl
  | w + 1, v, h => by
    rw [leBytes, leNat, cost_leNat_leBytes w (v / 256) (by rw [Nat.pow_succ] at h; omega), UInt8.toNat_ofNat']
    omega

/-- Reading the length. -/
theorem slow_head (n i : Nat) (t : Tally) : read (countReads (slow (stringOf n))) (4 + i, t) 0 4
    = ⟨(4 + i, { t with calls := t.calls + 1, bytes := t.bytes + 4 }), 4, enNum false 4 n, .cont ()⟩ := by
  have hl := stringOf_length n
  have hm : (slow (stringOf n)).map (4 + i) 0 4 = (4 + i, .cont (enNum false 4 n)) := by
    simp only [slow]
    rw [if_pos ⟨by omega, by omega⟩, List.drop_zero, show min 4 (4 + i - 0) = 4 by omega]
    rw [stringOf, List.take_left' (enNum_len ..)]
  have hn : (enNum false 4 n).length = 4 := enNum_len ..
  unfold Io.read readLoop
  rw [if_pos (by decide)]
  simp only [count_read hm]
  rw [if_pos (by omega), hn, if_pos (by decide)]
  unfold readLoop
  rw [if_neg (by decide)]
  simp only [gave, hn, List.nil_append, Nat.min_self, Nat.zero_add]
  rw [List.take_of_length_le (by omega)]

/-- Reading the characters. -/
theorem slow_body (n i : Nat) (hi : i < n) (hn : n < 2 ^ 32) (t : Tally) : ∃ t' : Tally, ∃ idx out,
    read (countReads (slow (stringOf n))) (4 + i, t) 4 n = ⟨(4 + (i + 1), t'), idx, out, .brk none⟩ ∧ t'.bytes = t.bytes + i := by
  have hl := stringOf_length n
  have stop : ∀ (k : Nat), (slow (stringOf n)).map (4 + i) (4 + i) k = (4 + (i + 1), .brk none) := by
    intro k
    simp only [slow]
    rw [if_neg (by omega)]
    rfl
  unfold Io.read
  obtain ⟨m, rfl⟩ : ∃ m, n = m + 1 := ⟨n - 1, by omega⟩
  unfold readLoop
  rw [if_pos (by omega)]
  cases i with
  | zero =>
    simp only [count_read (stop (m + 1))]
    exact ⟨_, _, _, rfl, rfl⟩
  | succ i =>
    have hm : ∃ x, (slow (stringOf (m + 1))).map (4 + (i + 1)) 4 (m + 1) = (4 + (i + 1), .cont x) ∧ x.length = i + 1 := by
      simp only [slow]
      rw [if_pos ⟨by omega, by omega⟩]
      refine ⟨_, rfl, ?_⟩
      rw [List.length_take, List.length_drop, hl]
      omega
    obtain ⟨x, hm, hx⟩ := hm
    simp only [count_read hm]
    have hmin : min x.length (m + 1) = i + 1 := by omega
    rw [if_pos (by omega), hmin, if_pos (by unfold usizeMax; omega)]
    obtain ⟨k, rfl⟩ : ∃ k, m = k + 1 := ⟨m - 1, by omega⟩
    unfold readLoop
    rw [if_pos (by omega)]
    simp only [count_read (stop _)]
    exact ⟨_, _, _, rfl, by simp only [gave, hmin]; omega⟩

/-- One attempt. -/
theorem slow_call {n i : Nat} (hi : i < n) (hn : n < 2 ^ 32) {d : Dec} (h1 : d.cursor.element = some (some .string)) (h2 : d.level.idx = 0)
    (h3 : d.be = false) (t : Tally) : ∃ t' : Tally, Ask.run (countReads (slow (stringOf n))) .string d (4 + i, t)
      = some (d, (4 + (i + 1), t'), .brk none) ∧ t'.bytes = t.bytes + (4 + i) := by
  obtain ⟨t', idx, out, h4, h5⟩ := slow_body n i hi hn { t with calls := t.calls + 1, bytes := t.bytes + 4 }
  refine ⟨t', ?_, by rw [h5]; simp only []; omega⟩
  show d.str32 _ _ _ = _
  unfold Dec.str32 Dec.expect
  rw [h1]
  simp only [ne_eq, not_true_eq_false, if_false]
  unfold Dec.align
  rw [h2, show shl1 Element.u32.dvarExp = some 4 by rfl]
  simp only []
  rw [show checkedNextMultipleOf 0 4 = some 0 by rfl]
  simp only []
  rw [slow_head]
  simp only [Dec.io, Dec.text]
  have hde : deNum d.be (enNum false 4 n) = n := by
    rw [h3]
    exact cost_leNat_leBytes 4 n (by omega)
  rw [hde, h4]
  rfl

/-- C99, a remark. Calls start over: if a string arrives byte by byte and the call is repeated whenever more has arrived, all of it is copied anew each
time, about n²/2 bytes for a string of n. -/
theorem retries_add_up (n : Nat) (hn : n < 2 ^ 32) {d : Dec} (hd : Dec.with_ (sg "s") false = some d) :
    ∃ st' : Nat × Tally, Ask.runs (countReads (slow (stringOf n))) (List.replicate n .string) d (4, .zero)
      = some (d, st', List.replicate n (.brk none)) ∧ 2 * st'.2.bytes = n * (n + 7) := by
  have hd' : d.cursor.element = some (some .string) ∧ d.level.idx = 0 ∧ d.be = false := by
    have : (Dec.with_ (sg "s") false).map (fun d => (d.cursor.element, d.level.idx, d.be)) = some (some (some .string), 0, false) := by
      decide +kernel
    rw [hd] at this
    simpa using this
  obtain ⟨h1, h2, h3⟩ := hd'
  have key : ∀ k i t, i + k = n → ∃ st' : Nat × Tally, Ask.runs (countReads (slow (stringOf n))) (List.replicate k .string) d (4 + i, t)
      = some (d, st', List.replicate k (.brk none)) ∧ 2 * st'.2.bytes + i * (i + 7) = 2 * t.bytes + n * (n + 7) := by
    intro k
    induction k with
    | zero => intro i t hi; exact ⟨(4 + i, t), rfl, by rw [← hi]; rfl⟩
    | succ k ih =>
      intro i t hi
      obtain ⟨t', hr, hb⟩ := slow_call (i := i) (by omega) hn h1 h2 h3 t
      obtain ⟨st', hrs, hbs⟩ := ih (i + 1) t' (by omega)
      refine ⟨st', ?_, ?_⟩
      · rw [List.replicate_succ, List.replicate_succ, Ask.runs, hr]
        simp only []
        rw [hrs]
      · have : (i + 1) * (i + 1 + 7) = i * (i + 7) + 2 * (4 + i) := by grind
        omega
  obtain ⟨st', h4, h5⟩ := key n 0 .zero (by omega)
  exact ⟨st', h4, by simpa [Tally.zero] using h5⟩

example : ∃ d, Dec.with_ (sg "s") false = some d := ⟨_, rfl⟩
example : stringOf 3 = [3, 0, 0, 0, 97, 97, 97] := by decide +kernel

end Verif.Dbus
