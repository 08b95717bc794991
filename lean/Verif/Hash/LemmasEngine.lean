import Verif.Hash.LemmasRound
/-! # The streaming engine: reduction to byte-wise pushes and the representation invariant -/
namespace Verif.Hash

/-! ## Byte-wise view -/

/-- Storing a single byte. -/
def Engine.pushByte (e : Engine) (b : Byte) : Option Engine := e.store [b]

/-- Internal consistency needed for the loops to make progress. -/
structure Engine.WF (e : Engine) : Prop where
  chunk_len : e.chunk.length = 64
  rem_pos : 0 < e.remaining
  rem_le : e.remaining ≤ 64

/-- `sha256_round` on a list known to have 64 elements. -/
def roundL (chunk : List Byte) (hash : Vector Word 8) : Vector Word 8 :=
  if h : chunk.length = 64 then sha256_round ⟨chunk.toArray, by simpa using h⟩ hash else hash

/-- Overwriting `src.length` bytes at `idx`. -/
def splice (chunk : List Byte) (idx : Nat) (src : List Byte) : List Byte :=
  chunk.take idx ++ src ++ chunk.drop (idx + src.length)

theorem splice_length (chunk : List Byte) (idx : Nat) (src : List Byte)
    (h : idx + src.length ≤ chunk.length) : (splice chunk idx src).length = chunk.length := by
  simp [splice]; omega

theorem splice_cons (chunk : List Byte) (idx : Nat) (x : Byte) (xs : List Byte)
    (h : idx + (xs.length + 1) ≤ chunk.length) :
    splice chunk idx (x :: xs) = splice (splice chunk idx [x]) (idx + 1) xs := by
  have ht1 : (chunk.take idx ++ [x]).length = idx + 1 := by simp; omega
  have hd : (chunk.take idx ++ [x] ++ chunk.drop (idx + 1)).drop (idx + 1 + xs.length)
      = chunk.drop (idx + (xs.length + 1)) := by
    rw [List.drop_append, List.drop_eq_nil_of_le (by rw [ht1]; omega), ht1, List.drop_drop,
      List.nil_append]
    congr 1; omega
  simp only [splice, List.length_cons, List.length_nil, Nat.zero_add]
  rw [List.take_left' ht1, hd]
  simp

/-- `store` on a consistent engine. -/
theorem store_eq (e : Engine) (hw : e.WF) (src : List Byte) (hl : src.length ≤ e.remaining) :
    e.store src =
      if e.total + src.length < 2 ^ 64 then
        if e.remaining - src.length = 0 then
          some { hash := roundL (splice e.chunk (64 - e.remaining) src) e.hash,
                 chunk := splice e.chunk (64 - e.remaining) src,
                 remaining := 64, total := e.total + src.length }
        else
          some { hash := e.hash, chunk := splice e.chunk (64 - e.remaining) src,
                 remaining := e.remaining - src.length, total := e.total + src.length }
      else none := by
  obtain ⟨h1, h2, h3⟩ := hw
  have hlen := splice_length e.chunk (64 - e.remaining) src (by omega)
  simp only [Engine.store, copy_at, h1, Option.bind_eq_bind, guard, Option.pure_def]
  rw [if_pos h3, if_pos (by omega), if_pos hl]
  simp only [Option.bind_some]
  by_cases ht : e.total + src.length < 2 ^ 64
  · rw [if_pos ht, if_pos ht]
    simp only [Option.bind_some]
    by_cases hz : e.remaining - src.length = 0
    · rw [if_pos hz, if_pos hz]
      have hlen' : (List.take (64 - e.remaining) e.chunk ++ src
        ++ List.drop (64 - e.remaining + src.length) e.chunk).length = 64 := by
        have := hlen; rw [h1] at this; exact this
      rw [dif_pos hlen']
      have hr : roundL (splice e.chunk (64 - e.remaining) src) e.hash
          = sha256_round ⟨(splice e.chunk (64 - e.remaining) src).toArray, by simp [hlen, h1]⟩
            e.hash := by
        unfold roundL; exact dif_pos (by rw [hlen, h1])
      rw [hr]
      simp only [hlen', splice]
    · rw [if_neg hz, if_neg hz]; rfl
  · rw [if_neg ht, if_neg ht]; rfl

theorem store_some_wf {e e' : Engine} {src : List Byte} (hw : e.WF) (hl : src.length ≤ e.remaining)
    (h : e.store src = some e') : e'.WF := by
  rw [store_eq e hw src hl] at h
  obtain ⟨h1, h2, h3⟩ := hw
  have hlen := splice_length e.chunk (64 - e.remaining) src (by omega)
  split at h
  · split at h
    · have := Option.some.inj h; subst this
      exact ⟨by simp only [hlen, h1], by simp, by simp⟩
    · have := Option.some.inj h; subst this
      exact ⟨by simp only [hlen, h1], by simp only []; omega, by simp only []; omega⟩
  · simp at h

theorem pushByte_wf {e e' : Engine} {b : Byte} (hw : e.WF) (h : e.pushByte b = some e') : e'.WF :=
  store_some_wf (src := [b]) hw hw.rem_pos h

theorem store_cons (e : Engine) (hw : e.WF) (x : Byte) (xs : List Byte) (hx : xs ≠ [])
    (hl : (x :: xs).length ≤ e.remaining) :
    e.store (x :: xs) = (e.pushByte x).bind (fun e' => e'.store xs) := by
  have hxs : 0 < xs.length := List.length_pos_iff.mpr hx
  rw [store_eq e hw _ hl, Engine.pushByte, store_eq e hw [x] (by simp at hl ⊢; omega)]
  simp only [List.length_cons, List.length_nil] at hl ⊢
  rw [if_neg (by omega : ¬ e.remaining - (0 + 1) = 0)]
  have h1 := hw.chunk_len
  have h3 := hw.rem_le
  by_cases ht2 : e.total + (0 + 1) < 2 ^ 64
  · rw [if_pos ht2]
    simp only [Option.bind_some]
    have hlen := splice_length e.chunk (64 - e.remaining) [x] (by simp; omega)
    rw [store_eq _ ⟨by simp only [hlen, h1], by simp only []; omega, by simp only []; omega⟩ _
      (by simp only []; omega)]
    have hR : e.remaining - (xs.length + 1) = e.remaining - (0 + 1) - xs.length := by omega
    have hT : e.total + (xs.length + 1) = e.total + (0 + 1) + xs.length := by omega
    have hI : 64 - (e.remaining - (0 + 1)) = 64 - e.remaining + 1 := by omega
    simp only [hR, hT, hI]
    rw [splice_cons _ _ _ _ (by omega)]
  · rw [if_neg ht2, if_neg (by omega)]; rfl

theorem store_foldlM (e : Engine) (hw : e.WF) (src : List Byte) (hx : src ≠ [])
    (hl : src.length ≤ e.remaining) : e.store src = src.foldlM Engine.pushByte e := by
  induction src generalizing e with
  | nil => exact absurd rfl hx
  | cons x xs ih =>
    by_cases hxs : xs = []
    · subst hxs; simp [Engine.pushByte]
    · rw [store_cons e hw x xs hxs hl, List.foldlM_cons]
      have hxs' : 0 < xs.length := List.length_pos_iff.mpr hxs
      simp only [List.length_cons] at hl
      cases hp : e.pushByte x with
      | none => rfl
      | some e' =>
        have hw' := pushByte_wf hw hp
        have hr : e'.remaining = e.remaining - 1 := by
          have := hp
          rw [Engine.pushByte, store_eq e hw [x] (by simp; omega)] at this
          simp only [List.length_cons, List.length_nil] at this
          rw [if_neg (by omega : ¬ e.remaining - (0 + 1) = 0)] at this
          split at this
          · simp at this; subst this; rfl
          · simp at this
        exact ih e' hw' hxs (by omega)

theorem foldlM_wf (e e' : Engine) (hw : e.WF) (src : List Byte)
    (h : src.foldlM Engine.pushByte e = some e') : e'.WF := by
  induction src generalizing e with
  | nil => simp at h; subst h; exact hw
  | cons x xs ih =>
    rw [List.foldlM_cons] at h
    cases hp : e.pushByte x with
    | none => rw [hp] at h; simp at h
    | some e1 =>
      rw [hp] at h
      exact ih e1 (pushByte_wf hw hp) h

/-- `push` is the byte-wise push of its data. -/
theorem push_foldlM (e : Engine) (hw : e.WF) (data : List Byte) :
    e.push data = data.foldlM Engine.pushByte e := by
  induction hn : data.length using Nat.strongRecOn generalizing e data with
  | ind n ih =>
    rw [Engine.push]
    by_cases hd : data = []
    · subst hd; simp
    · have hd' : 0 < data.length := List.length_pos_iff.mpr hd
      have hp := hw.rem_pos
      rw [if_neg (by simpa using hd)]
      simp only []
      rw [dif_neg (by omega)]
      have h1 : data.take (min e.remaining data.length) ≠ [] := by
        rw [← List.length_pos_iff]; simp; omega
      rw [store_foldlM e hw _ h1 (by simp; omega)]
      conv => rhs; rw [← List.take_append_drop (min e.remaining data.length) data, List.foldlM_append]
      cases hs : (data.take (min e.remaining data.length)).foldlM Engine.pushByte e with
      | none => rfl
      | some e' =>
        simp only [Option.bind_eq_bind, Option.bind_some]
        exact ih _ (by simp; omega) e' (foldlM_wf _ _ hw _ hs) _ rfl

/-- `push_zero` is the byte-wise push of zeros. -/
theorem push_zero_foldlM (e : Engine) (hw : e.WF) (n : Nat) :
    e.push_zero n = (List.replicate n (0 : Byte)).foldlM Engine.pushByte e := by
  induction n using Nat.strongRecOn generalizing e with
  | ind n ih =>
    rw [Engine.push_zero]
    by_cases hd : n = 0
    · subst hd; simp
    · have hp := hw.rem_pos
      rw [if_neg hd]
      simp only []
      rw [dif_neg (by omega)]
      have h1 : List.replicate (min e.remaining n) (0 : Byte) ≠ [] := by
        rw [← List.length_pos_iff]; simp; omega
      rw [store_foldlM e hw _ h1 (by simp; omega)]
      have hsplit : List.replicate n (0 : Byte)
          = List.replicate (min e.remaining n) 0 ++ List.replicate (n - min e.remaining n) 0 := by
        rw [List.replicate_append_replicate]; congr 1; omega
      conv => rhs; rw [hsplit, List.foldlM_append]
      cases hs : (List.replicate (min e.remaining n) (0 : Byte)).foldlM Engine.pushByte e with
      | none => rfl
      | some e' =>
        simp only [Option.bind_eq_bind, Option.bind_some]
        exact ih _ (by omega) e' (foldlM_wf _ _ hw _ hs)

/-! ## Blocks -/

theorem digestBlocks_lt (H : Spec.Vars) (m : List Byte) (h : m.length < 64) :
    Spec.digestBlocks H m = H := by
  rw [Spec.digestBlocks, dif_pos h]

theorem digestBlocks_append (H : Spec.Vars) (m1 m2 : List Byte) (h : m1.length % 64 = 0) :
    Spec.digestBlocks H (m1 ++ m2) = Spec.digestBlocks (Spec.digestBlocks H m1) m2 := by
  induction hn : m1.length using Nat.strongRecOn generalizing H m1 with
  | ind n ih =>
    by_cases h0 : m1.length < 64
    · have : m1 = [] := List.length_eq_zero_iff.mp (by omega)
      subst this
      rw [digestBlocks_lt H [] (by simp)]; rfl
    · have hge : 64 ≤ m1.length := by omega
      rw [Spec.digestBlocks, dif_neg (by simp; omega), List.take_append_of_le_length hge,
        List.drop_append_of_le_length hge]
      rw [ih (m1.drop 64).length (by simp; omega) _ (m1.drop 64) (by simp; omega) rfl]
      conv => rhs; arg 1; rw [Spec.digestBlocks, dif_neg h0]

theorem digestBlocks_tail (H : Spec.Vars) (m : List Byte) :
    Spec.digestBlocks H m = Spec.digestBlocks H (m.take (64 * (m.length / 64))) := by
  conv => lhs; rw [← List.take_append_drop (64 * (m.length / 64)) m]
  rw [digestBlocks_append _ _ _ (by simp; omega), digestBlocks_lt _ (m.drop _) (by simp; omega)]

theorem digestBlocks_one (H : Spec.Vars) (m : List Byte) (h : m.length = 64) :
    Spec.digestBlocks H m = Spec.compress H m := by
  rw [Spec.digestBlocks, dif_neg (by omega), List.take_of_length_le (by omega),
    List.drop_eq_nil_of_le (by omega), digestBlocks_lt _ _ (by simp)]

/-! ## Representation invariant -/

/-- `e` has absorbed exactly the bytes `m` (`total` is separate, since the padding also counts). -/
structure Rep (e : Engine) (m : List Byte) : Prop where
  chunk_len : e.chunk.length = 64
  rem : e.remaining = 64 - m.length % 64
  hash : toVars e.hash = Spec.digestBlocks Spec.H0 m
  tail : e.chunk.take (m.length % 64) = m.drop (64 * (m.length / 64))

theorem Rep.wf {e : Engine} {m : List Byte} (h : Rep e m) : e.WF :=
  ⟨h.chunk_len, by have := h.rem; omega, by have := h.rem; omega⟩

theorem rep_default : Rep Engine.default [] :=
  ⟨rfl, rfl, by rw [digestBlocks_lt _ _ (by simp)]; exact H_eq, rfl⟩

theorem take_drop_snoc (m : List Byte) (b : Byte) (k : Nat) (h : k ≤ m.length) :
    (m ++ [b]).drop k = m.drop k ++ [b] := by
  rw [List.drop_append_of_le_length h]

theorem rep_pushByte (e : Engine) (m : List Byte) (b : Byte) (h : Rep e m)
    (ht : e.total + 1 < 2 ^ 64) :
    ∃ e', e.pushByte b = some e' ∧ Rep e' (m ++ [b]) ∧ e'.total = e.total + 1 := by
  have hw := h.wf
  obtain ⟨hc, hr, hh, htl⟩ := h
  have hq := Nat.div_add_mod m.length 64
  have hlt := Nat.mod_lt m.length (by decide : 0 < 64)
  have hlen := splice_length e.chunk (64 - e.remaining) [b] (by simp; omega)
  rw [hc] at hlen
  rw [Engine.pushByte, store_eq e hw [b] (by simp; omega)]
  simp only [List.length_cons, List.length_nil]
  rw [if_pos (by omega)]
  have hidx : 64 - e.remaining = m.length % 64 := by omega
  by_cases hz : e.remaining - (0 + 1) = 0
  · rw [if_pos hz]
    refine ⟨_, rfl, ?_, rfl⟩
    have hfull : (m ++ [b]).length = 64 * (m.length / 64 + 1) := by simp; omega
    have hchunk : splice e.chunk (64 - e.remaining) [b] = m.drop (64 * (m.length / 64)) ++ [b] := by
      rw [splice, hidx, htl]
      rw [List.drop_eq_nil_of_le (as := e.chunk) (by simp; omega), List.append_nil]
    refine ⟨hlen, ?_, ?_, ?_⟩
    · simp only [hfull]; omega
    · simp only [roundL]
      rw [dif_pos hlen, round_eq, hh]
      have e1 : m ++ [b] = m.take (64 * (m.length / 64)) ++ (m.drop (64 * (m.length / 64)) ++ [b]) := by
        rw [← List.append_assoc, List.take_append_drop]
      conv => rhs; rw [e1]
      rw [digestBlocks_append _ _ _ (by simp; omega), digestBlocks_one _ (_ ++ _) (by simp; omega),
        ← digestBlocks_tail]
      congr 1
    · rw [hfull]
      simp only [Nat.mul_mod_right, List.take_zero]
      symm
      apply List.drop_eq_nil_of_le
      rw [hfull]; omega
  · rw [if_neg hz]
    refine ⟨_, rfl, ?_, rfl⟩
    have hdiv : (m ++ [b]).length / 64 = m.length / 64 := by simp; omega
    have hmod : (m ++ [b]).length % 64 = m.length % 64 + 1 := by simp; omega
    refine ⟨hlen, ?_, ?_, ?_⟩
    · simp only [hmod]; omega
    · show toVars e.hash = _
      rw [hh, digestBlocks_tail _ (m ++ [b]), digestBlocks_tail _ m, hdiv,
        List.take_append_of_le_length (by omega)]
    · rw [hmod, hdiv, List.drop_append_of_le_length (by omega), ← htl, hidx]
      have : (List.take (m.length % 64) e.chunk ++ [b]).length = m.length % 64 + 1 := by
        simp [hc]; omega
      simp only [splice]
      rw [List.take_left' this]

theorem pushByte_overflow (e : Engine) (hw : e.WF) (b : Byte) (h : 2 ^ 64 ≤ e.total + 1) :
    e.pushByte b = none := by
  rw [Engine.pushByte, store_eq e hw [b] hw.rem_pos, if_neg (by simp; omega)]

theorem rep_foldlM (e : Engine) (m data : List Byte) (h : Rep e m)
    (ht : e.total + data.length < 2 ^ 64) :
    ∃ e', data.foldlM Engine.pushByte e = some e' ∧ Rep e' (m ++ data) ∧
      e'.total = e.total + data.length := by
  induction data generalizing e m with
  | nil => exact ⟨e, rfl, by simpa using h, rfl⟩
  | cons x xs ih =>
    simp only [List.length_cons] at ht
    obtain ⟨e1, h1, h2, h3⟩ := rep_pushByte e m x h (by omega)
    obtain ⟨e2, h4, h5, h6⟩ := ih e1 (m ++ [x]) h2 (by omega)
    refine ⟨e2, ?_, by simpa using h5, by simp only [List.length_cons]; omega⟩
    rw [List.foldlM_cons, h1]; exact h4

theorem rep_foldlM_overflow (e : Engine) (m data : List Byte) (h : Rep e m) (hd : e.total < 2 ^ 64)
    (ht : 2 ^ 64 ≤ e.total + data.length) : data.foldlM Engine.pushByte e = none := by
  induction data generalizing e m with
  | nil => simp at ht; omega
  | cons x xs ih =>
    simp only [List.length_cons] at ht
    rw [List.foldlM_cons]
    by_cases hov : e.total + 1 < 2 ^ 64
    · obtain ⟨e1, h1, h2, h3⟩ := rep_pushByte e m x h hov
      rw [h1]
      exact ih e1 (m ++ [x]) h2 (by omega) (by omega)
    · rw [pushByte_overflow _ h.wf _ (by omega)]; rfl

/-! ## Bytes of words -/

theorem ofNat_div_eq_extract {w : Nat} (x : BitVec w) (k : Nat) :
    x.extractLsb' (8 * k) 8 = BitVec.ofNat 8 (x.toNat / 256 ^ k) := by
  apply BitVec.eq_of_toNat_eq
  rw [BitVec.extractLsb'_toNat, Nat.shiftRight_eq_div_pow, BitVec.toNat_ofNat, Nat.pow_mul]

theorem to_be_bytes32_eq (w : Word) : to_be_bytes32 w = Spec.be32 w := by
  have h := ofNat_div_eq_extract w
  have h3 := h 3; have h2 := h 2; have h1 := h 1; have h0 := h 0
  simp only [to_be_bytes32, Spec.be32]
  simp only [Nat.reduceMul] at h3 h2 h1 h0
  rw [h3, h2, h1, h0]; rfl

theorem to_be_bytes64_eq (n : Nat) (h : n < 2 ^ 64) :
    to_be_bytes64 (BitVec.ofNat 64 n) = Spec.be64 n := by
  have h := ofNat_div_eq_extract (BitVec.ofNat 64 n)
  have h7 := h 7; have h6 := h 6; have h5 := h 5; have h4 := h 4
  have h3 := h 3; have h2 := h 2; have h1 := h 1; have h0 := h 0
  simp only [to_be_bytes64, Spec.be64]
  simp only [Nat.reduceMul] at h7 h6 h5 h4 h3 h2 h1 h0
  rw [h7, h6, h5, h4, h3, h2, h1, h0]
  have : (BitVec.ofNat 64 n).toNat = n := by simp; omega
  rw [this]; rfl

theorem hash_bytes_eq (v : Vector Word 8) : v.toList.flatMap to_be_bytes32 = (toVars v).bytes := by
  have : v.toList = [v[0], v[1], v[2], v[3], v[4], v[5], v[6], v[7]] := by
    apply List.ext_getElem
    · simp
    · intro i h1 h2
      simp only [Vector.getElem_toList]
      have hi : i < 8 := by simpa using h1
      match i, hi with
      | 0, _ | 1, _ | 2, _ | 3, _ | 4, _ | 5, _ | 6, _ | 7, _ => rfl
  rw [this]
  simp [Spec.Vars.bytes, toVars, to_be_bytes32_eq]

/-! ## Finalization -/

theorem pad_eq (m : List Byte) :
    Spec.pad m = (m ++ [0x80]) ++ List.replicate (Spec.padZeros m.length) 0 ++ Spec.be64 (8 * m.length) :=
  rfl

theorem be64_length (n : Nat) : (Spec.be64 n).length = 8 := by simp [Spec.be64]

/-- Writing the marker byte: as `pushByte`, but not counted in `total`. -/
theorem rep_marker (e : Engine) (m : List Byte) (h : Rep e m) (hm : m.length % 64 ≠ 63) :
    Rep { hash := e.hash, chunk := e.chunk.set (e.chunk.length - e.remaining) 0x80,
          remaining := e.remaining - 1, total := e.total } (m ++ [0x80]) := by
  obtain ⟨hc, hr, hh, htl⟩ := h
  have hq := Nat.div_add_mod m.length 64
  have hlt := Nat.mod_lt m.length (by decide : 0 < 64)
  have hdiv : (m ++ [(0x80 : Byte)]).length / 64 = m.length / 64 := by simp; omega
  have hmod : (m ++ [(0x80 : Byte)]).length % 64 = m.length % 64 + 1 := by simp; omega
  refine ⟨by simpa using hc, ?_, ?_, ?_⟩
  · simp only [hmod]; omega
  · show toVars e.hash = _
    rw [hh, digestBlocks_tail _ (m ++ [0x80]), digestBlocks_tail _ m, hdiv,
      List.take_append_of_le_length (by omega)]
  · rw [hmod, hdiv, List.drop_append_of_le_length (by omega), ← htl]
    have : e.chunk.length - e.remaining = m.length % 64 := by omega
    simp only [this]
    rw [List.take_add_one, List.take_set, List.getElem?_set_self (by omega)]
    rw [List.set_eq_of_length_le (by simp; omega)]
    rfl

/-- What `finalize` digests if `m` was absorbed and the counter is at `t`. -/
def padded (m : List Byte) (t : Nat) : List Byte := m ++ [0x80] ++ List.replicate (Spec.padZeros m.length) 0 ++ Spec.be64 (8 * t)

theorem padded_eq (m : List Byte) : padded m m.length = Spec.pad m := rfl

/-- `finalize` on an engine that absorbed `m`, whatever its counter says. -/
theorem finalize_total (e : Engine) (m : List Byte) (h : Rep e m)
    (hlen : e.total < 2 ^ 61) (hm : m.length % 64 ≠ 63) :
    ∃ e', e.finalize = some ((Spec.digestBlocks Spec.H0 (padded m e.total)).bytes, e') ∧ Rep e' [] ∧ e'.total = 0 := by
  have hmk := rep_marker e m h hm
  have hw := h.wf
  have hrem := h.rem
  have hcl := h.chunk_len
  have hlt := Nat.mod_lt m.length (by decide : 0 < 64)
  -- the state after all the padding
  have hzeros : ∀ (e1 : Engine) (k : Nat), Rep e1 (m ++ [0x80]) → e1.total + k < 2 ^ 64 →
      ∃ e2, e1.push_zero k = some e2 ∧ Rep e2 (m ++ [0x80] ++ List.replicate k 0) ∧
        e2.total = e1.total + k := by
    intro e1 k h1 h2
    rw [push_zero_foldlM e1 h1.wf]
    obtain ⟨e2, a, b, c⟩ := rep_foldlM e1 _ (List.replicate k 0) h1 (by simpa using h2)
    exact ⟨e2, a, b, by simpa using c⟩
  have hlast : ∀ (e3 : Engine) (k : Nat), Rep e3 (m ++ [0x80] ++ List.replicate k 0) →
      k = Spec.padZeros m.length → e3.total + 8 < 2 ^ 64 →
      ∃ e4, e3.push (to_be_bytes64 (BitVec.ofNat 64 (e.total * 8))) = some e4 ∧
        e4.remaining = e4.chunk.length ∧ e4.hash.toList.flatMap to_be_bytes32 = (Spec.digestBlocks Spec.H0 (padded m e.total)).bytes ∧
        e4.chunk.length = 64 := by
    intro e3 k h3 hk htot
    rw [push_foldlM e3 h3.wf, to_be_bytes64_eq _ (by omega)]
    obtain ⟨e4, a, b, c⟩ := rep_foldlM e3 _ (Spec.be64 (e.total * 8)) h3 (by rw [be64_length]; exact htot)
    refine ⟨e4, a, ?_, ?_, b.chunk_len⟩
    · rw [b.rem, b.chunk_len]
      simp only [List.length_append, List.length_cons, List.length_nil, List.length_replicate,
        be64_length]
      simp only [Spec.padZeros] at hk
      omega
    · rw [hash_bytes_eq, b.hash, padded, hk, Nat.mul_comm]
  have hfin : ∀ (e4 : Engine), e4.remaining = e4.chunk.length → e4.chunk.length = 64 →
      Rep { hash := SHA256_H, chunk := e4.chunk, remaining := e4.remaining, total := 0 } [] := by
    intro e4 h1 h2
    exact ⟨h2, by show e4.remaining = 64; omega,
      by rw [digestBlocks_lt _ _ (by simp)]; exact H_eq, by simp⟩
  unfold Engine.finalize
  simp only [Option.bind_eq_bind, guard, Option.pure_def]
  rw [if_pos (by omega)]
  simp only [Option.bind_some]
  rw [if_pos (by omega)]
  simp only [Option.bind_some]
  rw [if_pos (by omega)]
  simp only [Option.bind_some]
  by_cases hsmall : e.remaining - 1 < 8
  · rw [if_pos hsmall]
    obtain ⟨e2, a2, b2, c2⟩ := hzeros _ (e.remaining - 1) hmk (by simp only []; omega)
    rw [a2]
    simp only [Option.bind_some]
    have hr2 : e2.remaining = 64 := by
      rw [b2.rem]; simp; omega
    rw [if_pos (by omega)]
    simp only [Option.bind_some]
    -- second run of zeros
    have h3 : ∃ e3, e2.push_zero (e2.remaining - 8) = some e3 ∧
        Rep e3 (m ++ [0x80] ++ List.replicate (e.remaining - 1 + 56) 0) ∧ e3.total = e2.total + 56 := by
      rw [push_zero_foldlM e2 b2.wf, hr2]
      obtain ⟨e3, a, b, c⟩ := rep_foldlM e2 _ (List.replicate 56 0) b2 (by simp at c2 ⊢; omega)
      refine ⟨e3, a, ?_, by simpa using c⟩
      rw [List.append_assoc, List.replicate_append_replicate] at b
      exact b
    obtain ⟨e3, a3, b3, c3⟩ := h3
    rw [a3]
    simp only [Option.bind_some]
    obtain ⟨e4, a4, b4, c4, d4⟩ := hlast e3 _ b3 (by simp only [Spec.padZeros]; omega) (by simp at c2; omega)
    rw [a4]
    simp only [Option.bind_some]
    rw [if_pos b4]
    simp only [Option.bind_some]
    exact ⟨_, by rw [c4], hfin e4 b4 d4, rfl⟩
  · rw [if_neg hsmall]
    simp only [Option.bind_some]
    rw [if_pos (by omega)]
    simp only [Option.bind_some]
    obtain ⟨e3, a3, b3, c3⟩ := hzeros _ (e.remaining - 1 - 8) hmk (by simp only []; omega)
    rw [a3]
    simp only [Option.bind_some]
    obtain ⟨e4, a4, b4, c4, d4⟩ := hlast e3 _ b3 (by simp only [Spec.padZeros]; omega) (by simp at c3; omega)
    rw [a4]
    simp only [Option.bind_some]
    rw [if_pos b4]
    simp only [Option.bind_some]
    exact ⟨_, by rw [c4], hfin e4 b4 d4, rfl⟩

/-- `finalize` on an engine that absorbed `m`. -/
theorem finalize_ok (e : Engine) (m : List Byte) (h : Rep e m) (ht : e.total = m.length)
    (hlen : m.length < 2 ^ 61) (hm : m.length % 64 ≠ 63) :
    ∃ e', e.finalize = some (Spec.sha256 m, e') ∧ Rep e' [] ∧ e'.total = 0 := by
  have q := finalize_total e m h (by omega) hm
  rw [ht, padded_eq] at q
  exact q

/-- `finalize` panics on 63 modulo 64 and on oversized messages. -/
theorem finalize_panic (e : Engine) (m : List Byte) (h : Rep e m) (ht : e.total = m.length)
    (hbad : 2 ^ 61 ≤ m.length ∨ m.length % 64 = 63) : e.finalize = none := by
  unfold Engine.finalize
  simp only [Option.bind_eq_bind, guard, Option.pure_def]
  by_cases hbig : 2 ^ 61 ≤ m.length
  · rw [if_neg (by omega)]; rfl
  · have hm : m.length % 64 = 63 := by omega
    have hrem := h.rem
    have hcl := h.chunk_len
    rw [if_pos (by omega)]
    simp only [Option.bind_some]
    rw [if_pos (by omega)]
    simp only [Option.bind_some]
    rw [if_pos (by omega)]
    simp only [Option.bind_some]
    rw [if_pos (by omega)]
    have h0 : e.remaining - 1 = 0 := by omega
    rw [h0, Engine.push_zero, if_pos rfl]
    simp

end Verif.Hash
