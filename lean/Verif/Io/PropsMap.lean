import Verif.Io.Spec
/-! # Properties of mapped I/O (C36) -/
namespace Verif.Io
variable {σ ι : Type}

/-! ## Helpers -/

@[simp] theorem put_nil (m : Mem) (i : Nat) : put m i [] = m := by
  funext j; unfold put; rw [if_neg]; simp only [List.length_nil]; omega

theorem put_append (m : Mem) (i : Nat) (a b : List UInt8) : put (put m i a) (i + a.length) b = put m i (a ++ b) := by
  funext j
  unfold put
  simp only [List.length_append]
  by_cases h1 : i + a.length ≤ j ∧ j < i + a.length + b.length
  · rw [if_pos h1, if_pos (by omega), List.getElem?_append_right (by omega)]
    congr 1; omega
  · rw [if_neg h1]
    by_cases h2 : i ≤ j ∧ j < i + a.length
    · rw [if_pos h2, if_pos (by omega), List.getElem?_append_left (by omega)]
    · rw [if_neg h2, if_neg (by omega)]

/-- One byte more in front. -/
theorem Wrote.shift {I : WriteImpl σ} {w : Writer σ} {st : σ} {idx : Nat} {a b : List UInt8} {r : WriteOut σ}
    (ha : a = [] ∨ idx + a.length ≤ usizeMax) (h : Wrote I ⟨st, put w.mem idx a⟩ (idx + a.length) b r) :
    Wrote I w idx (a ++ b) r := by
  cases h with
  | all st' hb =>
    have := Wrote.all (I := I) (w := w) (idx := idx) (data := a ++ b) st' (by
      rcases hb with rfl | hb
      · rcases ha with rfl | ha
        · exact .inl rfl
        · right; simpa using ha
      · right; simp only [List.length_append]; omega)
    simp only [put_append, List.length_append, ← Nat.add_assoc] at this ⊢
    exact this
  | refused st' st'' k e hk hm =>
    have := Wrote.refused (I := I) (w := w) (idx := idx) (data := a ++ b) st' st'' (a.length + k) e
      (by simp; omega) (by rw [← Nat.add_assoc, List.length_append, Nat.add_sub_add_left]; exact hm)
    simp only [put_append, List.take_length_add_append, ← Nat.add_assoc] at this ⊢
    exact this

theorem Wrote.nofault {I : WriteImpl σ} {w : Writer σ} {idx : Nat} {a : List UInt8} {r : WriteOut σ}
    (h : Wrote I w idx a r) : r.flow ≠ .fault := by cases h <;> simp

theorem writeLoop_spec (I : WriteImpl σ) (h : Good I) : ∀ (fuel : Nat) (w : Writer σ) (idx : Nat) (data : List UInt8),
    data.length ≤ fuel → Wrote I w idx data (writeLoop I fuel w idx data)
  | fuel, w, idx, data, hf => by
    unfold writeLoop
    by_cases hd : data.length > 0
    · rw [if_pos hd]
      cases fuel with
      | zero => omega
      | succ fuel =>
        have hm := h.map w.st idx data.length hd
        generalize hr : I.map w.st idx data.length = r at hm
        obtain ⟨st, r⟩ := r
        cases r with
        | fault => exact hm.elim
        | brk e =>
          have := Wrote.refused (I := I) (w := w) (idx := idx) (data := data) w.st st 0 e hd hr
          simpa using this
        | cont map =>
          obtain ⟨h1, h2⟩ := hm
          simp only []
          rw [if_pos h1, if_pos (by omega)]
          have hl : (data.take (min map data.length)).length = min map data.length := by simp
          have := writeLoop_spec I h fuel ⟨st, put w.mem idx (data.take (min map data.length))⟩
            (idx + min map data.length) (data.drop (min map data.length)) (by simp; omega)
          have := Wrote.shift (a := data.take (min map data.length)) (w := w) (idx := idx) (st := st)
            (.inr (by rw [hl]; omega)) (by rw [hl]; exact this)
          rwa [List.take_append_drop] at this
    · rw [if_neg hd]
      have : data = [] := List.eq_nil_of_length_eq_zero (by omega)
      subst this
      have := Wrote.all (I := I) (w := w) (idx := idx) (data := []) w.st (.inl rfl)
      simpa using this

theorem fillLoop_eq (I : WriteImpl σ) (b : UInt8) : ∀ (fuel : Nat) (w : Writer σ) (idx len : Nat),
    fillLoop I fuel w idx len b = writeLoop I fuel w idx (List.replicate len b)
  | fuel, w, idx, len => by
    unfold fillLoop writeLoop
    simp only [List.length_replicate]
    split
    · cases fuel with
      | zero => rfl
      | succ fuel =>
        simp only []
        generalize I.map w.st idx len = r
        obtain ⟨st, r⟩ := r
        cases r with
        | fault => rfl
        | brk e => rfl
        | cont map =>
          simp only []
          have e : (List.replicate len b).take (min map len) = List.replicate (min map len) b := by
            rw [List.take_replicate]; congr 1; omega
          rw [e, List.drop_replicate, fillLoop_eq I b fuel]
    · rfl

/-! ## Theorems -/

/-- C36. However a reader splits the data, reading `len` bytes at an index yields exactly these bytes, and moves
the index behind them; or the reader refuses at some byte, and everything before was read. -/
theorem read_spec (I : ReadImpl σ) (data : List UInt8) (h : Linear I data) (st : σ) (idx len : Nat) :
    match (read I st idx len).flow with
    | .cont _ => (read I st idx len).out = (data.drop idx).take len ∧ (read I st idx len).out.length = len
        ∧ (read I st idx len).idx = idx + len
    | .brk e => ∃ k st', k < len ∧ (read I st idx len).idx = idx + k ∧ (read I st idx len).out = (data.drop idx).take k
        ∧ (read I st idx len).out.length = k ∧ (I.map st' (idx + k) (len - k)).2 = .brk e
    | .fault => False := by
  suffices H : ∀ (fuel : Nat) (st : σ) (k n : Nat), n ≤ fuel → k + n = len → ((data.drop idx).take k).length = k →
      match (readLoop I fuel st (idx + k) n ((data.drop idx).take k)) with
      | r => match r.flow with
        | .cont _ => r.out = (data.drop idx).take len ∧ r.out.length = len ∧ r.idx = idx + len
        | .brk e => ∃ k st', k < len ∧ r.idx = idx + k ∧ r.out = (data.drop idx).take k
            ∧ r.out.length = k ∧ (I.map st' (idx + k) (len - k)).2 = .brk e
        | .fault => False by
    have := H len st 0 len (Nat.le_refl _) (by omega) (by simp)
    simpa [read] using this
  intro fuel
  induction fuel with
  | zero =>
    intro st k n hn hk hl
    have : n = 0 := by omega
    subst this
    have : k = len := by omega
    subst this
    unfold readLoop
    rw [if_neg (by omega)]
    exact ⟨rfl, hl, rfl⟩
  | succ fuel ih =>
    intro st k n hn hk hl
    unfold readLoop
    by_cases hp : n > 0
    · rw [if_pos hp]
      have hm := h.map st (idx + k) n hp
      simp only []
      generalize hr : I.map st (idx + k) n = r at hm
      obtain ⟨st', r⟩ := r
      cases r with
      | fault => exact hm.elim
      | brk e => exact ⟨k, st, by omega, rfl, rfl, hl, by rw [show len - k = n by omega, hr]⟩
      | cont map =>
        obtain ⟨h1, t, ht⟩ := hm
        have h0 : map.length > 0 := List.length_pos_iff.mpr h1
        have hlen : map.length + t.length = data.length - (idx + k) := by
          rw [← List.length_append, ht, List.length_drop]
        have hsz := h.size
        simp only []
        rw [if_pos h0, if_pos (by omega)]
        have htk : (data.drop idx).take k ++ map.take (min map.length n)
            = (data.drop idx).take (k + min map.length n) := by
          rw [List.take_add, List.drop_drop, ← ht, List.take_append_of_le_length (by omega)]
        rw [htk, Nat.add_assoc]
        have := ih st' (k + min map.length n) (n - min map.length n) (by omega) (by omega) (by
          rw [← htk, List.length_append, hl, List.length_take]; omega)
        exact this
    · rw [if_neg hp]
      have : k = len := by omega
      subst this
      exact ⟨rfl, hl, rfl⟩

/-- C36. Slices are readers, and reading from a slice succeeds exactly if the range is within it. -/
theorem slice_read (data : List UInt8) (h : data.length ≤ usizeMax) : Linear (sliceRead data) data
    ∧ ∀ idx len, (read (sliceRead data) () idx len).flow = .cont () ↔ len = 0 ∨ idx + len ≤ data.length := by
  have hL : Linear (sliceRead data) data := by
    refine ⟨h, fun st idx len hl => ?_⟩
    by_cases h1 : idx + len ≤ usizeMax
    · by_cases h2 : idx + len > data.length
      · rw [show (sliceRead data).map st idx len = ((), .brk (some .exceeded)) by simp only [sliceRead]; rw [if_pos h1, if_pos h2]]
        trivial
      · rw [show (sliceRead data).map st idx len = ((), .cont ((data.drop idx).take len)) by
          simp only [sliceRead]; rw [if_pos h1, if_neg h2]]
        refine ⟨fun h => ?_, List.take_prefix _ _⟩
        have := congrArg List.length h
        simp at this; omega
    · rw [show (sliceRead data).map st idx len = ((), .brk (some .overflow)) by simp only [sliceRead]; rw [if_neg h1]]
      trivial
  refine ⟨hL, fun idx len => ?_⟩
  have hs := read_spec _ _ hL () idx len
  cases hf : (read (sliceRead data) () idx len).flow with
  | fault => rw [hf] at hs; exact hs.elim
  | cont u =>
    rw [hf] at hs
    obtain ⟨h1, h2, h3⟩ := hs
    rw [h1] at h2
    simp at h2
    simp; omega
  | brk e =>
    rw [hf] at hs
    obtain ⟨k, st', hk, _, h2, h3, h4⟩ := hs
    simp only [reduceCtorEq, false_iff]
    intro h'
    unfold sliceRead at h4
    simp only [] at h4
    rw [if_pos (by omega), if_neg (by omega)] at h4
    cases h4

example : (read (sliceRead [1, 2, 3, 4]) () 1 2).out = [2, 3] ∧ (read (sliceRead [1, 2, 3, 4]) () 1 2).idx = 3 := by decide

/-- C36. Writing, for any writer. -/
theorem write_spec (I : WriteImpl σ) (h : Good I) (w : Writer σ) (idx : Nat) (data : List UInt8) :
    Wrote I w idx data (write I w idx data) := writeLoop_spec I h _ w idx data (Nat.le_refl _)

/-- C36. Filling is writing copies of the byte. -/
theorem fill_spec (I : WriteImpl σ) (h : Good I) (w : Writer σ) (idx len : Nat) (b : UInt8) :
    Wrote I w idx (List.replicate len b) (fill I w idx len b) := by
  unfold fill
  rw [fillLoop_eq]
  exact writeLoop_spec I h _ w idx _ (by simp)

theorem checkedNext_spec (v m : Nat) (hm : 0 < m) :
    checkedNextMultipleOf v m = if v + padding v m ≤ usizeMax ∨ padding v m = 0 then some (v + padding v m) else none := by
  unfold checkedNextMultipleOf padding
  have hlt := Nat.mod_lt v hm
  by_cases h : v % m = 0
  · rw [if_pos h, h, Nat.sub_zero, Nat.mod_self, if_pos (.inr rfl)]; simp
  · rw [if_neg h, Nat.mod_eq_of_lt (show m - v % m < m by omega)]
    split
    · rw [if_pos (.inl (by assumption))]
    · rw [if_neg (by omega)]

/-- Aligned means a multiple, and it is the first one. -/
theorem padding_spec (v m : Nat) (hm : 0 < m) : (v + padding v m) % m = 0 ∧ padding v m < m
    ∧ ∀ k, (v + k) % m = 0 → padding v m ≤ k := by
  have hlt := Nat.mod_lt v hm
  have hv := Nat.div_add_mod v m
  unfold padding
  have key : ∀ k, (v + k) % m = (v % m + k) % m := fun k => by rw [Nat.mod_add_mod]
  refine ⟨?_, Nat.mod_lt _ hm, fun k hk => ?_⟩
  · rw [key]
    by_cases h : v % m = 0
    · rw [h, Nat.sub_zero, Nat.mod_self, Nat.add_zero, Nat.zero_mod]
    · rw [Nat.mod_eq_of_lt (show m - v % m < m by omega), show v % m + (m - v % m) = m by omega, Nat.mod_self]
  · rw [key] at hk
    by_cases h : v % m = 0
    · rw [h, Nat.sub_zero, Nat.mod_self]; omega
    · rw [Nat.mod_eq_of_lt (show m - v % m < m by omega)]
      rcases Nat.lt_or_ge (v % m + k) m with h' | h'
      · rw [Nat.mod_eq_of_lt h'] at hk; omega
      · omega

/-- C36. Aligning writes zeroes up to the next multiple, or fails if that does not exist. -/
theorem align_spec (I : WriteImpl σ) (h : Good I) (w : Writer σ) (idx exp : Nat) (he : exp < 31) (hi : idx ≤ usizeMax) :
    if idx + padding idx (2 ^ exp) ≤ usizeMax then
      Wrote I w idx (List.replicate (padding idx (2 ^ exp)) 0) (alignExp2 I w idx exp)
    else alignExp2 I w idx exp = ⟨w, idx, .brk (some .overflow)⟩ := by
  have hp : 0 < 2 ^ exp := Nat.two_pow_pos exp
  unfold alignExp2 shl1
  rw [if_pos he]
  simp only [checkedNext_spec _ _ hp]
  by_cases hc : idx + padding idx (2 ^ exp) ≤ usizeMax
  · rw [if_pos hc, if_pos (.inl hc)]
    simp only [Nat.add_sub_cancel_left]
    exact fill_spec I h w idx _ 0
  · rw [if_neg hc, if_neg (by omega)]

/-- C36. Exponents of 32 or more panic before anything is written. -/
theorem align_panics (I : WriteImpl σ) (w : Writer σ) (idx exp : Nat) (he : 32 ≤ exp) :
    alignExp2 I w idx exp = ⟨w, idx, .fault⟩ := by
  unfold alignExp2 shl1
  rw [if_neg (by omega), if_neg (by omega)]

/-- C36, disagreement. For exponent 31 the shift of the `i32` 1 is negative, and aligning writes zeroes up to 2^64 - 2^31, not up to
the next multiple of 2^31. -/
theorem align_31 (I : WriteImpl σ) (h : Good I) (w : Writer σ) (idx : Nat) :
    (idx = 0 → Wrote I w idx [] (alignExp2 I w idx 31)) ∧
    (0 < idx → idx ≤ 2 ^ 64 - 2 ^ 31 →
      Wrote I w idx (List.replicate (2 ^ 64 - 2 ^ 31 - idx) 0) (alignExp2 I w idx 31)) ∧
    (2 ^ 64 - 2 ^ 31 < idx → idx ≤ usizeMax → alignExp2 I w idx 31 = ⟨w, idx, .brk (some .overflow)⟩) := by
  have e : alignExp2 I w idx 31 = match checkedNextMultipleOf idx (2 ^ 64 - 2 ^ 31) with
      | none => ⟨w, idx, .brk (some .overflow)⟩
      | some v => zero I w idx (v - idx) := rfl
  have hu : usizeMax = 2 ^ 64 - 1 := rfl
  rw [e]
  unfold checkedNextMultipleOf
  refine ⟨fun h0 => ?_, fun h0 h1 => ?_, fun h0 h1 => ?_⟩
  · subst h0
    rw [if_pos (Nat.zero_mod _)]
    exact fill_spec I h w 0 0 0
  · by_cases h2 : idx = 2 ^ 64 - 2 ^ 31
    · subst h2
      rw [if_pos (Nat.mod_self _)]
      exact fill_spec I h w _ _ 0
    · have hm : idx % (2 ^ 64 - 2 ^ 31) = idx := Nat.mod_eq_of_lt (by omega)
      rw [hm, if_neg (by omega), if_pos (by omega)]
      have : idx + (2 ^ 64 - 2 ^ 31 - idx) - idx = 2 ^ 64 - 2 ^ 31 - idx := by omega
      simp only [this]
      exact fill_spec I h w idx _ 0
  · have key : ∀ M, 2 ^ 64 - 2 ^ 31 = M → usizeMax < 2 * M → idx ≤ usizeMax → M < idx →
        (if idx % M = 0 then some idx else if idx + (M - idx % M) ≤ usizeMax then some (idx + (M - idx % M)) else none) = none := by
      intro M _ h2 h3 h4
      have hm : idx % M = idx - M := by
        rw [Nat.mod_eq_sub_mod (by omega), Nat.mod_eq_of_lt (by omega)]
      rw [hm, if_neg (by omega), if_neg (by omega)]
    rw [key _ rfl (by decide) h1 h0]

/-- C36. Vectors are writers and take everything, up to the size a vector can have. -/
theorem vec_write : Exact vecWrite ∧ ∀ (w : Writer Nat) (idx : Nat) (data : List UInt8), idx + data.length ≤ isizeMax →
    write vecWrite w idx data = ⟨⟨w.st, put w.mem idx data⟩, idx + data.length, .cont ()⟩ := by
  have hE : Exact vecWrite := by
    refine ⟨⟨fun st idx len hl => ?_⟩, fun st idx len n hn => ?_⟩
    · by_cases h : idx + len ≤ usizeMax
      · rw [show vecWrite.map st idx len = (st, .cont len) from if_pos h]
        exact ⟨hl, h⟩
      · rw [show vecWrite.map st idx len = (st, .brk (some .overflow)) from if_neg h]
        trivial
    · unfold vecWrite at hn; simp only [] at hn
      split at hn
      · simp only [Flow.cont.injEq] at hn; omega
      · cases hn
  refine ⟨hE, fun w idx data hd => ?_⟩
  replace hd : idx + data.length ≤ usizeMax := Nat.le_trans hd (by decide)
  unfold write writeLoop
  split
  · rename_i hpos
    have : vecWrite.map w.st idx data.length = (w.st, .cont data.length) := if_pos hd
    cases hdl : data.length with
    | zero => omega
    | succ n =>
      rw [hdl] at this hd
      simp only [this, Nat.min_self]
      rw [if_pos (by omega), if_pos hd]
      rw [← hdl, List.take_length, List.drop_length]
      unfold writeLoop
      rw [if_neg (by simp)]
  · have : data = [] := List.eq_nil_of_length_eq_zero (by omega)
    subst this; simp

theorem mapM_range (f : Nat → Option UInt8) (bs : List UInt8) (h : ∀ i, (hi : i < bs.length) → f i = some bs[i]) :
    (List.range bs.length).mapM f = some bs := by
  induction bs generalizing f with
  | nil => rfl
  | cons b bs ih =>
    have h0 := h 0 (by simp)
    simp only [List.getElem_cons_zero] at h0
    have := ih (fun i => f (i + 1)) (fun i hi => by
      have := h (i + 1) (by simp; omega)
      simpa using this)
    have e : (List.map Nat.succ (List.range bs.length)).mapM f = (List.range bs.length).mapM (fun i => f (i + 1)) := by
      rw [List.mapM_map]; rfl
    rw [List.length_cons, List.range_succ_eq_map, List.mapM_cons, h0, e, this]; rfl

/-- C36. Writing to an empty vector and committing makes it hold exactly the data. -/
theorem vec_commit (data : List UInt8) (h : data.length ≤ isizeMax) :
    vecBytes ⟨vecWrite.commit (write vecWrite (vecOf []) 0 data).w.st data.length,
      (write vecWrite (vecOf []) 0 data).w.mem⟩ = some data := by
  rw [vec_write.2 _ _ _ (by omega)]
  show (List.range (0 + data.length)).mapM (put (vecOf []).mem 0 data) = some data
  rw [Nat.zero_add]
  apply mapM_range
  intro i hi
  unfold put
  rw [if_pos (by omega), Nat.sub_zero, List.getElem?_eq_getElem hi]

/-- C36, disagreement. Indices count from the beginning of the vector, but a commit adds to its length: writing to a
vector that is not empty overwrites its contents and exposes uninitialised memory. -/
theorem vec_not_appending : (write vecWrite (vecOf [1, 2]) 0 [9]).flow = .cont ()
    ∧ (write vecWrite (vecOf [1, 2]) 0 [9]).w.mem 0 = some 9
    ∧ vecWrite.commit (write vecWrite (vecOf [1, 2]) 0 [9]).w.st 1 = 3
    ∧ vecBytes ⟨3, (write vecWrite (vecOf [1, 2]) 0 [9]).w.mem⟩ = none := by decide

/-! ## Iterators -/

theorem iterInner_spec (T : Iter ι) (stop : Nat) : ∀ (a b : List UInt8) (it : ι) (mem : Mem) (idx : Nat),
    Yields T it (a ++ b) → idx + a.length = stop → stop ≤ usizeMax →
    ∃ it', Yields T it' b ∧ iterInner T stop a.length it mem idx = ⟨it', put mem idx a, stop, true⟩
  | [], b, it, mem, idx, hy, hs, hu => ⟨it, hy, by simp [iterInner]; simpa using hs⟩
  | x :: a, b, it, mem, idx, hy, hs, hu => by
    cases hy with
    | cons h1 h2 h3 =>
      rename_i it'
      simp only [List.length_cons] at hs
      obtain ⟨it'', h4, h5⟩ := iterInner_spec T stop a b it' (put mem idx [x]) (idx + 1) h3 (by omega) hu
      refine ⟨it'', h4, ?_⟩
      simp only [List.length_cons, iterInner, h2]
      rw [show stop - (a.length + 1) = idx by omega, if_pos (by omega), h5]
      have := put_append mem idx [x] a
      simp only [List.length_singleton] at this
      rw [this]; rfl

theorem yields_hint {T : Iter ι} {it : ι} {l : List UInt8} (h : Yields T it l) : T.hint it = some l.length := by
  cases h with
  | nil h _ => exact h
  | cons h _ _ => exact h

theorem writeIterLoop_spec (I : WriteImpl σ) (h : Exact I) (T : Iter ι) : ∀ (fuel : Nat) (w : Writer σ) (idx : Nat) (it : ι)
    (data : List UInt8), Yields T it data → data.length < fuel → Wrote I w idx data (writeIterLoop I T fuel w idx it)
  | 0, _, _, _, _, _, hf => by omega
  | fuel + 1, w, idx, it, data, hy, hf => by
    unfold writeIterLoop
    rw [yields_hint hy]
    cases hdl : data.length with
    | zero =>
      have : data = [] := List.eq_nil_of_length_eq_zero hdl
      subst this
      cases hy with
      | nil h1 h2 =>
        simp only [h2]
        have := Wrote.all (I := I) (w := w) (idx := idx) (data := []) w.st (.inl rfl)
        simpa using this
    | succ n =>
      simp only []
      have hm := h.map w.st idx (n + 1) (by omega)
      have hle := h.le w.st idx (n + 1)
      generalize hr : I.map w.st idx (n + 1) = r at hm hle
      obtain ⟨st, r⟩ := r
      cases r with
      | fault => exact hm.elim
      | brk e =>
        have := Wrote.refused (I := I) (w := w) (idx := idx) (data := data) w.st st 0 e (by omega) (by rw [hdl]; exact hr)
        simpa using this
      | cont map =>
        obtain ⟨h1, h2⟩ := hm
        have hle := hle map rfl
        simp only []
        rw [if_pos h1, Nat.min_eq_right hle]
        have hl : (data.take map).length = map := by simp; omega
        obtain ⟨it', hy', hi⟩ := iterInner_spec T (idx + map) (data.take map) (data.drop map) it w.mem idx
          (by rw [List.take_append_drop]; exact hy) (by rw [hl]) h2
        rw [hl] at hi
        rw [hi]
        simp only [if_true]
        have := writeIterLoop_spec I h T fuel ⟨st, put w.mem idx (data.take map)⟩ (idx + map) it' (data.drop map) hy'
          (by simp; omega)
        have := Wrote.shift (a := data.take map) (w := w) (idx := idx) (st := st)
            (.inr (by rw [hl]; omega)) (by rw [hl]; exact this)
        rwa [List.take_append_drop] at this

/-- C36. Writing the items of an iterator, for writers that do not map more than they were asked for. -/
theorem writeIter_spec (I : WriteImpl σ) (h : Exact I) (T : Iter ι) (w : Writer σ) (idx : Nat) (it : ι) (data : List UInt8)
    (hy : Yields T it data) : Wrote I w idx data (writeIter I T w idx it) := by
  unfold writeIter
  rw [yields_hint hy]
  exact writeIterLoop_spec I h T _ w idx it data hy (Nat.lt_succ_self _)

theorem yields_list (l : List UInt8) : Yields listIter l l := by
  induction l with
  | nil => exact .nil (it' := []) rfl rfl
  | cons b l ih => exact .cons (it' := l) rfl rfl ih

example : (writeIter vecWrite listIter (vecOf []) 3 [7, 8]).idx = 5 := by decide

/-- A writer which maps pages of four bytes, no matter how much was asked for. -/
def pages : WriteImpl Unit where
  map _ idx _ := ((), if idx + 4 ≤ usizeMax then .cont 4 else .brk (some .overflow))
  commit _ _ := ()

/-- C36, disagreement. The other operations accept maps that are longer than asked for; `write_iter` puts the items at
the end of such a map. -/
theorem writeIter_misplaces : Good pages
    ∧ (write pages ⟨(), fun _ => none⟩ 0 [7, 8]).w.mem 0 = some 7
    ∧ (writeIter pages listIter ⟨(), fun _ => none⟩ 0 [7, 8]).flow = .cont ()
    ∧ (writeIter pages listIter ⟨(), fun _ => none⟩ 0 [7, 8]).w.mem 0 = none
    ∧ (writeIter pages listIter ⟨(), fun _ => none⟩ 0 [7, 8]).w.mem 2 = some 7 := by
  refine ⟨⟨fun st idx len _ => ?_⟩, by decide, by decide, by decide, by decide⟩
  by_cases h : idx + 4 ≤ usizeMax
  · rw [show (pages.map st idx len).2 = .cont 4 from if_pos h]
    exact ⟨by decide, h⟩
  · rw [show (pages.map st idx len).2 = .brk (some .overflow) from if_neg h]
    trivial

/-- C36. What does not lie in the range written is not changed, and the range holds the data. -/
theorem put_spec (m : Mem) (i : Nat) (d : List UInt8) (j : Nat) :
    (j < i ∨ i + d.length ≤ j → put m i d j = m j) ∧ ((h : j < d.length) → put m i d (i + j) = some d[j]) := by
  constructor
  · intro h; unfold put; rw [if_neg (by omega)]
  · intro h; unfold put; rw [if_pos (by omega), Nat.add_sub_cancel_left, List.getElem?_eq_getElem h]

/-- Instances of `padding_spec`, `align_spec`, `align_panics` and `vec_commit`. -/
example := padding_spec 13 8 (by decide)
example := align_spec vecWrite vec_write.1.toGood (vecOf []) 13 3 (by decide) (by decide)
example := align_panics vecWrite (vecOf []) 13 32 (by decide)
example := vec_commit [1, 2, 3] (by decide)

end Verif.Io
