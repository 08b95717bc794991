import Verif.Dbus.LemmasHist
/-! # Variants of long signatures: the iterator promises six times the number of its items -/
namespace Verif.Dbus
open Verif.Io

variable {σ : Type} {I : WriteImpl σ} {s : Sig} {t : Ty}

/-- An iterator over a signature whose length is wrong. -/
theorem long_hint (h : Rep s t) (hk : s.kind = .node64) {i : Nat} (hi : i ≤ t.size) :
    ∃ n, codeIter.hint ⟨s, i⟩ = some (n + 1) := by
  have hl : s.len = some (6 * t.size) := by rw [h.len, hk]; rfl
  have := Verif.Dbus.size_pos t
  refine ⟨6 * t.size - i - 1, ?_⟩
  simp only [codeIter, Cursor.size_hint, hl, Option.bind_eq_bind, Option.bind_some, strictSub]
  rw [if_pos (by omega)]
  congr 1; omega

theorem long_next (h : Rep s t) (hk : s.kind = .node64) {i : Nat} (hi : i ≤ t.size) :
    (∃ b, i < t.size ∧ codeIter.next ⟨s, i⟩ = some (some b, ⟨s, i + 1⟩)) ∨ ∃ c, codeIter.next ⟨s, i⟩ = some (none, c) := by
  have hl : s.len = some (6 * t.size) := by rw [h.len, hk]; rfl
  simp only [codeIter, Cursor.next, Cursor.element, h.element_at, Cursor.move_next, Cursor.idx_next, hl,
    Option.bind_eq_bind, Option.bind_some, Option.map_some]
  by_cases hlt : i < t.size
  · left
    rw [List.getElem?_eq_getElem (by rw [els_length]; exact hlt), if_pos (by omega)]
    exact ⟨_, hlt, rfl⟩
  · right
    rw [List.getElem?_eq_none (by rw [els_length]; omega)]
    exact ⟨_, rfl⟩

theorem long_inner (h : Rep s t) (hk : s.kind = .node64) (stop : Nat) : ∀ (n i : Nat) (m : Mem) (idx : Nat), i ≤ t.size →
    (iterInner codeIter stop n ⟨s, i⟩ m idx).ok = true →
    ∃ j, j ≤ t.size ∧ (iterInner codeIter stop n ⟨s, i⟩ m idx).it = ⟨s, j⟩
      ∧ (iterInner codeIter stop n ⟨s, i⟩ m idx).idx + i = idx + j := by
  intro n
  induction n with
  | zero => intro i m idx hi _; exact ⟨i, hi, rfl, rfl⟩
  | succ n ih =>
    intro i m idx hi
    rw [iterInner]
    rcases long_next h hk hi with ⟨b, hlt, hn⟩ | ⟨c, hn⟩
    · rw [hn]
      by_cases hm : idx + 1 ≤ usizeMax
      · simp only [if_pos hm]
        intro ho
        obtain ⟨j, h1, h2, h3⟩ := ih (i + 1) _ _ hlt ho
        exact ⟨j, h1, h2, by omega⟩
      · simp only [if_neg hm]
        intro hf; cases hf
    · rw [hn]
      intro hf; cases hf

/-- Writing such an iterator never ends well. -/
theorem long_loop (h : Rep s t) (hk : s.kind = .node64) : ∀ (fuel : Nat) (w : Writer σ) (idx i : Nat), i ≤ t.size →
    ∀ x, (writeIterLoop I codeIter fuel w idx ⟨s, i⟩).flow ≠ .cont x := by
  intro fuel
  induction fuel with
  | zero => intro w idx i _ x hx; cases hx
  | succ fuel ih =>
    intro w idx i hi x
    obtain ⟨n, hn⟩ := long_hint h hk hi
    rw [writeIterLoop, hn]
    simp only
    rcases hm : I.map w.st idx (n + 1) with ⟨st, k | y | _⟩
    · simp only
      by_cases hk0 : k > 0
      · rw [if_pos hk0]
        by_cases ho : (iterInner codeIter (idx + k) (min (n + 1) k) ⟨s, i⟩ w.mem idx).ok = true
        · rw [if_pos ho]
          obtain ⟨j, hj, e, _⟩ := long_inner h hk _ _ _ _ _ hi ho
          rw [e]
          exact ih _ _ j hj x
        · rw [if_neg ho]; intro hx; cases hx
      · rw [if_neg hk0]; intro hx; cases hx
    · intro hx; cases hx
    · intro hx; cases hx

theorem willing_loop (hI : Willing I) (h : Rep s t) (hk : s.kind = .node64) : ∀ (fuel : Nat) (w : Writer σ) (idx i : Nat),
    i ≤ t.size → idx + 6 * t.size ≤ usizeMax + i → ∀ x, (writeIterLoop I codeIter fuel w idx ⟨s, i⟩).flow ≠ .brk x := by
  intro fuel
  induction fuel with
  | zero => intro w idx i _ _ x hx; cases hx
  | succ fuel ih =>
    intro w idx i hi hb x
    obtain ⟨n, hn⟩ := long_hint h hk hi
    have hn' : n + 1 = 6 * t.size - i := by
      have hl : s.len = some (6 * t.size) := by rw [h.len, hk]; rfl
      simp only [codeIter, Cursor.size_hint, hl, Option.bind_eq_bind, Option.bind_some, strictSub] at hn
      rw [if_pos (by omega), Option.some.injEq] at hn
      exact hn.symm
    rw [writeIterLoop, hn]
    simp only
    rcases hm : I.map w.st idx (n + 1) with ⟨st, k | y | _⟩
    · simp only
      by_cases hk0 : k > 0
      · rw [if_pos hk0]
        by_cases ho : (iterInner codeIter (idx + k) (min (n + 1) k) ⟨s, i⟩ w.mem idx).ok = true
        · rw [if_pos ho]
          obtain ⟨j, hj, e, e'⟩ := long_inner h hk _ _ _ _ _ hi ho
          rw [e]
          exact ih _ _ j hj (by omega) x
        · rw [if_neg ho]; intro hx; cases hx
      · rw [if_neg hk0]; intro hx; cases hx
    · exact absurd (by rw [hm]) (hI w.st idx (n + 1) (by omega) y)
    · intro hx; cases hx

theorem willing_write (hI : Willing I) : ∀ (fuel : Nat) (w : Writer σ) (idx : Nat) (d : List UInt8),
    idx + d.length ≤ usizeMax → (∀ x, (writeLoop I fuel w idx d).flow ≠ .brk x)
      ∧ ∀ x, (writeLoop I fuel w idx d).flow = .cont x → (writeLoop I fuel w idx d).idx = idx + d.length := by
  intro fuel
  induction fuel with
  | zero =>
    intro w idx d hb
    rw [writeLoop]
    by_cases h0 : d.length > 0
    · rw [if_pos h0]; exact ⟨fun x hx => (by cases hx), fun x hx => (by cases hx)⟩
    · rw [if_neg h0]; exact ⟨fun x hx => (by cases hx), fun x _ => (by show idx = _; omega)⟩
  | succ fuel ih =>
    intro w idx d hb
    rw [writeLoop]
    by_cases h0 : d.length > 0
    · rw [if_pos h0]
      simp only
      rcases hm : I.map w.st idx d.length with ⟨st, k | y | _⟩
      · simp only
        by_cases hk0 : k > 0
        · rw [if_pos hk0]
          by_cases ho : idx + min k d.length ≤ usizeMax
          · rw [if_pos ho]
            have := ih ⟨st, put w.mem idx (d.take (min k d.length))⟩ (idx + min k d.length) (d.drop (min k d.length))
              (by rw [List.length_drop]; omega)
            rw [List.length_drop] at this
            refine ⟨this.1, fun x hx => ?_⟩
            rw [this.2 x hx]; omega
          · rw [if_neg ho]; exact ⟨fun x hx => (by cases hx), fun x hx => (by cases hx)⟩
        · rw [if_neg hk0]; exact ⟨fun x hx => (by cases hx), fun x hx => (by cases hx)⟩
      · exact absurd (by rw [hm]) (hI w.st idx d.length hb y)
      · exact ⟨fun x hx => (by cases hx), fun x hx => (by cases hx)⟩
    · rw [if_neg h0]; exact ⟨fun x hx => (by cases hx), fun x _ => (by show idx = _; omega)⟩

theorem align_one (w : Writer σ) (idx : Nat) : alignExp2 I w idx Element.u8.dvarExp = ⟨w, idx, .cont ()⟩ := by
  rw [show Element.u8.dvarExp = 0 by decide, alignExp2, show shl1 0 = some 1 by decide]
  simp only [checkedNextMultipleOf, Nat.mod_one, if_true, Nat.sub_self]
  rw [zero, fill, fillLoop, if_neg (by omega)]

theorem long_variant_ne (h : Rep s t) (hk : s.kind = .node64) (e : Enc) (w : Writer σ)
    (he : e.cursor.element = some (some .variant)) (hl : 6 * t.size ≤ 255) :
    (∀ e' w', e.variant I w s ≠ some (e', w', .ok))
    ∧ (Willing I → e.level.idx + 256 ≤ usizeMax → e.variant I w s = none) := by
  have hlen : s.len = some (6 * t.size) := by rw [h.len, hk]; rfl
  have hu : e.variant I w s = e.io (write I w e.level.idx (enNum e.be 1 (6 * t.size))) fun w idx =>
      e.io (writeIter I codeIter w idx ⟨s, 0⟩) fun w idx =>
      e.io (zero I w idx 1) fun w idx =>
      some ({ e with
        cursor := ⟨s, 0⟩
        level := ⟨idx, idx, idx⟩
        stack := (.variant, e.level, some e.cursor) :: e.stack }, w, .ok) := by
    unfold Enc.variant
    rw [expect_ok he, hlen]
    simp only [h.new]
    rw [if_pos hl, align_one]
    rfl
  obtain ⟨n, hn⟩ := long_hint h hk (Nat.zero_le _)
  have hit : ∀ w idx, writeIter I codeIter w idx ⟨s, 0⟩ = writeIterLoop I codeIter (n + 2) w idx ⟨s, 0⟩ := by
    intro w idx; rw [writeIter, hn]
  constructor
  · intro e' w'
    rw [hu, Enc.io]
    rcases (write I w e.level.idx (enNum e.be 1 (6 * t.size))).flow with _ | _ | _
    · simp only
      rw [Enc.io, hit]
      generalize hr : writeIterLoop I codeIter (n + 2) _ _ (⟨s, 0⟩ : Cursor) = r
      rcases hf : r.flow with x | _ | _
      · exact absurd (hr ▸ hf) (long_loop h hk _ _ _ _ (Nat.zero_le _) x)
      · intro hx; cases hx
      · intro hx; cases hx
    · intro hx; cases hx
    · intro hx; cases hx
  · intro hI hb
    have hw := willing_write hI (enNum e.be 1 (6 * t.size)).length w e.level.idx (enNum e.be 1 (6 * t.size))
      (by rw [enNum_length]; omega)
    rw [hu, Enc.io]
    rcases hf : (write I w e.level.idx (enNum e.be 1 (6 * t.size))).flow with x | x | _
    · simp only
      have hi : (write I w e.level.idx (enNum e.be 1 (6 * t.size))).idx = e.level.idx + 1 :=
        (hw.2 x hf).trans (by rw [enNum_length])
      rw [Enc.io, hit, hi]
      generalize hr : writeIterLoop I codeIter (n + 2) _ _ (⟨s, 0⟩ : Cursor) = r
      rcases hf : r.flow with x | x | _
      · exact absurd (hr ▸ hf) (long_loop h hk _ _ _ _ (Nat.zero_le _) x)
      · exact absurd (hr ▸ hf) (willing_loop hI h hk _ _ _ _ (Nat.zero_le _) (by omega) x)
      · rfl
    · exact absurd hf (hw.1 x)
    · rfl

end Verif.Dbus
