import Verif.Io.LemmasVec
/-! # Properties of vectors as writers

C89: whatever safe code does, and whatever code does that keeps the contracts of unsafe calls, a vector used as a writer only ever has
initialised elements, and these are what was committed, in order. -/
namespace Verif.Io

/-! ## Streams -/

/-- C89. Streams: whatever a caller does with the slices it gets, as long as it only commits and asks for bytes which it has
initialised, the vector is in order after every history. Its elements are those it had, followed by what was committed, in order;
and what the caller sees of its buffer is what it put there. -/
theorem stream_history {A : Alloc} (hA : A.Keeps) (data : List UInt8) (more : Nat) (hm : data.length + more ≤ isizeMax)
    (l : List SCall) (v : RawVec) (s : Ledger) (seen : List (Option UInt8)) (expected : List UInt8)
    (h : SCall.plays A l (.of data more) (.of data) = .done (v, s, seen, expected)) :
    v.Sound ∧ v.Holds s.data ∧ data <+: s.data ∧ seen = expected.map some := by
  have h1 := Tracks.plays hA l (tracks_of hm) h
  refine ⟨h1.1.holds.sound, h1.1.holds, ?_, h1.2⟩
  have grows : ∀ (l : List SCall) (v v' : RawVec) (s s' : Ledger) (o : List (Option UInt8)) (e : List UInt8),
      SCall.plays A l v s = .done (v', s', o, e) → s.data <+: s'.data := by
    intro l
    induction l with
    | nil =>
      intro v v' s s' o e h
      simp only [SCall.plays, Played.done.injEq, Prod.mk.injEq] at h
      obtain ⟨_, rfl, _⟩ := h
      exact List.prefix_refl _
    | cons c l ih =>
      intro v v' s s' o e h
      simp only [SCall.plays] at h
      cases hc : c.play A v s with
      | panic => simp [hc] at h
      | breach => simp [hc] at h
      | done x =>
        obtain ⟨w, u, o1, e1⟩ := x
        simp only [hc] at h
        have h2 : s.data <+: u.data := by
          cases c with
          | map min max t =>
            simp only [SCall.play] at hc
            split at hc
            · cases hc
            · simp only [Played.done.injEq, Prod.mk.injEq] at hc
              rw [← hc.2.1]; exact List.prefix_refl _
          | unchecked n t =>
            simp only [SCall.play] at hc
            split at hc
            · cases hc
            · split at hc
              · cases hc
              · simp only [Played.done.injEq, Prod.mk.injEq] at hc
                rw [← hc.2.1]; exact List.prefix_refl _
          | commit n =>
            simp only [SCall.play] at hc
            split at hc
            · cases hc
            · split at hc
              · cases hc
              · simp only [Played.done.injEq, Prod.mk.injEq] at hc
                rw [← hc.2.1]; exact List.prefix_append _ _
          | write bs =>
            simp only [SCall.play] at hc
            split at hc
            · cases hc
            · simp only [Played.done.injEq, Prod.mk.injEq] at hc
              rw [← hc.2.1]; exact List.prefix_append _ _
        cases hl : SCall.plays A l w u with
        | panic => simp [hl] at h
        | breach => simp [hl] at h
        | done x =>
          obtain ⟨w', u', o2, e2⟩ := x
          simp only [hl, Played.done.injEq, Prod.mk.injEq] at h
          obtain ⟨_, rfl, _⟩ := h
          exact h2.trans (ih _ _ _ _ _ _ hl)
  exact grows l _ _ _ _ _ _ h

/-- What a call asks for. -/
def SCall.asks : SCall → Option Nat
  | .map min max _ => some (max.getD min)
  | .write bs => some bs.length
  | _ => none

/-- C89. After every history: a call panics exactly if it asks for more room than a vector can have; calls that commit do not
panic. -/
theorem stream_panics {A : Alloc} (hA : A.Keeps) (data : List UInt8) (more : Nat) (hm : data.length + more ≤ isizeMax)
    (l : List SCall) (v : RawVec) (s : Ledger) (seen : List (Option UInt8)) (expected : List UInt8)
    (h : SCall.plays A l (.of data more) (.of data) = .done (v, s, seen, expected)) (c : SCall) :
    c.play A v s = .panic ↔ ∃ n, c.asks = some n ∧ isizeMax < s.data.length + n := by
  have ht := (Tracks.plays hA l (tracks_of hm) h).1
  have hi : isizeMax + isizeMax ≤ usizeMax := by decide
  have hl := ht.holds.1
  have hcap := ht.holds.2.1
  have hfit := ht.fits
  have hres : ∀ n, v.reserve A n = none ↔ isizeMax < s.data.length + n := by
    intro n
    unfold RawVec.reserve
    constructor
    · intro h
      split at h
      · cases h
      · split at h
        · cases h
        · omega
    · intro h
      rw [if_neg (by omega), if_neg (by omega)]
  cases c with
  | map min max t =>
    simp only [SCall.play, RawVec.smap, SCall.asks, Option.some.injEq, exists_eq_left']
    rw [← hres]
    cases v.reserve A (max.getD min) <;> simp
  | unchecked n t =>
    simp only [SCall.asks, reduceCtorEq, false_and, exists_false, iff_false]
    intro hp
    simp only [SCall.play, RawVec.sunchecked, RawVec.smap] at hp
    cases hf : s.first n with
    | none => simp [hf] at hp
    | some bs =>
      have hr := ht.room hf
      have e : v.reserve A ((some n).getD n) = some v := by
        unfold RawVec.reserve
        rw [if_pos (by simpa using hr)]
      simp only [hf, e] at hp
      rw [if_pos (by omega)] at hp
      cases hp
  | commit n =>
    simp only [SCall.asks, reduceCtorEq, false_and, exists_false, iff_false]
    intro hp
    simp only [SCall.play, RawVec.commit] at hp
    cases hf : s.first n with
    | none => simp [hf] at hp
    | some bs =>
      have hr := ht.room hf
      simp only [hf] at hp
      rw [if_pos (by omega)] at hp
      cases hp
  | write bs =>
    simp only [SCall.play, RawVec.swrite, RawVec.smap, RawVec.commit, SCall.asks, Option.some.injEq, exists_eq_left']
    rw [← hres]
    cases hr : v.reserve A ((some bs.length).getD bs.length) with
    | none =>
      rw [show v.reserve A bs.length = none from hr]
      simp
    | some w =>
      rw [show v.reserve A bs.length = some w from hr]
      have h1 := reserve_some hr
      simp only [Option.getD_some] at h1
      have h2 := h1.2.2.2.2.2 hfit
      simp only []
      rw [if_pos (by omega), if_pos (by omega)]
      simp

/-- An allocator that keeps the cells, and takes what is needed. -/
def keeping : Alloc := ⟨fun v n => max v.cap (v.len + n), fun v _ => v.mem, fun v n => by constructor <;> omega, fun v n _ _ => by omega⟩
theorem keeping_keeps : keeping.Keeps := fun _ _ _ _ _ => rfl

/-- Two bytes are set in two calls, looked at and committed, then two more are written. -/
example : (match SCall.plays keeping [.map 2 none fun i => if i = 0 then some (some 7) else none,
      .map 8 none fun i => if i = 1 then some (some 8) else none, .unchecked 2 fun _ => none, .commit 2, .write [9, 10]] (.of [6] 0) (.of [6]) with
    | .done (v, s, seen, expected) => (v.len, s.data, seen, expected)
    | _ => (0, [], [], [])) = (5, [6, 7, 8, 9, 10], [some 7, some 8], [7, 8]) := by decide +kernel

/-- An allocator that does not keep what is behind the elements of a vector; the documentation of `Vec` allows for it. -/
def forgetting : Alloc := ⟨fun v n => max v.cap (v.len + n), fun _ _ _ => none, fun v n => by constructor <;> omega, fun v n _ _ => by omega⟩

/-- C89. Retaining the contents of cells, as the documentation demands, is needed: with an allocator that does not, a caller that keeps
to the contract gets a vector with elements that are not initialised. -/
theorem keeping_needed : ∃ l v s o e, SCall.plays forgetting l (.of [] 1) (.of []) = .done (v, s, o, e) ∧ ¬ v.Sound := by
  refine ⟨[.map 1 none fun _ => some (some 7), .map 2 none fun _ => none, .commit 1], ⟨1, 2, _⟩, _, _, _, rfl, fun h => ?_⟩
  exact h.2 0 (by decide) rfl

/-! ## Maps -/

/-- C89. (`_partial`: see `map_deinit`, `map_commit_exposes` and `map_twice` for vectors that are not empty.) Maps of a vector that is
empty: whatever a caller does with the slices, as long as it commits once, and only what it has initialised, the vector is in order and
holds what was committed. -/
theorem map_history_partial {A : Alloc} (hA : A.Keeps) (more : Nat) (l : List MCall) (hl : ∀ c ∈ l, ∃ idx len t, c = .map idx len t)
    (n : Nat) (v : RawVec) (s : Ledger) (h : MCall.plays A (l ++ [.commit n]) (.of [] more) (.of []) = .done (v, s)) :
    v.Sound ∧ v.Holds s.data ∧ s.data.length = n := by
  have key : ∀ (l : List MCall), (∀ c ∈ l, ∃ idx len t, c = .map idx len t) → ∀ (v0 : RawVec) (s0 : Ledger), Fresh v0 s0 →
      MCall.plays A (l ++ [.commit n]) v0 s0 = .done (v, s) → v.Holds s.data ∧ s.data.length = n := by
    intro l
    induction l with
    | nil =>
      intro _ v0 s0 hf h
      simp only [List.nil_append, MCall.plays, MCall.play, RawVec.commit] at h
      cases h1 : s0.first n with
      | none => simp [h1] at h
      | some bs =>
        simp only [h1] at h
        by_cases h2 : v0.len + n ≤ usizeMax
        · simp only [if_pos h2, Played.done.injEq, Prod.mk.injEq] at h
          obtain ⟨rfl, rfl⟩ := h
          obtain ⟨h3, h4⟩ := first_some h1
          have h5 : ∀ i < n, i < v0.cap ∧ v0.mem i = bs[i]? := fun i hi => by
            have := h4 i hi
            rw [List.getElem?_eq_getElem (by omega)] at this ⊢
            exact hf.mine i _ this
          refine ⟨⟨?_, ?_, fun i hi => ?_⟩, ?_⟩
          · show v0.len + n = (s0.data ++ bs).length
            rw [hf.len, hf.data, List.nil_append, h3, Nat.zero_add]
          · show v0.len + n ≤ v0.cap
            rw [hf.len]
            cases n with
            | zero => omega
            | succ n => have := (h5 n (by omega)).1; omega
          · show v0.mem i = (s0.data ++ bs)[i]?
            rw [hf.data, List.nil_append]
            have hi : i < v0.len + n := hi
            exact (h5 i (by rw [hf.len] at hi; omega)).2
          · show (s0.data ++ bs).length = n
            rw [hf.data, List.nil_append, h3]
        · simp only [if_neg h2] at h
          cases h
    | cons c l ih =>
      intro hl v0 s0 hf h
      obtain ⟨idx, len, t, rfl⟩ := hl c List.mem_cons_self
      rw [List.cons_append, MCall.plays] at h
      cases hc : MCall.play A v0 s0 (.map idx len t) with
      | panic => simp [hc] at h
      | breach => simp [hc] at h
      | done x =>
        obtain ⟨w, u⟩ := x
        simp only [hc] at h
        exact ih (fun c hc => hl c (List.mem_cons_of_mem _ hc)) w u (hf.map hA idx len t hc) h
  have h1 := key l hl _ _ ⟨rfl, rfl, fun _ _ h => by cases h⟩ h
  exact ⟨h1.1.sound, h1⟩

example : (match MCall.plays keeping [.map 0 2 (copyOf [7, 8]), .map 2 1 (copyOf [9]), .commit 3] (.of [] 0) (.of []) with
    | .done (v, s) => (v.len, s.data)
    | _ => (0, [])) = (3, [7, 8, 9]) := by decide +kernel

/-- C89, disagreement. A map shows the elements of the vector as cells that need not be initialised. Whatever the vector, unless it is
empty: safe code alone can leave it with an element that is not initialised. -/
theorem map_deinit (A : Alloc) (v : RawVec) (s : Ledger) (h : v.Sound) (h0 : 0 < v.len) (hc : v.cap ≤ isizeMax) :
    ∃ v' s', MCall.plays A [.map 0 1 fun _ => some none] v s = .done (v', s') ∧ v'.len = v.len ∧ ¬ v'.Sound := by
  have hu : isizeMax ≤ usizeMax := by decide
  have hc' := h.1
  have e : v.mmap A 0 1 = some (some v) := by
    unfold RawVec.mmap
    rw [if_pos (by omega), if_neg (by omega), if_pos (by omega)]
  refine ⟨{ v with mem := touch v.mem 0 1 fun _ => some none }, { s with mine := touch s.mine 0 1 fun _ => some none }, ?_, rfl, fun hs => ?_⟩
  · simp only [MCall.plays, MCall.play, e]
  · exact hs.2 0 h0 rfl

/-- C89, disagreement. Indices count from the beginning of a vector, but a commit adds to its length. Whatever the vector, unless it is
empty or the byte behind it is initialised by chance: writing one byte at index 0 and committing it, which keeps to the contract, overwrites the
first element, and leaves the vector with an element that is not initialised. -/
theorem map_commit_exposes (A : Alloc) (v : RawVec) (s : Ledger) (b : UInt8) (h : v.Sound) (h0 : 0 < v.len) (hc : v.cap ≤ isizeMax)
    (hm : v.len = v.cap ∨ v.mem v.len = none) :
    ∃ v' s', MCall.plays A [.map 0 1 (copyOf [b]), .commit 1] v s = .done (v', s') ∧ v'.mem 0 = some b ∧ ¬ v'.Sound := by
  have hu : isizeMax < usizeMax := by decide
  have hc' := h.1
  have e : v.mmap A 0 1 = some (some v) := by
    unfold RawVec.mmap
    rw [if_pos (by omega), if_neg (by omega), if_pos (by omega)]
  refine ⟨⟨v.len + 1, v.cap, touch v.mem 0 1 (copyOf [b])⟩, ⟨s.data ++ [b], touch s.mine 0 1 (copyOf [b])⟩, ?_, rfl, fun hs => ?_⟩
  · simp only [MCall.plays, MCall.play, e]
    have hf : Ledger.first ⟨s.data, touch s.mine 0 1 (copyOf [b])⟩ 1 = some [b] := first_copy s.mine s.data [b]
    simp only [hf, RawVec.commit]
    rw [if_pos (by omega)]
  · rcases hm with hm | hm
    · have h1 : v.len + 1 ≤ v.cap := hs.1
      omega
    · refine hs.2 v.len (by show v.len < v.len + 1; omega) ?_
      show touch v.mem 0 1 (copyOf [b]) v.len = none
      unfold touch
      rw [if_neg (by omega), hm]

/-- C89, disagreement. So a vector can be committed to once only: after one byte was committed to an empty vector with room for one, a second
one makes it longer than its capacity. -/
theorem map_twice : ∃ v s, MCall.plays keeping [.map 0 1 (copyOf [7]), .commit 1, .map 0 1 (copyOf [8]), .commit 1] (.of [] 1) (.of [])
    = .done (v, s) ∧ s.data = [7, 8] ∧ v.len = 2 ∧ v.cap = 1 ∧ ¬ v.Sound := by
  refine ⟨⟨2, 1, _⟩, _, rfl, rfl, rfl, rfl, fun h => ?_⟩
  exact absurd h.1 (by decide)

example : RawVec.Sound (.of [1, 2] 3) ∧ (RawVec.of [1, 2] 3).mem (RawVec.of [1, 2] 3).len = none := by
  refine ⟨⟨by decide, fun i hi => ?_⟩, by decide⟩
  have : i < 2 := hi
  rcases i with _ | _ | i
  · decide
  · decide
  · omega

end Verif.Io
