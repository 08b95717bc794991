import Verif.Io.SpecVec
/-! # Lemmas about vectors as writers -/
namespace Verif.Io

theorem mapM_some {f : Nat → Option UInt8} : ∀ {l : List Nat} {bs : List UInt8}, l.mapM f = some bs →
    bs.length = l.length ∧ ∀ i, (h : i < l.length) → f l[i] = bs[i]?
  | [], bs, h => by
    simp at h
    subst h
    exact ⟨rfl, fun i h => by simp at h⟩
  | a :: l, bs, h => by
    rw [List.mapM_cons] at h
    cases ha : f a with
    | none => simp [ha] at h
    | some b =>
      cases hl : l.mapM f with
      | none => simp [ha, hl] at h
      | some cs =>
        simp [ha, hl] at h
        subst h
        have ih := mapM_some hl
        refine ⟨by simp [ih.1], fun i hi => ?_⟩
        cases i with
        | zero => simpa using ha
        | succ i => simpa using ih.2 i (by simpa using hi)

theorem first_some {s : Ledger} {n : Nat} {bs : List UInt8} (h : s.first n = some bs) :
    bs.length = n ∧ ∀ i, i < n → s.mine i = bs[i]? := by
  have := mapM_some h
  simp only [List.length_range, List.getElem_range] at this
  exact this

/-- What holds at every time: the vector holds the data, and the cells after it what the caller put there. -/
structure Tracks (v : RawVec) (s : Ledger) : Prop where
  holds : v.Holds s.data
  mine : ∀ i b, s.mine i = some b → v.len + i < v.cap ∧ v.mem (v.len + i) = some b
  fits : v.cap ≤ isizeMax

variable {A : Alloc} {v v' : RawVec} {s : Ledger}

theorem reserve_some {n : Nat} (h : v.reserve A n = some v') : v'.len = v.len ∧ v.cap ≤ v'.cap ∧ v.len + n ≤ v'.cap
    ∧ (∀ i < v.len, v'.mem i = v.mem i) ∧ (A.Keeps → ∀ i < v.cap, v'.mem i = v.mem i)
    ∧ (v.cap ≤ isizeMax → v'.cap ≤ isizeMax) := by
  unfold RawVec.reserve at h
  split at h
  · cases h
    exact ⟨rfl, Nat.le_refl _, ‹_›, fun _ _ => rfl, fun _ _ _ => rfl, id⟩
  · split at h
    · cases h
      refine ⟨rfl, (A.enough v n).2, (A.enough v n).1, fun i hi => if_pos hi, fun hk i hi => ?_, fun hc => A.fits v n hc ‹_›⟩
      show (if i < v.len then v.mem i else A.fresh v n i) = v.mem i
      split
      · rfl
      · exact hk v n i (by omega) hi
    · cases h

theorem Tracks.reserve (hA : A.Keeps) (h : Tracks v s) {n : Nat} (hr : v.reserve A n = some v') : Tracks v' s := by
  obtain ⟨h1, h2, h3, h4, h5, h6⟩ := reserve_some hr
  refine ⟨⟨by rw [h1]; exact h.holds.1, by rw [h1]; exact Nat.le_trans h.holds.2.1 h2, fun i hi => ?_⟩, fun i b hb => ?_, h6 h.fits⟩
  · rw [h1] at hi
    rw [h4 i hi]
    exact h.holds.2.2 i hi
  · obtain ⟨h7, h8⟩ := h.mine i b hb
    rw [h1, h5 hA _ h7]
    exact ⟨by omega, h8⟩

/-- The first cells behind the length are handed out. -/
theorem Tracks.touch (h : Tracks v s) {n : Nat} (hn : v.len + n ≤ v.cap) (t : Touch) :
    Tracks { v with mem := touch v.mem v.len n t } { s with mine := touch s.mine 0 n t } := by
  refine ⟨⟨h.holds.1, h.holds.2.1, fun i hi => ?_⟩, fun i b hb => ?_, h.fits⟩
  · show Io.touch v.mem v.len n t i = _
    have hi : i < v.len := hi
    unfold Io.touch
    rw [if_neg (by omega)]
    exact h.holds.2.2 i hi
  · show v.len + i < v.cap ∧ Io.touch v.mem v.len n t (v.len + i) = some b
    change Io.touch s.mine 0 n t i = some b at hb
    unfold Io.touch at hb ⊢
    by_cases hi : i < n
    · rw [if_pos (by omega)] at hb
      rw [if_pos (by omega), Nat.add_sub_cancel_left]
      rw [Nat.sub_zero] at hb
      refine ⟨by omega, ?_⟩
      cases ht : t i with
      | some c => rw [ht] at hb; exact hb
      | none =>
        rw [ht] at hb
        exact (h.mine i b hb).2
    · rw [if_neg (by omega)] at hb
      rw [if_neg (by omega)]
      exact h.mine i b hb

theorem Tracks.room (h : Tracks v s) {n : Nat} {bs : List UInt8} (hf : s.first n = some bs) : v.len + n ≤ v.cap := by
  obtain ⟨h1, h2⟩ := first_some hf
  cases n with
  | zero => exact h.holds.2.1
  | succ n =>
    have h3 := h2 n (by omega)
    rw [List.getElem?_eq_getElem (by omega)] at h3
    have := (h.mine _ _ h3).1
    omega

theorem Tracks.commit (h : Tracks v s) {n : Nat} {bs : List UInt8} (hf : s.first n = some bs) :
    Tracks { v with len := v.len + n } (s.commit n bs) := by
  have hr := h.room hf
  obtain ⟨h1, h2⟩ := first_some hf
  refine ⟨⟨?_, hr, fun i hi => ?_⟩, fun i b hb => ?_, h.fits⟩
  · show v.len + n = (s.data ++ bs).length
    rw [List.length_append, h1, h.holds.1]
  · show v.mem i = (s.data ++ bs)[i]?
    have hi : i < v.len + n := hi
    by_cases hl : i < v.len
    · rw [List.getElem?_append_left (by rw [← h.holds.1]; exact hl)]
      exact h.holds.2.2 i hl
    · have h3 := h2 (i - v.len) (by omega)
      have hlt : i - v.len < bs.length := by omega
      rw [List.getElem?_append_right (by rw [← h.holds.1]; omega), ← h.holds.1]
      rw [List.getElem?_eq_getElem hlt] at h3 ⊢
      have h4 := (h.mine _ _ h3).2
      rwa [show v.len + (i - v.len) = i by omega] at h4
  · show v.len + n + i < v.cap ∧ v.mem (v.len + n + i) = some b
    have := h.mine (i + n) b hb
    rwa [show v.len + (i + n) = v.len + n + i by omega] at this

theorem first_copy (m : Mem) (data : List UInt8) (bs : List UInt8) : Ledger.first ⟨data, touch m 0 bs.length (copyOf bs)⟩ bs.length = some bs := by
  unfold Ledger.first
  have : ∀ (k : Nat) (cs : List UInt8) (f : Nat → Option UInt8), (∀ i, (h : i < cs.length) → f i = some cs[i]) →
      (List.range cs.length).mapM f = some cs := by
    intro _ cs
    induction cs with
    | nil => intro f _; rfl
    | cons c cs ih =>
      intro f h
      have h0 := h 0 (by simp)
      have := ih (fun i => f (i + 1)) fun i hi => by
        have := h (i + 1) (by simp; omega)
        simpa using this
      have e : (List.map Nat.succ (List.range cs.length)).mapM f = (List.range cs.length).mapM (fun i => f (i + 1)) := by
        rw [List.mapM_map]; rfl
      rw [List.length_cons, List.range_succ_eq_map, List.mapM_cons, h0, e, this]; rfl
  refine this 0 bs _ fun i hi => ?_
  unfold touch copyOf
  simp [hi]

/-- One call. -/
theorem Tracks.play (hA : A.Keeps) (h : Tracks v s) (c : SCall) {s' : Ledger} {o : List (Option UInt8)} {e : List UInt8}
    (hp : c.play A v s = .done (v', s', o, e)) : Tracks v' s' ∧ o = e.map some := by
  cases c with
  | map min max t =>
    simp only [SCall.play, RawVec.smap] at hp
    cases hr : v.reserve A (max.getD min) with
    | none => simp [hr] at hp
    | some w =>
      simp only [hr, Played.done.injEq, Prod.mk.injEq] at hp
      obtain ⟨rfl, rfl, rfl, rfl⟩ := hp
      have ht := h.reserve hA hr
      exact ⟨ht.touch (by have := ht.holds.2.1; omega) t, rfl⟩
  | unchecked n t =>
    simp only [SCall.play, RawVec.sunchecked, RawVec.smap] at hp
    cases hf : s.first n with
    | none => simp [hf] at hp
    | some bs =>
      cases hr : v.reserve A ((some n).getD n) with
      | none => simp only [hf, hr] at hp; cases hp
      | some w =>
        simp only [hf, hr] at hp
        have ht := h.reserve hA hr
        have hroom := ht.room hf
        rw [if_pos (by omega)] at hp
        simp only [Played.done.injEq, Prod.mk.injEq] at hp
        obtain ⟨rfl, rfl, rfl, rfl⟩ := hp
        refine ⟨ht.touch hroom _, ?_⟩
        obtain ⟨h1, h2⟩ := first_some hf
        apply List.ext_getElem?
        intro i
        by_cases hi : i < n
        · have h3 := h2 i hi
          rw [List.getElem?_eq_getElem (by omega)] at h3
          rw [List.getElem?_map, List.getElem?_map, List.getElem?_range hi, List.getElem?_eq_getElem (by omega : i < bs.length)]
          simp only [Option.map_some, Option.some.injEq]
          exact (ht.mine _ _ h3).2
        · rw [List.getElem?_eq_none (by simp; omega), List.getElem?_eq_none (by simp; omega)]
  | commit n =>
    simp only [SCall.play, RawVec.commit] at hp
    cases hf : s.first n with
    | none => simp [hf] at hp
    | some bs =>
      simp only [hf] at hp
      by_cases hl : v.len + n ≤ usizeMax
      · simp only [if_pos hl, Played.done.injEq, Prod.mk.injEq] at hp
        obtain ⟨rfl, rfl, rfl, rfl⟩ := hp
        exact ⟨h.commit hf, rfl⟩
      · simp only [if_neg hl] at hp
        cases hp
  | write bs =>
    simp only [SCall.play, RawVec.swrite, RawVec.smap, RawVec.commit] at hp
    cases hr : v.reserve A ((some bs.length).getD bs.length) with
    | none => simp only [hr] at hp; cases hp
    | some w =>
      simp only [hr] at hp
      have ht := h.reserve hA hr
      have hroom : w.len + bs.length ≤ w.cap := by
        have := (reserve_some hr).2.2.1
        rw [(reserve_some hr).1]
        simpa using this
      rw [if_pos (by omega)] at hp
      by_cases hl : w.len + bs.length ≤ usizeMax
      · simp only [if_pos hl, Played.done.injEq, Prod.mk.injEq] at hp
        obtain ⟨rfl, rfl, rfl, rfl⟩ := hp
        have h5 := (ht.touch hroom (copyOf bs)).commit (first_copy s.mine s.data bs)
        refine ⟨⟨h5.holds, fun i b hb => h5.mine i b ?_, h5.fits⟩, rfl⟩
        change Io.touch s.mine 0 bs.length (copyOf bs) (i + bs.length) = some b
        unfold Io.touch
        rw [if_neg (by omega)]
        exact hb
      · simp only [if_neg hl] at hp
        cases hp

/-- A history. -/
theorem Tracks.plays (hA : A.Keeps) : ∀ (l : List SCall) {v v' : RawVec} {s s' : Ledger} {o : List (Option UInt8)} {e : List UInt8},
    Tracks v s → SCall.plays A l v s = .done (v', s', o, e) → Tracks v' s' ∧ o = e.map some
  | [], v, v', s, s', o, e, h, hp => by
    simp only [SCall.plays, Played.done.injEq, Prod.mk.injEq] at hp
    obtain ⟨rfl, rfl, rfl, rfl⟩ := hp
    exact ⟨h, rfl⟩
  | c :: l, v, v', s, s', o, e, h, hp => by
    simp only [SCall.plays] at hp
    cases hc : c.play A v s with
    | panic => simp [hc] at hp
    | breach => simp [hc] at hp
    | done x =>
      obtain ⟨w, u, o1, e1⟩ := x
      simp only [hc] at hp
      have h1 := h.play hA c hc
      cases hl : SCall.plays A l w u with
      | panic => simp [hl] at hp
      | breach => simp [hl] at hp
      | done x =>
        obtain ⟨w', u', o2, e2⟩ := x
        simp only [hl, Played.done.injEq, Prod.mk.injEq] at hp
        obtain ⟨rfl, rfl, rfl, rfl⟩ := hp
        have h2 := Tracks.plays hA l h1.1 hl
        exact ⟨h2.1, by rw [h1.2, h2.2, List.map_append]⟩

/-- The vector and what the caller knows about all its cells, before anything is committed. -/
structure Fresh (v : RawVec) (s : Ledger) : Prop where
  len : v.len = 0
  data : s.data = []
  mine : ∀ i b, s.mine i = some b → i < v.cap ∧ v.mem i = some b

theorem Fresh.map (hA : A.Keeps) (h : Fresh v s) (idx len : Nat) (t : Touch) {s' : Ledger}
    (hp : MCall.play A v s (.map idx len t) = .done (v', s')) : Fresh v' s' := by
  have key : ∀ w : RawVec, v.mmap A idx len = some (some w) → w.len = 0 ∧ v.cap ≤ w.cap ∧ idx + len ≤ w.cap ∧ ∀ i < v.cap, w.mem i = v.mem i := by
    intro w hw
    unfold RawVec.mmap at hw
    by_cases h1 : idx + len ≤ usizeMax
    · rw [if_pos h1] at hw
      by_cases h2 : idx + len > v.len
      · rw [if_pos h2] at hw
        cases hr : v.reserve A (idx + len - v.len) with
        | none => simp [hr] at hw
        | some x =>
          simp only [hr] at hw
          split at hw
          · cases hw
            have := reserve_some hr
            exact ⟨by rw [this.1, h.len], this.2.1, by assumption, this.2.2.2.2.1 hA⟩
          · cases hw
      · rw [if_neg h2] at hw
        split at hw
        · cases hw
          exact ⟨h.len, Nat.le_refl _, by assumption, fun _ _ => rfl⟩
        · cases hw
    · rw [if_neg h1] at hw
      cases hw
  simp only [MCall.play] at hp
  cases hm : v.mmap A idx len with
  | none => simp [hm] at hp
  | some x =>
    cases x with
    | none =>
      simp only [hm, Played.done.injEq, Prod.mk.injEq] at hp
      obtain ⟨rfl, rfl⟩ := hp
      exact h
    | some w =>
      simp only [hm, Played.done.injEq, Prod.mk.injEq] at hp
      obtain ⟨rfl, rfl⟩ := hp
      obtain ⟨h1, h2, h3, h4⟩ := key w hm
      refine ⟨h1, h.data, fun i b hb => ?_⟩
      change touch s.mine idx len t i = some b at hb
      show i < w.cap ∧ touch w.mem idx len t i = some b
      unfold touch at hb ⊢
      by_cases hi : idx ≤ i ∧ i < idx + len
      · rw [if_pos hi] at hb ⊢
        refine ⟨by omega, ?_⟩
        cases ht : t (i - idx) with
        | some c => rw [ht] at hb; exact hb
        | none =>
          rw [ht] at hb
          have := h.mine i b hb
          rw [Option.getD_none, h4 i this.1]
          exact this.2
      · rw [if_neg hi] at hb ⊢
        have := h.mine i b hb
        exact ⟨by omega, by rw [h4 i this.1]; exact this.2⟩

theorem RawVec.Holds.sound {v : RawVec} {data : List UInt8} (h : v.Holds data) : v.Sound :=
  ⟨h.2.1, fun i hi hn => by
    rw [h.2.2 i hi, List.getElem?_eq_none_iff, ← h.1] at hn
    omega⟩

theorem tracks_of {data : List UInt8} {more : Nat} (h : data.length + more ≤ isizeMax) : Tracks (.of data more) (.of data) :=
  ⟨⟨rfl, Nat.le_add_right _ _, fun _ _ => rfl⟩, fun _ _ h => (by cases h), h⟩

end Verif.Io
