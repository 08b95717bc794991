import Verif.Io.LemmasGrow
import Verif.Io.PropsVec
/-! # Properties of growing vectors

C100: what is put into a vector piece by piece is copied a fixed number of times on average, however many pieces there are. -/
namespace Verif.Io

/-- C100. Streams: over every history of calls, the bytes that are copied because the vector grows are at most twice the furthest end
that was asked for. -/
theorem stream_moves {A : Alloc} (hA : A.Doubles) (l : List SCall) (v : RawVec) (s : Ledger) :
    (SCall.cost A l v s).moved ≤ 2 * (SCall.cost A l v s).reach := by
  have := (paid_kept hA (SCall.cost A l v s).reach).scost l v s 0 ⟨by omega, .inl (by omega)⟩ (Nat.le_refl _)
  rw [Nat.zero_add] at this
  exact this.1

/-- C100. Maps: the same. -/
theorem map_moves {A : Alloc} (hA : A.Doubles) (l : List MCall) (v : RawVec) (s : Ledger) :
    (MCall.cost A l v s).moved ≤ 2 * (MCall.cost A l v s).reach := by
  have := (paid_kept hA (MCall.cost A l v s).reach).mcost l v s 0 ⟨by omega, .inl (by omega)⟩ (Nat.le_refl _)
  rw [Nat.zero_add] at this
  exact this.1

/-- C100. Streams: the vector takes at most twice the memory that was asked for at once, or what it had, or 8 bytes. -/
theorem stream_room {A : Alloc} (hA : A.Modest) (l : List SCall) (v : RawVec) (s : Ledger) :
    (SCall.cost A l v s).room ≤ max v.cap (max 8 (2 * (SCall.cost A l v s).reach)) :=
  (room_kept hA (SCall.cost A l v s).reach v.cap).scost l v s 0 (by omega) (Nat.le_refl _)

/-- C100. Maps: the same. -/
theorem map_room {A : Alloc} (hA : A.Modest) (l : List MCall) (v : RawVec) (s : Ledger) :
    (MCall.cost A l v s).room ≤ max v.cap (max 8 (2 * (MCall.cost A l v s).reach)) :=
  (room_kept hA (MCall.cost A l v s).reach v.cap).mcost l v s 0 (by omega) (Nat.le_refl _)

/-- C100. What is written to a stream: however the data is divided into pieces, at most two bytes are copied for each byte that the vector had
or got. -/
theorem writes_moves {A : Alloc} (hA : A.Doubles) (pieces : List (List UInt8)) (v : RawVec) (s : Ledger) :
    (SCall.cost A (pieces.map .write) v s).moved ≤ 2 * (v.len + pieces.flatten.length) := by
  have key : ∀ (pieces : List (List UInt8)) (v : RawVec) (s : Ledger),
      (SCall.cost A (pieces.map .write) v s).reach ≤ v.len + pieces.flatten.length := by
    intro pieces
    induction pieces with
    | nil => intro v s; exact Nat.zero_le _
    | cons p l ih =>
      intro v s
      rw [List.map_cons, SCall.cost]
      cases hp : SCall.play A v s (.write p) with
      | panic => exact Nat.zero_le _
      | breach => exact Nat.zero_le _
      | done x =>
        obtain ⟨v', s', o, e⟩ := x
        have hl : v'.len = v.len + p.length := by
          simp only [SCall.play] at hp
          split at hp
          · cases hp
          · rename_i w hw
            cases hp
            unfold RawVec.swrite at hw
            split at hw
            · cases hw
            · rename_i y n hv
              split at hw
              · unfold RawVec.commit at hw
                split at hw
                · cases hw
                  unfold RawVec.smap at hv
                  split at hv
                  · cases hv
                  · rename_i hr
                    cases hv
                    show y.len + p.length = _
                    rw [(reserve_some hr).1]
                · cases hw
              · cases hw
        have := ih v' s'
        simp only [SCall.reach, List.flatten_cons, List.length_append]
        omega
  have := stream_moves hA (pieces.map .write) v s
  have := key pieces v s
  omega

/-- C100. It takes an allocator that gives more than it is asked for: with one that does not, the bytes copied grow with the square of what is
written a byte at a time. -/
theorem doubling_needed (b : UInt8) (s : Ledger) (n : Nat) (hn : n ≤ isizeMax) :
    2 * (SCall.cost keeping (List.replicate n (.write [b])) (.of [] 0) s).moved = n * (n - 1) := by
  have key : ∀ (n : Nat) (v : RawVec) (s : Ledger), v.cap = v.len → v.len + n ≤ isizeMax →
      2 * (SCall.cost keeping (List.replicate n (.write [b])) v s).moved + n = n * (2 * v.len + n) := by
    intro n
    induction n with
    | zero => intro v s _ _; simp [SCall.cost]
    | succ n ih =>
      intro v s hc hv
      have h1 : v.len + 1 ≤ isizeMax := by omega
      have hu : v.len + 1 ≤ usizeMax := Nat.le_trans h1 (by decide)
      have hp : SCall.play keeping v s (.write [b]) = .done (⟨v.len + 1, v.len + 1, touch (fun i => if i < v.len then v.mem i else v.mem i) v.len 1 (copyOf [b])⟩,
          s.commit 1 [b], [], []) := by
        have hr : v.reserve keeping 1 = some ⟨v.len, v.len + 1, fun i => if i < v.len then v.mem i else v.mem i⟩ := by
          unfold RawVec.reserve
          rw [if_neg (by omega), if_pos h1]
          show some (RawVec.mk _ (max v.cap (v.len + 1)) _) = _
          rw [Nat.max_eq_right (by omega)]
          rfl
        have hw : v.swrite keeping [b] = some ⟨v.len + 1, v.len + 1, touch (fun i => if i < v.len then v.mem i else v.mem i) v.len 1 (copyOf [b])⟩ := by
          have hs : v.smap keeping 1 (some 1) = some (⟨v.len, v.len + 1, fun i => if i < v.len then v.mem i else v.mem i⟩, 1) := by
            unfold RawVec.smap
            rw [show v.reserve keeping ((some 1).getD 1) = _ from hr]
            simp only [Nat.add_sub_cancel_left]
          unfold RawVec.swrite
          rw [show v.smap keeping [b].length (some [b].length) = _ from hs]
          show (if 1 ≤ 1 then RawVec.commit _ 1 else none) = _
          rw [if_pos (Nat.le_refl 1)]
          unfold RawVec.commit
          rw [if_pos hu]
          rfl
        show (match v.swrite keeping [b] with | none => Played.panic | some v => .done (v, s.commit [b].length [b], [], [])) = _
        rw [hw]
        rfl
      rw [List.replicate_succ, SCall.cost, hp]
      have := ih ⟨v.len + 1, v.len + 1, touch (fun i => if i < v.len then v.mem i else v.mem i) v.len 1 (copyOf [b])⟩ (s.commit 1 [b]) rfl (by simp only []; omega)
      simp only [] at this ⊢
      have hm : SCall.moves v (.write [b]) = v.len := by
        show (if v.len + 1 ≤ v.cap then 0 else v.cap) = _
        rw [if_neg (by omega), hc]
      rw [hm]
      generalize (SCall.cost keeping _ _ _).moved = x at this
      generalize v.len = y at this
      have e : (n + 1) * (2 * y + (n + 1)) = n * (2 * (y + 1) + n) + 2 * y + 1 := by grind
      rw [e]
      omega
  have := key n (.of [] 0) s rfl (by show 0 + n ≤ _; omega)
  have e : n * (n - 1) + n = n * n := by
    cases n with
    | zero => rfl
    | succ n => rw [Nat.add_sub_cancel]; grind
  have e2 : n * (2 * (RawVec.of [] 0).len + n) = n * n := by
    show n * (2 * 0 + n) = _
    rw [Nat.mul_zero, Nat.zero_add]
  omega

/-- An allocator that doubles, to 8 bytes at least, as that of the standard library does. -/
def doubling : Alloc where
  grow v n := max (max v.cap (v.len + n)) (min (max 8 (2 * v.cap)) isizeMax)
  fresh v _ := v.mem
  enough v n := by constructor <;> omega
  fits v n h1 h2 := by omega

/-- The policies are those of an allocator. -/
theorem doubling_doubles : doubling.Doubles ∧ doubling.Modest := by
  constructor
  · intro v n; simp only [doubling]; omega
  · intro v n; simp only [doubling]; omega

/-- C100. Vectors whose growth is counted behave like those the contents are about (C36), as long as they fit into the address space: the same slices are
handed out, and the lengths are the same. -/
theorem growing_same (A : Alloc) (v : RawVec) (k idx n : Nat) (hv : v.len ≤ v.cap) (hc : v.cap ≤ isizeMax) (hn : idx + n ≤ isizeMax) :
    ((growWrite A).map (v, k) idx n).2 = (vecWrite.map v.len idx n).2
    ∧ ((growWrite A).map (v, k) idx n).1.1.len = (vecWrite.map v.len idx n).1
    ∧ ((growWrite A).map (v, k) idx n).1.1.len ≤ ((growWrite A).map (v, k) idx n).1.1.cap
    ∧ ((growWrite A).map (v, k) idx n).1.1.cap ≤ isizeMax
    ∧ ((growWrite A).commit (v, k) n).1.len = vecWrite.commit v.len n := by
  have hu : idx + n ≤ usizeMax := Nat.le_trans hn (by decide)
  have e : vecWrite.map v.len idx n = (v.len, .cont n) := if_pos hu
  obtain ⟨w, hw, h1, h2, h3⟩ : ∃ w, v.mmap A idx n = some (some w) ∧ w.len = v.len ∧ w.len ≤ w.cap ∧ w.cap ≤ isizeMax := by
    unfold RawVec.mmap
    rw [if_pos hu]
    by_cases hl : idx + n > v.len
    · rw [if_pos hl]
      unfold RawVec.reserve
      have hs : v.len + (idx + n - v.len) = idx + n := by omega
      by_cases hr : v.len + (idx + n - v.len) ≤ v.cap
      · rw [if_pos hr]
        exact ⟨v, if_pos (hs ▸ hr), rfl, hv, hc⟩
      · rw [if_neg hr, if_pos (by omega)]
        have := A.enough v (idx + n - v.len)
        exact ⟨_, if_pos (by show idx + n ≤ A.grow v (idx + n - v.len); omega), rfl, by show v.len ≤ A.grow v (idx + n - v.len); omega,
          A.fits v _ hc (by omega)⟩
    · rw [if_neg hl]
      exact ⟨v, if_pos (by omega), rfl, hv, hc⟩
  rw [e]
  have eg : (growWrite A).map (v, k) idx n = ((w, k + v.mmoves idx n), .cont n) := by
    unfold growWrite
    simp only [hw]
  rw [eg]
  exact ⟨rfl, h1, h2, h3, rfl⟩

/-- The hypotheses are met, by a vector that has to grow. -/
example : (RawVec.of [1, 2] 3).len ≤ (RawVec.of [1, 2] 3).cap ∧ (RawVec.of [1, 2] 3).cap ≤ isizeMax ∧ 2 + 5 ≤ isizeMax
    ∧ ((growWrite doubling).map (.of [1, 2] 3, 0) 2 5).1.1.cap = 10 := by decide +kernel

/-- 40 bytes, one at a time: the vector is moved with 8, 16 and 32 bytes. Without doubling, 780 bytes are copied. -/
example : SCall.cost doubling (List.replicate 40 (.write [7])) (.of [] 0) (.of []) = ⟨8 + 16 + 32, 40, 64⟩
    ∧ SCall.cost keeping (List.replicate 40 (.write [7])) (.of [] 0) (.of []) = ⟨780, 40, 40⟩ := by decide +kernel

/-- Maps: three ranges, the last of which needs no more memory. -/
example : MCall.cost doubling [.map 0 5 (copyOf [1]), .map 20 4 (copyOf []), .map 60 4 (copyOf []), .map 2 4 (copyOf [])] (.of [] 3) (.of [])
    = ⟨3 + 8 + 24, 64, 64⟩ := by decide +kernel

/-- Instances of `stream_moves` and `stream_room`. -/
example := stream_moves doubling_doubles.1 (List.replicate 40 (.write [7])) (.of [] 0) (.of [])
example := stream_room doubling_doubles.2 (List.replicate 40 (.write [7])) (.of [] 0) (.of [])

end Verif.Io
