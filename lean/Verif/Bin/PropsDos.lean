import Verif.Bin.LemmasDos
/-! # Properties of the DOS stub -/
namespace Verif.Bin.Dos

/-! ## C96: the stub as a program -/

/-- Wherever a file that begins with the stub is loaded, whatever else is in memory, in the file and in the registers, and whenever there are interrupts:
the program takes seven steps and never gets stuck. It then has printed the line and exited with the code 1, and before that has printed nothing else. -/
theorem stub_runs {file : List UInt8} (hf : Stubbed file) {start : BitVec 16} {extra depth : Nat} {m : Mem} {s t : State} (h : Start file start extra m s)
    (hd : depth ≤ 62) {n : Nat} (hr : Runs depth s n t) :
    n ≤ 7 ∧ (n < 7 → t.exit = none ∧ (t.out = [] ∨ t.out = line) ∧ ∃ u, Step depth t u) ∧ (n = 7 → t.exit = some 1 ∧ t.out = line) := by
  obtain ⟨hs, hc, h0⟩ := inv_start hf h
  have hi := inv_runs hs hd hc h0 hr
  have hp := (inv_step hs hd hc hi).2
  obtain ⟨-, ha⟩ := hi
  match n, ha with
  | 0, ha => exact ⟨by decide, fun hn => ⟨ha.2.2.2, .inl ha.2.2.1, hp hn⟩, fun hn => by cases hn⟩
  | 1, ha => exact ⟨by decide, fun hn => ⟨ha.2.2.2.2, .inl ha.2.2.2.1, hp hn⟩, fun hn => by cases hn⟩
  | 2, ha => exact ⟨by decide, fun hn => ⟨ha.2.2.2.2, .inl ha.2.2.2.1, hp hn⟩, fun hn => by cases hn⟩
  | 3, ha => exact ⟨by decide, fun hn => ⟨ha.2.2.2.2.2, .inl ha.2.2.2.2.1, hp hn⟩, fun hn => by cases hn⟩
  | 4, ha => exact ⟨by decide, fun hn => ⟨ha.2.2.2.2.2.2, .inl ha.2.2.2.2.2.1, hp hn⟩, fun hn => by cases hn⟩
  | 5, ha => exact ⟨by decide, fun hn => ⟨ha.2.2.2, .inr ha.2.2.1, hp hn⟩, fun hn => by cases hn⟩
  | 6, ha => exact ⟨by decide, fun hn => ⟨ha.2.2.2.2, .inr ha.2.2.2.1, hp hn⟩, fun hn => by cases hn⟩
  | 7, ha => exact ⟨by decide, fun hn => absurd hn (by decide), fun _ => ⟨ha.2.2, ha.2.1⟩⟩

/-- The program gets to its end. -/
theorem stub_ends {file : List UInt8} (hf : Stubbed file) {start : BitVec 16} {extra depth : Nat} {m : Mem} {s : State} (h : Start file start extra m s)
    (hd : depth ≤ 62) : ∃ t, Runs depth s 7 t ∧ t.exit = some 1 ∧ t.out = line := by
  have main : ∀ n, n ≤ 7 → ∃ t, Runs depth s n t := by
    intro n
    induction n with
    | zero => exact fun _ => ⟨s, .start⟩
    | succ n ih =>
      intro hn
      obtain ⟨t, ht⟩ := ih (by omega)
      obtain ⟨-, -, u, hu⟩ := (stub_runs hf h hd ht).2.1 (by omega)
      exact ⟨u, .step ht hu⟩
  obtain ⟨t, ht⟩ := main 7 (Nat.le_refl _)
  exact ⟨t, ht, (stub_runs hf h hd ht).2.2 rfl⟩

/-- No memory is changed but the 64 bytes behind the program. -/
theorem stub_stack {file : List UInt8} (hf : Stubbed file) {start : BitVec 16} {extra depth : Nat} {m : Mem} {s t : State} (h : Start file start extra m s)
    (hd : depth ≤ 62) {n : Nat} (hr : Runs depth s n t) {a : Nat} (ha : t.mem a ≠ s.mem a) : start.toNat * 16 + 64 ≤ a ∧ a < start.toNat * 16 + 128 := by
  obtain ⟨hs, hc, h0⟩ := inv_start hf h
  have hi := (inv_runs hs hd hc h0 hr).1.mem a
  apply Decidable.byContradiction
  intro hn
  exact ha (hi (by omega))

/-- If the program is given at least four additional paragraphs, it keeps to its memory. (Missing: it should do so with as few as it asks for, which are none at
all.) -/
theorem stub_confined_partial {file : List UInt8} (hf : Stubbed file) {start : BitVec 16} {extra depth : Nat} {m : Mem} {s t : State}
    (h : Start file start extra m s) (he : 4 ≤ extra) (hd : depth ≤ 62) {n : Nat} (hr : Runs depth s n t) {a : Nat}
    (ha : ¬(start.toNat * 16 ≤ a ∧ a < start.toNat * 16 + space file extra)) : t.mem a = s.mem a := by
  apply Decidable.byContradiction
  intro hn
  have := stub_stack hf h hd hr hn
  unfold space at ha
  rw [image_length hf] at ha
  omega

/-- A machine with a program just loaded. -/
def fresh (file : List UInt8) (start : BitVec 16) (m : Mem) : State :=
  ⟨⟨fun r => if r = 4 then BitVec.ofNat 16 (header file).sp else 0, start + BitVec.ofNat 16 (header file).cs, start - 16, start - 16,
    start + BitVec.ofNat 16 (header file).ss, BitVec.ofNat 16 (header file).ip, 0⟩, loaded file start.toNat m, [], none⟩

theorem fresh_start {file : List UInt8} (hf : Stubbed file) {start : BitVec 16} {extra : Nat} {m : Mem}
    (h : start.toNat * 16 + space file extra ≤ 0xa0000) : Start file start extra m (fresh file start m) where
  enough := by rw [stub_header hf]; exact Nat.zero_le _
  fits := h
  mem := rfl
  cs := rfl
  ip := rfl
  ss := rfl
  sp := rfl
  out := rfl
  exit := rfl

/-- With fewer paragraphs, which is all the header asks for, the first instruction overwrites memory that is not the program's, wherever it is loaded. -/
theorem stub_oversteps {file : List UInt8} (hf : Stubbed file) {start : BitVec 16} {extra : Nat} (he : extra < 4)
    (h : start.toNat * 16 + space file extra ≤ 0xa0000) : ∃ m s t a, Start file start extra m s ∧ Runs 0 s 1 t ∧
      start.toNat * 16 + space file extra ≤ a ∧ t.mem a ≠ s.mem a := by
  have hst := fresh_start hf (m := fun _ => UInt8.ofNat (start.toNat % 256) + 1) h
  obtain ⟨hs, hc, h0⟩ := inv_start hf hst
  have hstep := inv_step hs (Nat.zero_le 62) hc h0
  obtain ⟨t, ht⟩ := hstep.2 (by decide)
  obtain ⟨-, -, -, hw, -⟩ := hstep.1 t ht
  refine ⟨_, _, t, start.toNat * 16 + 126, hst, .step .start ht, by unfold space; rw [image_length hf]; omega, ?_⟩
  show t.mem _ ≠ loaded file start.toNat _ _
  rw [loaded_eq hf]
  simp only
  rw [if_neg (by omega)]
  intro hm
  unfold loadWord at hw
  rw [show addr start 0x7e#16 = start.toNat * 16 + 126 from addr_low hs (by decide), hm] at hw
  have hx := congrArg BitVec.toNat hw
  rw [BitVec.toNat_ofNat, UInt8.toNat_add, UInt8.toNat_ofNat'] at hx
  have : (1 : UInt8).toNat = 1 := rfl
  rw [this] at hx
  have := start.isLt
  omega

/-! Examples: the stub in front of `PE`, at the segment 0x1000 and at the end of the memory. -/

theorem example_file : Stubbed (stubX86 ++ [0x50, 0x45, 0, 0]) := ⟨[0x80, 0, 0, 0], [0x50, 0x45, 0, 0], rfl, by decide +kernel⟩

example : ∃ t, Runs 62 (fresh (stubX86 ++ [0x50, 0x45, 0, 0]) 0x1000 fun _ => 0xaa) 7 t ∧ t.exit = some 1 ∧
    t.out = "This program cannot be run in DOS mode.\r\r\n".toUTF8.toList := by
  obtain ⟨t, h1, h2, h3⟩ := stub_ends example_file (fresh_start example_file (start := 0x1000) (extra := 4) (m := fun _ => 0xaa)
    (by unfold space; rw [image_length example_file]; decide)) (depth := 62) (by decide)
  exact ⟨t, h1, h2, by rw [h3]; decide +kernel⟩

example : ∃ m s t a, Start (stubX86 ++ [0x50, 0x45, 0, 0]) 0x9ffc 0 m s ∧ Runs 0 s 1 t ∧ 0xa0000 ≤ a ∧ t.mem a ≠ s.mem a := by
  obtain ⟨m, s, t, a, h1, h2, h3, h4⟩ := stub_oversteps example_file (start := 0x9ffc) (extra := 0) (by decide)
    (by unfold space; rw [image_length example_file]; decide)
  refine ⟨m, s, t, a, h1, h2, ?_, h4⟩
  unfold space at h3
  rw [image_length example_file] at h3
  exact h3

/-- Instances of `stub_runs`, `stub_stack` and `stub_confined_partial`: the state after the seven steps. -/
example : ∃ t : State, t.exit = some 1 ∧ (∀ a, t.mem a ≠ (fresh (stubX86 ++ [0x50, 0x45, 0, 0]) 0x1000 fun _ => 0xaa).mem a →
      0x10040 ≤ a ∧ a < 0x10080) ∧ t.mem 0x20000 = (fresh (stubX86 ++ [0x50, 0x45, 0, 0]) 0x1000 fun _ => 0xaa).mem 0x20000 := by
  have hs : Start (stubX86 ++ [0x50, 0x45, 0, 0]) 0x1000 4 (fun _ => 0xaa) _ := fresh_start example_file
    (by unfold space; rw [image_length example_file]; decide)
  obtain ⟨t, h1, -, -⟩ := stub_ends example_file hs (depth := 62) (by decide)
  refine ⟨t, ((stub_runs example_file hs (by decide) h1).2.2 rfl).1,
    fun a ha => stub_stack example_file hs (by decide) h1 ha,
    stub_confined_partial example_file hs (by decide) (by decide) h1 ?_⟩
  unfold space
  rw [image_length example_file]
  decide

end Verif.Bin.Dos
