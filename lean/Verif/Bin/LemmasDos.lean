import Verif.Bin.SpecDos
/-! # Lemmas on the DOS stub -/
namespace Verif.Bin.Dos

theorem stub_getD {file : List UInt8} (h : Stubbed file) {i : Nat} (hi : i < 60) : file.getD i 0 = stubX86.getD i 0 := by
  obtain ⟨l, rest, hl, rfl⟩ := h
  rw [List.append_assoc, List.append_assoc, List.getD_eq_getElem?_getD, List.getD_eq_getElem?_getD,
    List.getElem?_append_left (by rw [List.length_take]; have : stubX86.length = 128 := rfl; omega), List.getElem?_take, if_pos hi]

theorem stub_header {file : List UInt8} (h : Stubbed file) :
    header file = { cblp := 128, cp := 1, crlc := 0, cparhdr := 4, minalloc := 0, maxalloc := 0xffff, ss := 0, sp := 128, ip := 0, cs := 0, lfarlc := 64 } := by
  rw [show ({ cblp := 128, cp := 1, crlc := 0, cparhdr := 4, minalloc := 0, maxalloc := 0xffff, ss := 0, sp := 128, ip := 0, cs := 0, lfarlc := 64 } : Header)
    = header stubX86 by decide +kernel]
  have hw : ∀ i, i < 59 → word file i = word stubX86 i := by
    intro i hi
    unfold word
    rw [stub_getD h (by omega), stub_getD h (by omega)]
  unfold header
  rw [hw 2 (by omega), hw 4 (by omega), hw 6 (by omega), hw 8 (by omega), hw 10 (by omega), hw 12 (by omega), hw 14 (by omega), hw 16 (by omega),
    hw 20 (by omega), hw 22 (by omega), hw 24 (by omega)]

theorem stub_image {file : List UInt8} (h : Stubbed file) : image file = stubX86.drop 64 := by
  unfold image Header.size
  rw [stub_header h]
  simp only
  obtain ⟨l, rest, hl, rfl⟩ := h
  have h1 : (stubX86.take 60 ++ l).length = 64 := by rw [List.length_append, hl]; rfl
  have h2 : (stubX86.take 60 ++ l ++ stubX86.drop 64).length = 128 := by rw [List.length_append, h1]; rfl
  rw [if_neg (by decide), List.take_left' h2, List.drop_left' h1]

/-- A byte of the program. -/
def code (i : Nat) : UInt8 := stubX86.getD (64 + i) 0

theorem image_getD {file : List UInt8} (h : Stubbed file) (i : Nat) : (image file).getD i 0 = code i := by
  rw [stub_image h, code, List.getD_eq_getElem?_getD, List.getD_eq_getElem?_getD, List.getElem?_drop]

theorem image_length {file : List UInt8} (h : Stubbed file) : (image file).length = 64 := by rw [stub_image h]; rfl

theorem loaded_eq {file : List UInt8} (h : Stubbed file) (start : Nat) (m : Mem) :
    loaded file start m = fun x => if start * 16 ≤ x ∧ x < start * 16 + 64 then code (x - start * 16) else m x := by
  unfold loaded
  rw [stub_header h]
  simp only [List.range_zero, List.foldl_nil]
  funext x
  rw [image_getD h, image_length h]

/-! ## Addresses -/

theorem addr_low {seg off : BitVec 16} (hs : seg.toNat * 16 + 64 ≤ 0xa0000) (ho : off.toNat < 0x80) : addr seg off = seg.toNat * 16 + off.toNat := by
  unfold addr; omega

/-- The code is in memory. -/
def Code (seg : BitVec 16) (m : Mem) : Prop := ∀ i, i < 64 → m (seg.toNat * 16 + i) = code i

theorem code_at {seg off : BitVec 16} {m : Mem} (hs : seg.toNat * 16 + 64 ≤ 0xa0000) (hc : Code seg m) (ho : off.toNat < 64) : m (addr seg off) = code off.toNat := by
  rw [addr_low hs (by omega), hc _ ho]

theorem fetch_code {c : Cpu} {m : Mem} (hs : c.cs.toNat * 16 + 64 ≤ 0xa0000) (hc : Code c.cs m) {k i : BitVec 16} (hk : c.ip = k) (ho : (k + i).toNat < 64) :
    fetch c m i = code (k + i).toNat := by
  unfold fetch
  rw [hk, code_at hs hc ho]

theorem word_code {seg off : BitVec 16} {m : Mem} (hs : seg.toNat * 16 + 64 ≤ 0xa0000) (hc : Code seg m) (h1 : off.toNat < 64) (h2 : (off + 1).toNat < 64) :
    loadWord m seg off = BitVec.ofNat 16 ((code off.toNat).toNat + 256 * (code (off + 1).toNat).toNat) := by
  unfold loadWord
  rw [code_at hs hc h1, code_at hs hc h2]

/-! ## Strings -/

theorem string_eq (m : Mem) (seg : BitVec 16) (l : List UInt8) : ∀ (fuel : Nat) (off : BitVec 16), l.length < fuel → (∀ b ∈ l, b ≠ 0x24) →
    (∀ (i : Nat) (b : UInt8), (l ++ [0x24])[i]? = some b → m (addr seg (off + BitVec.ofNat 16 i)) = b) → string m seg fuel off = some l := by
  induction l with
  | nil =>
    intro fuel off hf _ hm
    obtain ⟨f, rfl⟩ : ∃ f, fuel = f + 1 := ⟨fuel - 1, by simp at hf; omega⟩
    have := hm 0 0x24 rfl
    rw [show off + BitVec.ofNat 16 0 = off from BitVec.add_zero off] at this
    rw [string, if_pos this]
  | cons b l ih =>
    intro fuel off hf hn hm
    obtain ⟨f, rfl⟩ : ∃ f, fuel = f + 1 := ⟨fuel - 1, by simp at hf; omega⟩
    have h0 := hm 0 b rfl
    rw [show off + BitVec.ofNat 16 0 = off from BitVec.add_zero off] at h0
    rw [string, if_neg (by rw [h0]; exact hn b (List.mem_cons_self ..)), h0, ih f (off + 1) (by simp at hf; omega)
      (fun x hx => hn x (List.mem_cons_of_mem _ hx))]
    · rfl
    · intro i x hx
      have := hm (i + 1) x (by simpa using hx)
      rwa [show off + BitVec.ofNat 16 (i + 1) = off + 1 + BitVec.ofNat 16 i by
        rw [BitVec.ofNat_add, BitVec.add_comm (BitVec.ofNat 16 i), ← BitVec.add_assoc]; rfl] at this

theorem line_length : line.length = 42 := by decide +kernel
theorem line_clean : ∀ b ∈ line, b ≠ 0x24 := by decide +kernel
theorem line_code : ∀ i, i < 43 → (line ++ [0x24])[i]? = some (code (14 + i)) := by decide +kernel

theorem print_line {seg : BitVec 16} {m : Mem} (hs : seg.toNat * 16 + 64 ≤ 0xa0000) (hc : Code seg m) : string m seg 65536 0x0e#16 = some line := by
  refine string_eq m seg line _ _ (by rw [line_length]; decide) line_clean ?_
  intro i b hb
  have hi : i < 43 := by
    have := (List.getElem?_eq_some_iff.mp hb).1
    rw [List.length_append, line_length] at this
    exact this
  rw [line_code i hi] at hb
  cases hb
  have ht : (0x0e#16 + BitVec.ofNat 16 i).toNat = 14 + i := by
    rw [BitVec.toNat_add, BitVec.toNat_ofNat, BitVec.toNat_ofNat]; omega
  rw [code_at hs hc (by omega), ht]

/-! ## The course of the program -/

/-- The memory but for the stack, and the segments, stay the same. -/
structure Same (seg : BitVec 16) (m0 : Mem) (s : State) : Prop where
  cs : s.cpu.cs = seg
  ss : s.cpu.ss = seg
  mem : ∀ a, a < seg.toNat * 16 + 64 ∨ seg.toNat * 16 + 128 ≤ a → s.mem a = m0 a

/-- What holds after each step. -/
def At (seg : BitVec 16) (s : State) : Nat → Prop
  | 0 => s.cpu.ip = 0 ∧ s.cpu.sp = 0x80#16 ∧ s.out = [] ∧ s.exit = none
  | 1 => s.cpu.ip = 1 ∧ s.cpu.sp = 0x7e#16 ∧ loadWord s.mem seg 0x7e#16 = seg ∧ s.out = [] ∧ s.exit = none
  | 2 => s.cpu.ip = 2 ∧ s.cpu.sp = 0x80#16 ∧ s.cpu.ds = seg ∧ s.out = [] ∧ s.exit = none
  | 3 => s.cpu.ip = 5 ∧ s.cpu.sp = 0x80#16 ∧ s.cpu.ds = seg ∧ s.cpu.dx = 0x0e#16 ∧ s.out = [] ∧ s.exit = none
  | 4 => s.cpu.ip = 7 ∧ s.cpu.sp = 0x80#16 ∧ s.cpu.ds = seg ∧ s.cpu.dx = 0x0e#16 ∧ s.cpu.ax >>> 8 = 0x09#16 ∧ s.out = [] ∧ s.exit = none
  | 5 => s.cpu.ip = 9 ∧ s.cpu.sp = 0x80#16 ∧ s.out = line ∧ s.exit = none
  | 6 => s.cpu.ip = 12 ∧ s.cpu.sp = 0x80#16 ∧ s.cpu.ax = 0x4c01#16 ∧ s.out = line ∧ s.exit = none
  | 7 => s.cpu.sp = 0x80#16 ∧ s.out = line ∧ s.exit = some 1
  | _ => False

theorem exec_push {c : Cpu} {m : Mem} (h : fetch c m 0 = 0x0e) :
    exec c m = .next { c.set 4 (c.sp - 2) with ip := c.ip + 1 } (storeWord m c.ss (c.sp - 2) c.cs) := by
  unfold exec; rw [h]; rfl

theorem exec_pop {c : Cpu} {m : Mem} (h : fetch c m 0 = 0x1f) :
    exec c m = .next { c.set 4 (c.sp + 2) with ds := loadWord m c.ss c.sp, ip := c.ip + 1 } m := by
  unfold exec; rw [h]; rfl

theorem exec_dx {c : Cpu} {m : Mem} (h : fetch c m 0 = 0xba) :
    exec c m = .next { c.set 2 (loadWord m c.cs (c.ip + 1)) with ip := c.ip + 3 } m := by
  unfold exec; rw [h]; rfl

theorem exec_ah {c : Cpu} {m : Mem} (h : fetch c m 0 = 0xb4) :
    exec c m = .next { c.setByte 4 (fetch c m 1) with ip := c.ip + 2 } m := by
  unfold exec; rw [h]; rfl

theorem exec_ax {c : Cpu} {m : Mem} (h : fetch c m 0 = 0xb8) :
    exec c m = .next { c.set 0 (loadWord m c.cs (c.ip + 1)) with ip := c.ip + 3 } m := by
  unfold exec; rw [h]; rfl

theorem exec_int {c : Cpu} {m : Mem} (h : fetch c m 0 = 0xcd) : exec c m = .int (fetch c m 1) { c with ip := c.ip + 2 } := by
  unfold exec; rw [h]; rfl

theorem store_other {m : Mem} {a x : Nat} {v : UInt8} (h : x ≠ a) : store m a v x = m x := by unfold store; rw [if_neg h]

theorem pushed {seg : BitVec 16} (hs : seg.toNat * 16 + 64 ≤ 0xa0000) (m : Mem) :
    (∀ a, a < seg.toNat * 16 + 64 ∨ seg.toNat * 16 + 128 ≤ a → storeWord m seg 0x7e#16 seg a = m a)
      ∧ loadWord (storeWord m seg 0x7e#16 seg) seg 0x7e#16 = seg := by
  have h1 : addr seg 0x7e#16 = seg.toNat * 16 + 126 := addr_low hs (by decide)
  have h2 : addr seg (0x7e#16 + 1) = seg.toNat * 16 + 127 := addr_low hs (by decide)
  constructor
  · intro a ha
    unfold storeWord
    rw [h1, h2, store_other (by omega), store_other (by omega)]
  · unfold loadWord storeWord
    rw [h1, h2]
    have := seg.isLt
    rw [store_other (by omega)]
    unfold store
    rw [if_pos rfl, if_pos rfl, UInt8.toNat_ofNat', UInt8.toNat_ofNat']
    apply BitVec.eq_of_toNat_eq
    rw [BitVec.toNat_ofNat]
    omega

/-- What interrupts do to the stack. -/
theorem scratched {seg sp : BitVec 16} (hs : seg.toNat * 16 + 64 ≤ 0xa0000) {depth : Nat} {c : Cpu} {m m' : Mem} (h : Scratch depth c m m') (hc : c.ss = seg)
    (hp : c.sp = sp) (hd : 64 + depth ≤ sp.toNat) (ht : sp.toNat ≤ 128) {a : Nat} (ha : a < seg.toNat * 16 + 64 ∨ seg.toNat * 16 + sp.toNat ≤ a) : m' a = m a := by
  apply Decidable.byContradiction
  intro hn
  obtain ⟨k, h1, h2, rfl⟩ := h a hn
  have hk : (c.sp - BitVec.ofNat 16 k).toNat = sp.toNat - k := by
    rw [hp, BitVec.toNat_sub, BitVec.toNat_ofNat]
    have := sp.isLt
    omega
  rw [hc, addr_low hs (by omega), hk] at ha
  omega

theorem word_scratched {seg sp off : BitVec 16} (hs : seg.toNat * 16 + 64 ≤ 0xa0000) {depth : Nat} {c : Cpu} {m m' : Mem} (h : Scratch depth c m m') (hc : c.ss = seg)
    (hp : c.sp = sp) (hd : 64 + depth ≤ sp.toNat) (ht : sp.toNat ≤ 128) (h1 : sp.toNat ≤ off.toNat) (h2 : off.toNat < 127) : loadWord m' seg off = loadWord m seg off := by
  have h3 : (off + 1).toNat = off.toNat + 1 := by rw [BitVec.toNat_add]; simp; omega
  unfold loadWord
  rw [addr_low hs (by omega), addr_low hs (by omega), scratched hs h hc hp hd ht (by omega), scratched hs h hc hp hd ht (by omega)]

/-- Everything that holds after a number of steps. -/
def Inv (seg : BitVec 16) (m0 : Mem) (n : Nat) (s : State) : Prop := Same seg m0 s ∧ At seg s n

theorem inv_scratch {seg : BitVec 16} {m0 m : Mem} {n depth : Nat} {s : State} (hs : seg.toNat * 16 + 64 ≤ 0xa0000) (hd : depth ≤ 62) (h : Inv seg m0 n s)
    (hm : Scratch depth s.cpu s.mem m) : Inv seg m0 n { s with mem := m } := by
  obtain ⟨⟨h1, h2, h3⟩, h4⟩ := h
  have main : ∀ sp : BitVec 16, s.cpu.sp = sp → 126 ≤ sp.toNat → sp.toNat ≤ 128 → Same seg m0 { s with mem := m } := by
    intro sp hp hl hu
    refine ⟨h1, h2, fun a ha => ?_⟩
    show m a = m0 a
    rw [scratched hs hm h2 hp (by omega) hu (by omega), h3 a ha]
  match n, h4 with
  | 0, h4 => exact ⟨main _ h4.2.1 (by decide) (by decide), h4⟩
  | 1, h4 => exact ⟨main _ h4.2.1 (by decide) (by decide), h4.1, h4.2.1,
      (word_scratched hs hm h2 h4.2.1 (by rw [show (0x7e#16).toNat = 126 from rfl]; omega) (by decide) (by decide) (by decide)).trans h4.2.2.1, h4.2.2.2⟩
  | 2, h4 => exact ⟨main _ h4.2.1 (by decide) (by decide), h4⟩
  | 3, h4 => exact ⟨main _ h4.2.1 (by decide) (by decide), h4⟩
  | 4, h4 => exact ⟨main _ h4.2.1 (by decide) (by decide), h4⟩
  | 5, h4 => exact ⟨main _ h4.2.1 (by decide) (by decide), h4⟩
  | 6, h4 => exact ⟨main _ h4.2.1 (by decide) (by decide), h4⟩
  | 7, h4 => exact ⟨main _ h4.1 (by decide) (by decide), h4⟩

theorem step_next {depth : Nat} {s u : State} {c : Cpu} {m : Mem} (h : exec s.cpu s.mem = .next c m) (hu : Step depth s u) : u = { s with cpu := c, mem := m } := by
  cases hu with
  | instruction hx h' => rw [h] at h'; cases h'; rfl
  | print hx h' => rw [h] at h'; cases h'
  | terminate hx h' => rw [h] at h'; cases h'

/-- Each step of the program, and that there is one. -/
theorem inv_step {seg : BitVec 16} {m0 : Mem} {n depth : Nat} {s : State} (hs : seg.toNat * 16 + 64 ≤ 0xa0000) (hd : depth ≤ 62) (hc : Code seg m0) (h : Inv seg m0 n s) :
    (∀ u, Step depth s u → Inv seg m0 (n + 1) u) ∧ (n < 7 → ∃ u, Step depth s u) := by
  obtain ⟨⟨h1, h2, h3⟩, h4⟩ := h
  have hcode : Code seg s.mem := fun i hi => by rw [h3 _ (.inl (by omega)), hc i hi]
  have hf : ∀ k i : BitVec 16, s.cpu.ip = k → (k + i).toNat < 64 → fetch s.cpu s.mem i = code (k + i).toNat := fun k i hk ho =>
    fetch_code (by rw [h1]; exact hs) (by rw [h1]; exact hcode) hk ho
  have hw : ∀ k : BitVec 16, k.toNat < 64 → (k + 1).toNat < 64 → loadWord s.mem s.cpu.cs k = BitVec.ofNat 16 ((code k.toNat).toNat + 256 * (code (k + 1).toNat).toNat) :=
    fun k ha hb => by rw [h1]; exact word_code hs hcode ha hb
  match n, h4 with
  | 0, ⟨hi, hp, ho, hx⟩ =>
    have he := exec_push (c := s.cpu) (m := s.mem) (by rw [hf 0 0 hi (by decide)]; decide +kernel)
    refine ⟨fun u hu => ?_, fun _ => ⟨_, .instruction hx he⟩⟩
    obtain rfl := step_next he hu
    obtain ⟨p1, p2⟩ := pushed hs s.mem
    have hq : s.cpu.sp - 2 = 0x7e#16 := by rw [hp]; decide
    rw [hq, h1, h2]
    refine ⟨⟨h1, h2, fun a ha => (p1 a ha).trans (h3 a ha)⟩, ?_, rfl, p2, ho, hx⟩
    show s.cpu.ip + 1 = 1
    rw [hi]; decide
  | 1, ⟨hi, hp, hl, ho, hx⟩ =>
    have he := exec_pop (c := s.cpu) (m := s.mem) (by rw [hf 1 0 hi (by decide)]; decide +kernel)
    refine ⟨fun u hu => ?_, fun _ => ⟨_, .instruction hx he⟩⟩
    obtain rfl := step_next he hu
    refine ⟨⟨h1, h2, h3⟩, ?_, ?_, ?_, ho, hx⟩
    · show s.cpu.ip + 1 = 2
      rw [hi]; decide
    · show s.cpu.sp + 2 = 0x80#16
      rw [hp]; decide
    · show loadWord s.mem s.cpu.ss s.cpu.sp = seg
      rw [h2, hp, hl]
  | 2, ⟨hi, hp, hl, ho, hx⟩ =>
    have he := exec_dx (c := s.cpu) (m := s.mem) (by rw [hf 2 0 hi (by decide)]; decide +kernel)
    refine ⟨fun u hu => ?_, fun _ => ⟨_, .instruction hx he⟩⟩
    obtain rfl := step_next he hu
    refine ⟨⟨h1, h2, h3⟩, ?_, hp, hl, ?_, ho, hx⟩
    · show s.cpu.ip + 3 = 5
      rw [hi]; decide
    · show loadWord s.mem s.cpu.cs (s.cpu.ip + 1) = 0x0e#16
      rw [hi, hw _ (by decide) (by decide)]; decide +kernel
  | 3, ⟨hi, hp, hl, hdx, ho, hx⟩ =>
    have he := exec_ah (c := s.cpu) (m := s.mem) (by rw [hf 5 0 hi (by decide)]; decide +kernel)
    refine ⟨fun u hu => ?_, fun _ => ⟨_, .instruction hx he⟩⟩
    obtain rfl := step_next he hu
    refine ⟨⟨h1, h2, h3⟩, ?_, hp, hl, hdx, ?_, ho, hx⟩
    · show s.cpu.ip + 2 = 7
      rw [hi]; decide
    · show ((s.cpu.reg 0 &&& 0x00ff#16) ||| BitVec.ofNat 16 ((fetch s.cpu s.mem 1).toNat * 256)) >>> 8 = 0x09#16
      rw [hf 5 1 hi (by decide)]
      rw [show BitVec.ofNat 16 ((code (5 + 1 : BitVec 16).toNat).toNat * 256) = 0x0900#16 by decide +kernel]
      generalize s.cpu.reg 0 = x
      apply BitVec.eq_of_toNat_eq
      rw [BitVec.toNat_ushiftRight, BitVec.toNat_or, BitVec.toNat_and, Nat.shiftRight_or_distrib, Nat.shiftRight_and_distrib]
      simp
  | 4, ⟨hi, hp, hl, hdx, ha, ho, hx⟩ =>
    have he := exec_int (c := s.cpu) (m := s.mem) (by rw [hf 7 0 hi (by decide)]; decide +kernel)
    rw [hf 7 1 hi (by decide), show code (7 + 1 : BitVec 16).toNat = 0x21 by decide +kernel] at he
    have hstr : string s.mem s.cpu.ds 65536 s.cpu.dx = some line := by rw [hl, hdx]; exact print_line hs hcode
    refine ⟨fun u hu => ?_, fun _ => ⟨_, .print hx he ha hstr 0 0 (fun a hn => (hn rfl).elim)⟩⟩
    cases hu with
    | instruction hx h' => rw [he] at h'; cases h'
    | @print c str hx h' ha' hs' ax flags m hm =>
      rw [he] at h'
      cases h'
      rw [show string s.mem s.cpu.ds 65536 s.cpu.dx = some str from hs'] at hstr
      cases hstr
      have := inv_scratch (n := 5) (m := m) hs hd (s := ⟨{ ({ s.cpu with ip := s.cpu.ip + 2 } : Cpu).set 0 ax with flags := flags }, s.mem, s.out ++ line, none⟩)
        (m0 := m0) (seg := seg) ⟨⟨h1, h2, h3⟩, by show s.cpu.ip + 2 = 9; rw [hi]; decide, hp, by show s.out ++ line = line; rw [ho]; rfl, rfl⟩ hm
      exact this
    | terminate hx h' ha' =>
      rw [he] at h'
      cases h'
      rw [show s.cpu.ax >>> 8 = 0x4c#16 from ha'] at ha
      exact absurd ha (by decide)
  | 5, ⟨hi, hp, ho, hx⟩ =>
    have he := exec_ax (c := s.cpu) (m := s.mem) (by rw [hf 9 0 hi (by decide)]; decide +kernel)
    refine ⟨fun u hu => ?_, fun _ => ⟨_, .instruction hx he⟩⟩
    obtain rfl := step_next he hu
    refine ⟨⟨h1, h2, h3⟩, ?_, hp, ?_, ho, hx⟩
    · show s.cpu.ip + 3 = 12
      rw [hi]; decide
    · show loadWord s.mem s.cpu.cs (s.cpu.ip + 1) = 0x4c01#16
      rw [hi, hw _ (by decide) (by decide)]; decide +kernel
  | 6, ⟨hi, hp, ha, ho, hx⟩ =>
    have he := exec_int (c := s.cpu) (m := s.mem) (by rw [hf 12 0 hi (by decide)]; decide +kernel)
    rw [hf 12 1 hi (by decide), show code (12 + 1 : BitVec 16).toNat = 0x21 by decide +kernel] at he
    have ha2 : ({ s.cpu with ip := s.cpu.ip + 2 } : Cpu).ax = 0x4c01#16 := ha
    refine ⟨fun u hu => ?_, fun _ => ⟨_, .terminate hx he (by rw [ha2]; decide)⟩⟩
    cases hu with
    | instruction hx h' => rw [he] at h'; cases h'
    | print hx h' ha' =>
      rw [he] at h'
      cases h'
      rw [ha2] at ha'
      exact absurd ha' (by decide)
    | terminate hx h' ha' =>
      rw [he] at h'
      cases h'
      rw [ha2]
      exact ⟨⟨h1, h2, h3⟩, hp, ho, rfl⟩
  | 7, ⟨hp, ho, hx⟩ =>
    refine ⟨fun u hu => ?_, fun h => absurd h (by decide)⟩
    cases hu with
    | instruction h' => rw [hx] at h'; cases h'
    | print h' => rw [hx] at h'; cases h'
    | terminate h' => rw [hx] at h'; cases h'

theorem inv_runs {seg : BitVec 16} {m0 : Mem} {depth : Nat} {s : State} (hs : seg.toNat * 16 + 64 ≤ 0xa0000) (hd : depth ≤ 62) (hc : Code seg m0) (h : Inv seg m0 0 s)
    {n : Nat} {t : State} (hr : Runs depth s n t) : Inv seg m0 n t := by
  induction hr with
  | start => exact h
  | step hr hu ih => exact (inv_step hs hd hc ih).1 _ hu
  | interrupt hr hm ih => exact inv_scratch hs hd ih hm

theorem inv_start {file : List UInt8} (hf : Stubbed file) {start : BitVec 16} {extra : Nat} {m : Mem} {s : State} (h : Start file start extra m s) :
    start.toNat * 16 + 64 ≤ 0xa0000 ∧ Code start s.mem ∧ Inv start s.mem 0 s := by
  have hfit := h.fits
  unfold space at hfit
  rw [image_length hf] at hfit
  have hcs := h.cs
  have hip := h.ip
  have hss := h.ss
  have hsp := h.sp
  rw [stub_header hf] at hcs hip hss hsp
  refine ⟨by omega, ?_, ⟨by rw [hcs]; exact BitVec.add_zero _, by rw [hss]; exact BitVec.add_zero _, fun _ _ => rfl⟩, hip, hsp, h.out, h.exit⟩
  intro i hi
  rw [h.mem, loaded_eq hf]
  simp only
  rw [if_pos (by omega)]
  congr 1
  omega

end Verif.Bin.Dos
