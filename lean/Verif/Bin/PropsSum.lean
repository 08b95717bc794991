import Verif.Bin.ModelSum
import Verif.Bin.SpecFormats
/-! # Properties of the DOS checksum and of the DOS stub -/
namespace Verif.Bin

/-! ## Specification -/

/-- The sum of the little-endian 16-bit words of some bytes: bytes at even positions count once, bytes at odd positions 256 times. -/
def wordSum (data : List UInt8) : Nat := (data.zipIdx.map fun (b, i) => if i % 2 = 0 then b.toNat else 256 * b.toNat).sum

/-- The file with the word at an offset replaced. -/
def setWord (data : List UInt8) (off : Nat) (v : BitVec 16) : List UInt8 :=
  data.take off ++ [UInt8.ofNat (v.toNat % 256), UInt8.ofNat (v.toNat / 256)] ++ data.drop (off + 2)

/-! ## Helper lemmas -/

/-- Sum from a position of some parity. -/
def wsum : Nat → List UInt8 → Nat
  | _, [] => 0
  | i, b :: l => (if i % 2 = 0 then b.toNat else 256 * b.toNat) + wsum (i + 1) l

theorem wordSum_from : ∀ (data : List UInt8) (i : Nat),
    ((data.zipIdx i).map fun (b, i) => if i % 2 = 0 then b.toNat else 256 * b.toNat).sum = wsum i data
  | [], _ => rfl
  | b :: l, i => by
    have := wordSum_from l (i + 1)
    simp only [List.zipIdx_cons, List.map_cons, List.sum_cons, wsum, this]

theorem wordSum_eq (data : List UInt8) : wordSum data = wsum 0 data := wordSum_from data 0

theorem wsum_add_two : ∀ (data : List UInt8) (i : Nat), wsum (i + 2) data = wsum i data
  | [], _ => rfl
  | b :: l, i => by
    have := wsum_add_two l (i + 1)
    simp only [wsum]
    rw [show i + 2 + 1 = i + 1 + 2 from rfl, this, Nat.add_mod_right]

theorem wsum_mod (data : List UInt8) (i : Nat) : wsum i data = wsum (i % 2) data := by
  have : ∀ k, wsum (i % 2 + 2 * k) data = wsum (i % 2) data := by
    intro k
    induction k with
    | zero => rfl
    | succ k ih => rw [show i % 2 + 2 * (k + 1) = i % 2 + 2 * k + 2 from by omega, wsum_add_two, ih]
  have h := this (i / 2)
  rwa [Nat.mod_add_div] at h

theorem wsum_append : ∀ (a b : List UInt8) (i : Nat), wsum i (a ++ b) = wsum i a + wsum (i + a.length) b
  | [], b, i => by simp [wsum]
  | x :: a, b, i => by
    have := wsum_append a b (i + 1)
    simp only [List.cons_append, wsum, this, List.length_cons]
    rw [show i + 1 + a.length = i + (a.length + 1) from by omega]
    omega

theorem sum_fold : ∀ (data : List UInt8) (acc : BitVec 16), (chunks2 data).foldlM sumStep acc = some (acc + BitVec.ofNat 16 (wsum 0 data))
  | [], acc => by simp [chunks2, wsum]
  | [a], acc => by simp [chunks2, wsum, sumStep]
  | a :: b :: l, acc => by
    have ih := sum_fold l (acc + BitVec.ofNat 16 (a.toNat + 256 * b.toNat))
    simp only [chunks2, List.foldlM_cons, sumStep, Option.bind_eq_bind, Option.bind_some, ih, wsum, wsum_add_two]
    rw [BitVec.add_assoc, ← BitVec.ofNat_add]
    simp [Nat.add_assoc]

/-! ## Properties -/

/-- `sum16` never panics, and is the sum of the little-endian words modulo 2^16. -/
theorem sum16_eq (data : List UInt8) : sum16 data = some (BitVec.ofNat 16 (wordSum data)) := by
  unfold sum16
  rw [sum_fold, wordSum_eq]
  simp

example : sum16 [0x34, 0x12, 0xff, 0xff, 0x07] = some (BitVec.ofNat 16 (0x1234 + 0xffff + 0x0007)) := by decide

/-- Data of odd length is summed as if a zero followed. (The same holds for a zero after data of even length.) -/
theorem sum16_odd (data : List UInt8) : sum16 (data ++ [0]) = sum16 data := by
  have : wordSum (data ++ [0]) = wordSum data := by
    rw [wordSum_eq, wordSum_eq, wsum_append]
    simp [wsum]
  rw [sum16_eq, sum16_eq, this]

example : [(1 : UInt8), 2, 3].length % 2 = 1 ∧ sum16 [1, 2, 3, 0] = some 0x0204 := by decide

/-- Data can be summed in parts, if the parts before the last have even length. -/
theorem sum16_append (a b : List UInt8) (h : a.length % 2 = 0) : ∃ x y, sum16 a = some x ∧ sum16 b = some y ∧ sum16 (a ++ b) = some (x + y) := by
  refine ⟨_, _, sum16_eq a, sum16_eq b, ?_⟩
  rw [sum16_eq, ← BitVec.ofNat_add, wordSum_eq, wordSum_eq, wordSum_eq, wsum_append, Nat.zero_add, wsum_mod b a.length, h]

/-- For parts of odd length this does not hold. -/
example : sum16 [1] = some 1 ∧ sum16 [1, 1] = some 0x101 ∧ sum16 ([1] ++ [1, 1]) = some 0x102 ∧ sum16 ([1] ++ [1]) = some 0x101 := by decide

theorem wsum_word (v : BitVec 16) (i : Nat) (hi : i % 2 = 0) :
    wsum i [UInt8.ofNat (v.toNat % 256), UInt8.ofNat (v.toNat / 256)] = v.toNat := by
  have hv : v.toNat < 65536 := v.isLt
  have h1 : (i + 1) % 2 ≠ 0 := by omega
  simp only [wsum, if_pos hi, if_neg h1]
  rw [UInt8.toNat_ofNat', UInt8.toNat_ofNat']
  have : v.toNat / 256 < 256 := by omega
  rw [Nat.mod_mod, Nat.mod_eq_of_lt this]
  omega

/-- The sum of a file as function of one of its words. -/
theorem sum16_setWord (data : List UInt8) (off : Nat) (heven : off % 2 = 0) (hoff : off + 2 ≤ data.length) :
    ∃ rest : BitVec 16, ∀ v, sum16 (setWord data off v) = some (rest + v) := by
  refine ⟨BitVec.ofNat 16 (wsum 0 (data.take off) + wsum 0 (data.drop (off + 2))), fun v => ?_⟩
  rw [sum16_eq, wordSum_eq, setWord, wsum_append, wsum_append]
  have hl : (data.take off).length = off := by simp; omega
  rw [List.length_append, hl, Nat.zero_add, Nat.zero_add, wsum_word v off heven, wsum_mod _ (off + _)]
  have : (off + [UInt8.ofNat (v.toNat % 256), UInt8.ofNat (v.toNat / 256)].length) % 2 = 0 := by simp; omega
  rw [this, Nat.add_right_comm, BitVec.ofNat_add, BitVec.ofNat_toNat]
  simp

/-- Storing the complement of the sum of the file with zeroed checksum makes the sum all ones, so that its complement is 0. No other
checksum does. -/
theorem checksum (data : List UInt8) (off : Nat) (heven : off % 2 = 0) (hoff : off + 2 ≤ data.length) :
    ∃ sum, sum16 (setWord data off 0) = some sum ∧ sum16 (setWord data off (~~~sum)) = some 0xffff ∧
      ∀ v, sum16 (setWord data off v) = some 0xffff → v = ~~~sum := by
  obtain ⟨rest, h⟩ := sum16_setWord data off heven hoff
  have hc : ∀ x : BitVec 16, x + ~~~x = 0xffff := by
    intro x
    have h : x + ~~~x = BitVec.allOnes 16 := BitVec.add_not_self x
    rw [h]
    decide
  refine ⟨rest, by rw [h]; simp, by rw [h, hc], fun v hv => ?_⟩
  rw [h, Option.some.injEq, ← hc rest] at hv
  exact (BitVec.add_right_inj rest).mp hv

example : setWord [1, 2, 9, 9, 5] 2 0 = [1, 2, 0, 0, 5] ∧ sum16 [1, 2, 0, 0, 5] = some 0x0206 ∧ setWord [1, 2, 9, 9, 5] 2 0xfdf9 = [1, 2, 0xf9, 0xfd, 5] ∧
    sum16 [1, 2, 0xf9, 0xfd, 5] = some 0xffff := by decide

/-- A changed word is always noticed. -/
theorem change_noticed (data : List UInt8) (off : Nat) (heven : off % 2 = 0) (hoff : off + 2 ≤ data.length) (v w : BitVec 16)
    (h : sum16 (setWord data off v) = sum16 (setWord data off w)) : v = w := by
  obtain ⟨rest, hr⟩ := sum16_setWord data off heven hoff
  rw [hr, hr, Option.some.injEq] at h
  exact (BitVec.add_right_inj rest).mp h

/-- Swapped words are not noticed. -/
theorem swap_unnoticed (a b : List UInt8) (x y x' y' : UInt8) (ha : a.length % 2 = 0) :
    sum16 (a ++ [x, y] ++ [x', y'] ++ b) = sum16 (a ++ [x', y'] ++ [x, y] ++ b) := by
  rw [sum16_eq, sum16_eq, wordSum_eq, wordSum_eq]
  congr 2
  have h1 : (0 + a.length) % 2 = 0 := by omega
  simp only [wsum_append, List.length_append, List.length_cons, List.length_nil, Nat.zero_add]
  have hz : ∀ (k : Nat) (l : List UInt8), k % 2 = 0 → wsum k l = wsum 0 l := fun k l hk => by rw [wsum_mod, hk]
  rw [hz a.length [x, y] ha, hz a.length [x', y'] ha, hz (a.length + (1 + 1)) [x, y] (by omega), hz (a.length + (1 + 1)) [x', y'] (by omega)]
  omega

/-! ## The stub -/

/-- The field of a header at a published offset. -/
def fieldOf (data : List UInt8) (table : List Placed) (name : String) : Option Nat :=
  (table.find? (·.name = name)).map fun p => number (slice data p.off p.size)

/-- The stub is a DOS file: it begins with the signature; the size of its header is the size of header and extension; the code is
loaded from there; the stack is above the code; the size calculated from the pages is the size of the stub; the new header follows
directly; and the checksum is right. -/
theorem stub_header :
    stubX86.length = 128 ∧ magic = [0x4d, 0x5a] ∧ stubX86.take 2 = magic ∧
    (fieldOf stubX86 dosHeaderTable "cp").bind (fun cp => (fieldOf stubX86 dosHeaderTable "cblp").map fun cblp => (cp - 1) * 512 + cblp) = some 128 ∧
    (fieldOf stubX86 dosHeaderTable "cparhdr").map (· * 16) = some 64 ∧
    fieldOf stubX86 dosHeaderTable "crlc" = some 0 ∧ fieldOf stubX86 dosHeaderTable "lfarlc" = some 64 ∧
    fieldOf stubX86 dosHeaderTable "ip" = some 0 ∧ fieldOf stubX86 dosHeaderTable "cs" = some 0 ∧
    fieldOf stubX86 dosHeaderTable "ss" = some 0 ∧ fieldOf stubX86 dosHeaderTable "sp" = some 128 ∧
    fieldOf stubX86 dosHeaderExtTable "lfanew" = some 128 ∧ sum16 stubX86 = some 0xffff := by decide +kernel

/-- The code of the stub: `push cs; pop ds; mov dx, 0x0e; mov ah, 9; int 0x21; mov ax, 0x4c01; int 0x21`. The message begins at 0x0e
behind the header, directly after the code, and ends with `$`, before which there is no other `$`. -/
theorem stub_code :
    slice stubX86 64 14 = [0x0e, 0x1f, 0xba, 0x0e, 0x00, 0xb4, 0x09, 0xcd, 0x21, 0xb8, 0x01, 0x4c, 0xcd, 0x21] ∧
    (stubX86.drop (64 + 0x0e)).takeWhile (· ≠ 0x24) = "This program cannot be run in DOS mode.\r\r\n".toUTF8.toList ∧
    0x24 ∈ stubX86.drop (64 + 0x0e) := by decide +kernel

end Verif.Bin
