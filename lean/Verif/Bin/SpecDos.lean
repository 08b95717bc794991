import Verif.Bin.ModelDos
/-! # An 8086 and the services of DOS, as far as the stub needs them

This is the machine that the program in `STUB_X86` runs on: the instructions `push cs`, `pop ds`, `mov` of a constant to any register and
`int`, and the services of DOS to print a string and to exit. Everything else is not modelled, and a program that gets there is stuck. -/
namespace Verif.Bin.Dos

/-- General registers in the order of their numbers in instructions: AX, CX, DX, BX, SP, BP, SI, DI. -/
structure Cpu where
  reg : Fin 8 → BitVec 16
  cs : BitVec 16
  ds : BitVec 16
  es : BitVec 16
  ss : BitVec 16
  ip : BitVec 16
  flags : BitVec 16

def Cpu.ax (c : Cpu) : BitVec 16 := c.reg 0
def Cpu.dx (c : Cpu) : BitVec 16 := c.reg 2
def Cpu.sp (c : Cpu) : BitVec 16 := c.reg 4

def Cpu.set (c : Cpu) (r : Fin 8) (v : BitVec 16) : Cpu := { c with reg := fun x => if x = r then v else c.reg x }

/-- The registers of a byte, in the order of their numbers: AL, CL, DL, BL, AH, CH, DH, BH. -/
def Cpu.setByte (c : Cpu) (r : Fin 8) (v : UInt8) : Cpu :=
  let x : Fin 8 := ⟨r.val % 4, by omega⟩
  if r.val < 4 then c.set x ((c.reg x &&& 0xff00#16) ||| BitVec.ofNat 16 v.toNat)
  else c.set x ((c.reg x &&& 0x00ff#16) ||| BitVec.ofNat 16 (v.toNat * 256))

/-- A machine: processor, memory, what was printed and the code that the program exited with. -/
structure State where
  cpu : Cpu
  mem : Mem
  out : List UInt8
  exit : Option UInt8

/-- The linear address of an offset in a segment: segments are 16 bytes apart, and there are 20 bits. -/
def addr (seg off : BitVec 16) : Nat := (seg.toNat * 16 + off.toNat) % 0x100000

def store (m : Mem) (a : Nat) (v : UInt8) : Mem := fun x => if x = a then v else m x

/-- Writing a word to a segment: the byte with the lower value comes first. -/
def storeWord (m : Mem) (seg off v : BitVec 16) : Mem :=
  store (store m (addr seg off) (UInt8.ofNat (v.toNat % 256))) (addr seg (off + 1)) (UInt8.ofNat (v.toNat / 256))

def loadWord (m : Mem) (seg off : BitVec 16) : BitVec 16 :=
  BitVec.ofNat 16 ((m (addr seg off)).toNat + 256 * (m (addr seg (off + 1))).toNat)

/-- The outcome of an instruction: the next state, a software interrupt, or an instruction that is not modelled. -/
inductive Effect
  | next (cpu : Cpu) (mem : Mem)
  | int (n : UInt8) (cpu : Cpu)
  | unknown

/-- The byte of the program at some distance from the instruction pointer. -/
def fetch (c : Cpu) (m : Mem) (i : BitVec 16) : UInt8 := m (addr c.cs (c.ip + i))

/-- The instructions by their first byte. -/
def instruction (op : Nat) (c : Cpu) (m : Mem) : Effect :=
  if op = 0x0e then
    .next { c.set 4 (c.sp - 2) with ip := c.ip + 1 } (storeWord m c.ss (c.sp - 2) c.cs)
  else if op = 0x1f then
    .next { c.set 4 (c.sp + 2) with ds := loadWord m c.ss c.sp, ip := c.ip + 1 } m
  else if 0xb0 ≤ op ∧ op < 0xb8 then
    .next { c.setByte ⟨(op - 0xb0) % 8, by omega⟩ (fetch c m 1) with ip := c.ip + 2 } m
  else if 0xb8 ≤ op ∧ op < 0xc0 then
    .next { c.set ⟨(op - 0xb8) % 8, by omega⟩ (loadWord m c.cs (c.ip + 1)) with ip := c.ip + 3 } m
  else if op = 0xcd then
    .int (fetch c m 1) { c with ip := c.ip + 2 }
  else .unknown

def exec (c : Cpu) (m : Mem) : Effect := instruction (fetch c m 0).toNat c m

/-- The string at an offset, up to a dollar sign, which must come within the segment. -/
def string (m : Mem) (seg : BitVec 16) : Nat → BitVec 16 → Option (List UInt8)
  | 0, _ => none
  | fuel + 1, off => if m (addr seg off) = 0x24 then some [] else (string m seg fuel (off + 1)).map (m (addr seg off) :: ·)

/-- Interrupts and services use the stack of the program: they may overwrite `depth` bytes below the stack pointer. -/
def Scratch (depth : Nat) (c : Cpu) (m m' : Mem) : Prop :=
  ∀ a, m' a ≠ m a → ∃ k, 1 ≤ k ∧ k ≤ depth ∧ a = addr c.ss (c.sp - BitVec.ofNat 16 k)

/-- An instruction or a service of DOS (interrupt 0x21, the number is in AH). Printing may change AX and the flags, and uses the stack, and exiting ends
the program. -/
inductive Step (depth : Nat) : State → State → Prop
  | instruction {s : State} {c : Cpu} {m : Mem} (hx : s.exit = none) (h : exec s.cpu s.mem = .next c m) : Step depth s { s with cpu := c, mem := m }
  | print {s : State} {c : Cpu} {str : List UInt8} (hx : s.exit = none) (h : exec s.cpu s.mem = .int 0x21 c) (ha : c.ax >>> 8 = 0x09#16)
      (hs : string s.mem c.ds 65536 c.dx = some str) (ax flags : BitVec 16) {m : Mem} (hm : Scratch depth c s.mem m) :
      Step depth s ⟨{ c.set 0 ax with flags := flags }, m, s.out ++ str, none⟩
  | terminate {s : State} {c : Cpu} (hx : s.exit = none) (h : exec s.cpu s.mem = .int 0x21 c) (ha : c.ax >>> 8 = 0x4c#16) :
      Step depth s { s with cpu := c, exit := some (UInt8.ofNat (c.ax.toNat % 256)) }

/-- Executions of `n` steps, with hardware interrupts in between. -/
inductive Runs (depth : Nat) (s : State) : Nat → State → Prop
  | start : Runs depth s 0 s
  | step {n : Nat} {t u : State} (h : Runs depth s n t) (hs : Step depth t u) : Runs depth s (n + 1) u
  | interrupt {n : Nat} {t : State} {m : Mem} (h : Runs depth s n t) (hm : Scratch depth t.cpu t.mem m) : Runs depth s n { t with mem := m }

/-- The size of the memory that a program gets: what is loaded, and some additional paragraphs. -/
def space (file : List UInt8) (extra : Nat) : Nat := (image file).length + extra * 16

/-- A program was loaded at a segment, with some additional paragraphs of memory: at least as many as it asks for (msdosmz.rs 219-233), and not beyond 640
KiB (msdosmz.rs 27-29). The registers CS, IP, SS, SP are set from the header (msdosmz.rs 249-296); all others may be anything. -/
structure Start (file : List UInt8) (start : BitVec 16) (extra : Nat) (m : Mem) (s : State) : Prop where
  enough : (header file).minalloc ≤ extra
  fits : start.toNat * 16 + space file extra ≤ 0xa0000
  mem : s.mem = loaded file start.toNat m
  cs : s.cpu.cs = start + BitVec.ofNat 16 (header file).cs
  ip : s.cpu.ip = BitVec.ofNat 16 (header file).ip
  ss : s.cpu.ss = start + BitVec.ofNat 16 (header file).ss
  sp : s.cpu.sp = BitVec.ofNat 16 (header file).sp
  out : s.out = []
  exit : s.exit = none

/-- Files that begin with the stub, with any value of `lfanew`, msdosmz.rs 499-503. -/
def Stubbed (file : List UInt8) : Prop :=
  ∃ lfanew rest : List UInt8, lfanew.length = 4 ∧ file = stubX86.take 60 ++ lfanew ++ stubX86.drop 64 ++ rest

/-- The line, msdosmz.rs 494. -/
def line : List UInt8 := ("This program cannot be run in DOS mode.\r\r\n".toList).map fun c => UInt8.ofNat c.toNat

end Verif.Bin.Dos
