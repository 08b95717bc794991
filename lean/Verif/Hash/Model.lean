/-!
# Model of `lib/osi/src/hash/sha256.rs` and `lib/osi/src/hash.rs`

`none` stands for a panic (or, in the loops of `push`/`push_zero`, for an iteration that makes no
progress and would therefore never terminate).
-/
namespace Verif.Hash

abbrev Byte := BitVec 8
abbrev Word := BitVec 32

/-- `SHA256_H`, sha256.rs 27-36. -/
def SHA256_H : Vector Word 8 := #v[
  0x6a09e667#32, 0xbb67ae85#32, 0x3c6ef372#32, 0xa54ff53a#32,
  0x510e527f#32, 0x9b05688c#32, 0x1f83d9ab#32, 0x5be0cd19#32]

/-- `SHA256_K`, sha256.rs 41-58. -/
def SHA256_K : Vector Word 64 := #v[
  0x428a2f98#32, 0x71374491#32, 0xb5c0fbcf#32, 0xe9b5dba5#32,
  0x3956c25b#32, 0x59f111f1#32, 0x923f82a4#32, 0xab1c5ed5#32,
  0xd807aa98#32, 0x12835b01#32, 0x243185be#32, 0x550c7dc3#32,
  0x72be5d74#32, 0x80deb1fe#32, 0x9bdc06a7#32, 0xc19bf174#32,
  0xe49b69c1#32, 0xefbe4786#32, 0x0fc19dc6#32, 0x240ca1cc#32,
  0x2de92c6f#32, 0x4a7484aa#32, 0x5cb0a9dc#32, 0x76f988da#32,
  0x983e5152#32, 0xa831c66d#32, 0xb00327c8#32, 0xbf597fc7#32,
  0xc6e00bf3#32, 0xd5a79147#32, 0x06ca6351#32, 0x14292967#32,
  0x27b70a85#32, 0x2e1b2138#32, 0x4d2c6dfc#32, 0x53380d13#32,
  0x650a7354#32, 0x766a0abb#32, 0x81c2c92e#32, 0x92722c85#32,
  0xa2bfe8a1#32, 0xa81a664b#32, 0xc24b8b70#32, 0xc76c51a3#32,
  0xd192e819#32, 0xd6990624#32, 0xf40e3585#32, 0x106aa070#32,
  0x19a4c116#32, 0x1e376c08#32, 0x2748774c#32, 0x34b0bcb5#32,
  0x391c0cb3#32, 0x4ed8aa4a#32, 0x5b9cca4f#32, 0x682e6ff3#32,
  0x748f82ee#32, 0x78a5636f#32, 0x84c87814#32, 0x8cc70208#32,
  0x90befffa#32, 0xa4506ceb#32, 0xbef9a3f7#32, 0xc67178f2#32]

/-- `SHA256_CHUNK`, sha256.rs 12. -/
def CHUNK : Nat := 64

/-- `Engine`, sha256.rs 17-22. The 64-byte array is a list (its length is an invariant, proved),
`remaining: usize` and `total: u64` are `Nat` (the checked operations on them are modelled). -/
structure Engine where
  hash : Vector Word 8
  chunk : List Byte
  remaining : Nat
  total : Nat
deriving DecidableEq, Repr

/-- `sha256_step`, sha256.rs 62-98. The two assertions (68-69) are the types of the last
two arguments. `K`-index and schedule index are as in the code. -/
def sha256_step (schedule : Vector Word 16) (state : Vector Word 8)
    (block : Fin 4) (step : Fin 16) : Vector Word 8 :=
  let s0 := (state[0].rotateRight 2) ^^^ (state[0].rotateRight 13) ^^^ (state[0].rotateRight 22)
  let s1 := (state[4].rotateRight 6) ^^^ (state[4].rotateRight 11) ^^^ (state[4].rotateRight 25)
  let maj := (state[0] &&& state[1]) ^^^ (state[0] &&& state[2]) ^^^ (state[1] &&& state[2])
  let ch := (state[4] &&& state[5]) ^^^ (~~~state[4] &&& state[6])
  let temp1 := state[7] + s1 + ch + SHA256_K[block.val * 16 + step.val]'(by omega) + schedule[step]
  let temp2 := s0 + maj
  let state := state.set 7 state[6]
  let state := state.set 6 state[5]
  let state := state.set 5 state[4]
  let state := state.set 4 (state[3] + temp1)
  let state := state.set 3 state[2]
  let state := state.set 2 state[1]
  let state := state.set 1 state[0]
  let state := state.set 0 (temp1 + temp2)
  state

/-- `u32::from_be_bytes`. -/
def from_be_bytes (b0 b1 b2 b3 : Byte) : Word := b0 ++ b1 ++ b2 ++ b3

/-- Closure `schedule_init`, sha256.rs 112-116. -/
def schedule_init (data : Vector Byte 64) (i : Fin 16) : Word :=
  from_be_bytes (data[i.val * 4 + 0]'(by omega)) (data[i.val * 4 + 1]'(by omega))
    (data[i.val * 4 + 2]'(by omega)) (data[i.val * 4 + 3]'(by omega))

/-- Body of the schedule update loop, sha256.rs 130-141, for one `i`. -/
def schedule_update (schedule : Vector Word 16) (i : Fin 16) : Vector Word 16 :=
  let x1 := schedule[(i.val + 1) % 16]'(by omega)
  let x14 := schedule[(i.val + 14) % 16]'(by omega)
  let s0 := (x1.rotateRight 7) ^^^ (x1.rotateRight 18) ^^^ (x1 >>> 3)
  let s1 := (x14.rotateRight 17) ^^^ (x14.rotateRight 19) ^^^ (x14 >>> 10)
  schedule.set i (schedule[i] + s0 + (schedule[(i.val + 9) % 16]'(by omega)) + s1)

/-- One of the four blocks of 16 steps, sha256.rs 123-125 and 142-144. -/
def block_steps (schedule : Vector Word 16) (state : Vector Word 8) (block : Fin 4) :
    Vector Word 8 :=
  Fin.foldl 16 (fun st i => sha256_step schedule st block i) state

/-- `sha256_round`, sha256.rs 103-151. Returns the new `hash`. The loop over blocks `1..4` is
`block = b + 1` for `b < 3`. -/
def sha256_round (data : Vector Byte 64) (hash : Vector Word 8) : Vector Word 8 :=
  let state := hash
  let schedule := Vector.ofFn (schedule_init data)
  let state := block_steps schedule state 0
  let (_, state) := Fin.foldl 3 (fun (acc : Vector Word 16 × Vector Word 8) b =>
    let schedule := Fin.foldl 16 schedule_update acc.1
    (schedule, block_steps schedule acc.2 b.succ)) (schedule, state)
  Vector.ofFn fun i => hash[i] + state[i]

/-- `Default::default`, sha256.rs 153-162. -/
def Engine.default : Engine :=
  { hash := SHA256_H, chunk := List.replicate CHUNK 0, remaining := CHUNK, total := 0 }

/-- `is_reset`, sha256.rs 167-169. -/
def Engine.is_reset (e : Engine) : Bool := e.total == 0

/-- `reset`, sha256.rs 171-175. -/
def Engine.reset (e : Engine) : Engine :=
  { e with hash := SHA256_H, remaining := CHUNK, total := 0 }

/-- `chunk[idx..idx+n].copy_from_slice(src)`; panics if out of range (or if lengths differ,
here `n` is the length of `src`). -/
def copy_at (chunk : List Byte) (idx : Nat) (src : List Byte) : Option (List Byte) :=
  if idx + src.length ≤ chunk.length then
    some (chunk.take idx ++ src ++ chunk.drop (idx + src.length))
  else none

/-- Common body of the loops of `push` (sha256.rs 181-196) and `push_zero` (204-219): store
`src`, which is at most as long as `remaining`, then account for it and commit a full chunk. -/
def Engine.store (e : Engine) (src : List Byte) : Option Engine := do
  guard (e.remaining ≤ e.chunk.length)                 -- 182/205: `checked_sub`
  let idx := e.chunk.length - e.remaining
  let chunk ← copy_at e.chunk idx src                  -- 184/207
  guard (src.length ≤ e.remaining)                     -- 187/210: `checked_sub`
  let remaining := e.remaining - src.length
  guard (e.total + src.length < 2 ^ 64)                -- 189/212: `checked_add` on u64
  let total := e.total + src.length
  if remaining = 0 then                                -- 193/216
    if h : chunk.length = 64 then
      some { hash := sha256_round ⟨chunk.toArray, by simpa using h⟩ e.hash,
             chunk := chunk, remaining := chunk.length, total := total }
    else none                                          -- excluded by the array type
  else
    some { hash := e.hash, chunk := chunk, remaining := remaining, total := total }

/-- `push`, sha256.rs 177-198. -/
def Engine.push (e : Engine) (data : List Byte) : Option Engine :=
  if data.isEmpty then some e
  else
    let n := min e.remaining data.length
    if _hn : n = 0 then none                            -- only after a panic: see ModelUnwind
    else
      match e.store (data.take n) with
      | none => none
      | some e' => e'.push (data.drop n)
termination_by data.length
decreasing_by simp; omega

/-- `push_zero`, sha256.rs 200-221. -/
def Engine.push_zero (e : Engine) (length : Nat) : Option Engine :=
  if length = 0 then some e
  else
    let n := min e.remaining length
    if _hn : n = 0 then none                            -- only after a panic: see ModelUnwind
    else
      match e.store (List.replicate n 0) with
      | none => none
      | some e' => e'.push_zero (length - n)
termination_by length
decreasing_by omega

/-- `u32::to_be_bytes`. -/
def to_be_bytes32 (w : Word) : List Byte :=
  [w.extractLsb' 24 8, w.extractLsb' 16 8, w.extractLsb' 8 8, w.extractLsb' 0 8]

/-- `u64::to_be_bytes`. -/
def to_be_bytes64 (w : BitVec 64) : List Byte :=
  [w.extractLsb' 56 8, w.extractLsb' 48 8, w.extractLsb' 40 8, w.extractLsb' 32 8,
   w.extractLsb' 24 8, w.extractLsb' 16 8, w.extractLsb' 8 8, w.extractLsb' 0 8]

/-- `finalize`, sha256.rs 223-280. Returns the 32 bytes and the engine after the call. -/
def Engine.finalize (e : Engine) : Option (List Byte × Engine) := do
  guard (e.total * 8 < 2 ^ 64)                          -- 229: `checked_mul(8).unwrap()`
  let total : BitVec 64 := BitVec.ofNat 64 (e.total * 8)
  guard (e.remaining ≠ 0)                               -- 234
  guard (e.remaining ≤ e.chunk.length)                  -- 235: index arithmetic in range
  let e := { e with chunk := e.chunk.set (e.chunk.length - e.remaining) 0x80 }
  let e := { e with remaining := e.remaining - 1 }      -- 236
  let e ← (if e.remaining < 8 then e.push_zero e.remaining else some e)  -- 241-243
  guard (8 ≤ e.remaining)                               -- 244: `checked_sub(8).unwrap()`
  let pad := e.remaining - 8
  let e ← e.push_zero pad
  let e ← e.push (to_be_bytes64 total)
  guard (e.remaining = e.chunk.length)                  -- 249
  let r := e.hash.toList.flatMap to_be_bytes32          -- 252-273
  some (r, { e with hash := SHA256_H, total := 0 })     -- 276-277

/-- `hash::hash`, hash.rs 64-68. -/
def hash (data : List Byte) : Option (List Byte) := do
  let e ← Engine.default.push data
  let (h, _) ← e.finalize
  some h

/-- `digit_to_char`, hash.rs 90-98. `none` is the panic. -/
def digit_to_char (digit : Byte) : Option Char :=
  match digit.toNat with
  | 0x0 => some '0' | 0x1 => some '1' | 0x2 => some '2' | 0x3 => some '3'
  | 0x4 => some '4' | 0x5 => some '5' | 0x6 => some '6' | 0x7 => some '7'
  | 0x8 => some '8' | 0x9 => some '9' | 0xa => some 'a' | 0xb => some 'b'
  | 0xc => some 'c' | 0xd => some 'd' | 0xe => some 'e' | 0xf => some 'f'
  | _ => none

/-- `Hash::to_hex`, hash.rs 89-110 (the string as list of characters). The capacity computation
(`SIZE.checked_mul(2)`) fails only for arrays larger than the address space and is left out. -/
def to_hex : List Byte → Option (List Char)
  | [] => some []
  | b :: bs => do
    let hi ← digit_to_char ((b >>> 4) &&& 0x0f)
    let lo ← digit_to_char ((b >>> 0) &&& 0x0f)
    let rest ← to_hex bs
    some (hi :: lo :: rest)

#guard (do
  let h ← hash [0x61, 0x62, 0x63]
  to_hex h).map String.ofList
  = some "ba7816bf8f01cfea414140de5dae2223b00361a396177a9cb410ff61f20015ad"
#guard (hash (List.replicate 63 0)).isNone
#guard (hash (List.replicate 64 0)).isSome

end Verif.Hash
