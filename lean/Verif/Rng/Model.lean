/-!
# Model of `lib/osi/src/rng.rs`

All arithmetic is on `BitVec`, whose `+`, `*` wrap like the `wrapping_*` operations of the code.
Functions taking `&mut self` return the result together with the new state.
-/
namespace Verif.Rng

abbrev U64 := BitVec 64

/-- `u64::count_ones`. -/
def count_ones (v : U64) : Nat := ((List.range 64).filter fun i => v.getLsbD i).length

/-! ## Mix64 -/

/-- `Mix64`, rng.rs 30-32. -/
structure Mix64 where
  state : U64
deriving DecidableEq, Repr

/-- `Mix64::GAMMA`, rng.rs 76. -/
def GAMMA : U64 := 0x9e3779b97f4a7c15#64

/-- `Mix64::mix32`, rng.rs 80-84. -/
def mix32 (v : U64) : BitVec 32 :=
  let v := (v ^^^ (v >>> 33)) * 0x62a9d9ed799705f5#64
  let v := (v ^^^ (v >>> 28)) * 0xcb24d0a5c88c35b3#64
  (v >>> 32).setWidth 32

/-- `Mix64::mix64`, rng.rs 88-92. -/
def mix64 (v : U64) : U64 :=
  let v := (v ^^^ (v >>> 30)) * 0xbf58476d1ce4e5b9#64
  let v := (v ^^^ (v >>> 27)) * 0x94d049bb133111eb#64
  v ^^^ (v >>> 31)

/-- `Mix64::mixg`, rng.rs 97-106. -/
def mixg (v : U64) : U64 :=
  let v := (v ^^^ (v >>> 33)) * 0xff51afd7ed558ccd#64
  let v := (v ^^^ (v >>> 33)) * 0xc4ceb9fe1a85ec53#64
  let v := (v ^^^ (v >>> 33)) ||| 1#64
  if count_ones (v ^^^ (v >>> 1)) < 24 then v ^^^ 0xaaaaaaaaaaaaaaaa#64 else v

/-- `Mix64::with_seed`, rng.rs 113-117. -/
def Mix64.with_seed (seed : U64) : Mix64 := { state := seed }

/-- `Mix64::step`, rng.rs 119-122. -/
def Mix64.step (m : Mix64) (gamma : U64) : U64 × Mix64 :=
  let m := { m with state := m.state + gamma }
  (m.state, m)

/-- `Mix64::next32`, rng.rs 125-127. -/
def Mix64.next32 (m : Mix64) : BitVec 32 × Mix64 :=
  let (v, m) := m.step GAMMA
  (mix32 v, m)

/-- `Mix64::next64`, rng.rs 130-132. -/
def Mix64.next64 (m : Mix64) : U64 × Mix64 :=
  let (v, m) := m.step GAMMA
  (mix64 v, m)

/-! ## SplitMix64 -/

/-- `SplitMix64`, rng.rs 39-42. -/
structure SplitMix64 where
  mix : Mix64
  gamma : U64
deriving DecidableEq, Repr

/-- `SplitMix64::with`, rng.rs 146-151. -/
def SplitMix64.with_ (seed gamma : U64) : SplitMix64 :=
  { mix := Mix64.with_seed seed, gamma := gamma }

/-- `Mix64::split`, rng.rs 137-142 (arguments are evaluated left to right). -/
def Mix64.split (m : Mix64) : SplitMix64 × Mix64 :=
  let (a, m) := m.step GAMMA
  let (b, m) := m.step GAMMA
  (SplitMix64.with_ (mix64 a) (mixg b), m)

/-- `SplitMix64::with_seed`, rng.rs 158-160. -/
def SplitMix64.with_seed (seed : U64) : SplitMix64 := SplitMix64.with_ seed GAMMA

/-- `SplitMix64::from_mix64`, rng.rs 163-165 (also `From<Mix64>`, 196-200). -/
def SplitMix64.from_mix64 (v : Mix64) : SplitMix64 := SplitMix64.with_ v.state GAMMA

/-- `SplitMix64::next32`, rng.rs 168-170. -/
def SplitMix64.next32 (s : SplitMix64) : BitVec 32 × SplitMix64 :=
  let (v, m) := s.mix.step s.gamma
  (mix32 v, { s with mix := m })

/-- `SplitMix64::next64`, rng.rs 173-175. -/
def SplitMix64.next64 (s : SplitMix64) : U64 × SplitMix64 :=
  let (v, m) := s.mix.step s.gamma
  (mix64 v, { s with mix := m })

/-- `SplitMix64::split`, rng.rs 188-193. Returns the child and the advanced parent. -/
def SplitMix64.split (s : SplitMix64) : SplitMix64 × SplitMix64 :=
  let (a, m) := s.mix.step s.gamma
  let (b, m) := m.step s.gamma
  (SplitMix64.with_ (mix64 a) (mixg b), { s with mix := m })

/-! ## Xoshiro256++ -/

/-- The state array `[u64; 4]` (rng.rs 54-57). -/
structure St where
  (s0 s1 s2 s3 : U64)
deriving DecidableEq, Repr

/-- Array repetition `[v; 4]`: the expression is evaluated once and its value copied. -/
def repeat4 (v : U64) : St := ⟨v, v, v, v⟩

/-- `MIX64_0`, rng.rs 62-73. `[mix.next64(); 4]` evaluates `mix.next64()` once. (The assertion that
no word is zero is a compile-time check; it is proved as `mix64_0_nonzero`.) -/
def MIX64_0 : St := repeat4 (Mix64.with_seed 0).next64.1

/-- `Xoshiro256pp::combine`, rng.rs 203-207. -/
def combine (s : St) : U64 := (s.s0 + s.s3).rotateLeft 23 + s.s0

/-- `Xoshiro256pp::step`, rng.rs 209-219, assignment by assignment. -/
def step (s : St) : St :=
  let t := s.s1 <<< 17
  let s := { s with s2 := s.s2 ^^^ s.s0 }
  let s := { s with s3 := s.s3 ^^^ s.s1 }
  let s := { s with s1 := s.s1 ^^^ s.s2 }
  let s := { s with s0 := s.s0 ^^^ s.s3 }
  let s := { s with s2 := s.s2 ^^^ t }
  let s := { s with s3 := s.s3.rotateLeft 45 }
  s

/-- Word-wise `^=` of two states. -/
def St.xor (a b : St) : St := ⟨a.s0 ^^^ b.s0, a.s1 ^^^ b.s1, a.s2 ^^^ b.s2, a.s3 ^^^ b.s3⟩

/-- Inner loop of `jump` (rng.rs 226-236) for one table word, from bit `j` on; `n` is the number of
bits left (`j + n = 64`). The pair is `(s, t)`. -/
def jumpWord (w : U64) : (n j : Nat) → St × St → St × St
  | 0, _, st => st
  | n + 1, j, (s, t) =>
    let t := if w &&& (1#64 <<< j) ≠ 0 then t.xor s else t
    jumpWord w n (j + 1) (step s, t)

/-- `Xoshiro256pp::jump`, rng.rs 221-241. -/
def jump (s : St) (table : List U64) : St :=
  (table.foldl (fun st w => jumpWord w 64 0 st) (s, ⟨0, 0, 0, 0⟩)).2

/-- Table in `step128`, rng.rs 244-254. -/
def table128 : List U64 :=
  [0x180ec6d33cfd0aba#64, 0xd5a61266f0c9392c#64, 0xa9582618e03fc9aa#64, 0x39abdc4529b1661c#64]

/-- Table in `step192`, rng.rs 257-267. -/
def table192 : List U64 :=
  [0x76e15d3efefdcbbf#64, 0xc5004e441c522fb3#64, 0x77710069854ee241#64, 0x39109bb02acbe635#64]

/-- `step128`, rng.rs 244-254. -/
def step128 (s : St) : St := jump s table128
/-- `step192`, rng.rs 257-267. -/
def step192 (s : St) : St := jump s table192

/-- `Xoshiro256pp::with_seed`, rng.rs 277-287. -/
def with_seed (seed : St) : St :=
  if seed.s0 = 0 ∧ seed.s1 = 0 ∧ seed.s2 = 0 ∧ seed.s3 = 0 then MIX64_0 else seed

/-- `Xoshiro256pp::from_splitmix64`, rng.rs 293-295. Returns the generator and the advanced mixer. -/
def from_splitmix64 (mix : SplitMix64) : St × SplitMix64 :=
  let (v, mix) := mix.next64
  (with_seed (repeat4 v), mix)

/-- `Xoshiro256pp::next64`, rng.rs 298-302. -/
def next64 (s : St) : U64 × St := (combine s, step s)

/-- `jump128`, rng.rs 305-307. -/
def jump128 (s : St) : St := step128 s
/-- `jump192`, rng.rs 310-312. -/
def jump192 (s : St) : St := step192 s

-- sm64 reference: first output for seed 0.
#guard (Mix64.with_seed 0).next64.1 = 0xe220a8397b1dcdaf#64

end Verif.Rng
