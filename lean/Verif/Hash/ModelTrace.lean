import Verif.Hash.ModelHmac
/-!
# SHA-256 and HMAC with their visible steps

The functions of `Hash/Model.lean` and `Hash/ModelHmac.lean` once more, now also recording what an
observer of the running program can see: the outcome of every condition, the position and the
length of every write to a buffer, and every run of the compression function. `LemmasTrace.lean`
proves that the results are those of the original models.

The compression function itself (`sha256_round`, sha256.rs 103-151) is one event: it is a fixed
sequence of arithmetic on words with loops over constant ranges and constant indices, as can be seen in
`Hash/Model.lean`, where neither its folds nor its indices mention the data.
-/
namespace Verif.Hash

/-- What can be seen of a running program. -/
inductive Ev where
  /-- A condition was evaluated (`while`, `if`, or an assertion, checked operation or index check). -/
  | cond (b : Bool)
  /-- `n` bytes were written starting at position `pos` of a buffer. -/
  | write (pos n : Nat)
  /-- The compression function was run. -/
  | round
deriving DecidableEq, Repr

/-- A computation with its visible events; `none` is a panic, which keeps the events before it. -/
structure Tr (α : Type) where
  events : List Ev
  result : Option α

namespace Tr

protected def pure {α : Type} (a : α) : Tr α := ⟨[], some a⟩

protected def bind {α β : Type} (x : Tr α) (f : α → Tr β) : Tr β :=
  match x.result with
  | none => ⟨x.events, none⟩
  | some a => ⟨x.events ++ (f a).events, (f a).result⟩

instance : Monad Tr where
  pure := Tr.pure
  bind := Tr.bind

/-- A panic. -/
def fail {α : Type} : Tr α := ⟨[], none⟩

/-- A condition the program branches on. -/
def ask (b : Bool) : Tr Bool := ⟨[.cond b], some b⟩

/-- A condition that panics if it does not hold. -/
def check (b : Bool) : Tr Unit := ⟨[.cond b], if b then some () else none⟩

/-- A write to a buffer. -/
def write (pos n : Nat) : Tr Unit := ⟨[.write pos n], some ()⟩

/-- A run of the compression function. -/
def round : Tr Unit := ⟨[.round], some ()⟩

end Tr

/-- `chunk[idx..idx+n].copy_from_slice(src)` (sha256.rs 184) or `.fill(0)` (207). -/
def copy_atT (chunk : List Byte) (idx : Nat) (src : List Byte) : Tr (List Byte) := do
  Tr.check (idx + src.length ≤ chunk.length)
  Tr.write idx src.length
  pure (chunk.take idx ++ src ++ chunk.drop (idx + src.length))

/-- `if self.remaining == 0 { … }`, sha256.rs 193-196 and 216-219; `e` has its counters and buffer
updated already. -/
def Engine.commitT (e : Engine) : Tr Engine := do
  let full ← Tr.ask (e.remaining = 0)
  if full then
    Tr.round
    if h : e.chunk.length = 64 then
      pure { e with hash := sha256_round ⟨e.chunk.toArray, by simpa using h⟩ e.hash,
                    remaining := e.chunk.length }
    else Tr.fail                                       -- excluded by the array type
  else pure e

/-- Body of the loops of `push` (sha256.rs 181-196) and `push_zero` (204-219). -/
def Engine.storeT (e : Engine) (src : List Byte) : Tr Engine := do
  Tr.check (e.remaining ≤ e.chunk.length)
  let chunk ← copy_atT e.chunk (e.chunk.length - e.remaining) src
  Tr.check (src.length ≤ e.remaining)
  Tr.check (e.total + src.length < 2 ^ 64)
  Engine.commitT { e with
    chunk := chunk, remaining := e.remaining - src.length, total := e.total + src.length }

/-- `push`, sha256.rs 177-198. -/
def Engine.pushT (e : Engine) (data : List Byte) : Tr Engine :=
  if data.isEmpty then do
    let _ ← Tr.ask false
    pure e
  else if _hn : min e.remaining data.length = 0 then Tr.fail
  else do
    let _ ← Tr.ask true
    let e' ← e.storeT (data.take (min e.remaining data.length))
    e'.pushT (data.drop (min e.remaining data.length))
termination_by data.length
decreasing_by simp; omega

/-- `push_zero`, sha256.rs 200-221. -/
def Engine.push_zeroT (e : Engine) (length : Nat) : Tr Engine :=
  if length = 0 then do
    let _ ← Tr.ask false
    pure e
  else if _hn : min e.remaining length = 0 then Tr.fail
  else do
    let _ ← Tr.ask true
    let e' ← e.storeT (List.replicate (min e.remaining length) 0)
    e'.push_zeroT (length - min e.remaining length)
termination_by length
decreasing_by omega

/-- `if self.remaining < 8 { self.push_zero(self.remaining) }`, sha256.rs 241-243. -/
def Engine.spillT (e : Engine) : Tr Engine := do
  let small ← Tr.ask (e.remaining < 8)
  if small then e.push_zeroT e.remaining else pure e

/-- `finalize`, sha256.rs 223-280. -/
def Engine.finalizeT (e : Engine) : Tr (List Byte × Engine) := do
  Tr.check (e.total * 8 < 2 ^ 64)
  Tr.check (e.remaining ≠ 0)
  Tr.check (e.remaining ≤ e.chunk.length)
  Tr.write (e.chunk.length - e.remaining) 1
  let e1 ← Engine.spillT { e with
    chunk := e.chunk.set (e.chunk.length - e.remaining) 0x80, remaining := e.remaining - 1 }
  Tr.check (8 ≤ e1.remaining)
  let e2 ← e1.push_zeroT (e1.remaining - 8)
  let e3 ← e2.pushT (to_be_bytes64 (BitVec.ofNat 64 (e.total * 8)))
  Tr.check (e3.remaining = e3.chunk.length)
  pure (e3.hash.toList.flatMap to_be_bytes32, { e3 with hash := SHA256_H, total := 0 })

/-- `is_reset`, sha256.rs 167-169. -/
def Engine.is_resetT (e : Engine) : Tr Bool := Tr.ask (e.total == 0)

/-- `hash::hash`, hash.rs 64-68. -/
def hashT (data : List Byte) : Tr (List Byte) := do
  let e ← Engine.default.pushT data
  let r ← e.finalizeT
  pure r.1

/-- The loop of `with_engine`, hmac.rs 58-61. Both pads are written at every index. -/
def padLoopT (ipad opad : List Byte) (i : Nat) : List Byte → Tr (List Byte × List Byte)
  | [] => do
    let _ ← Tr.ask false
    pure (ipad, opad)
  | v :: vs => do
    let _ ← Tr.ask true
    Tr.check (i < ipad.length ∧ i < opad.length)
    Tr.write i 1
    Tr.write i 1
    padLoopT (ipad.set i (v ^^^ 0x36)) (opad.set i (v ^^^ 0x5c)) (i + 1) vs

/-- `if key.len() > CHUNK …`, hmac.rs 48-54. -/
def usedKeyT (key : List Byte) (engine : Engine) : Tr (List Byte × Engine) := do
  let long ← Tr.ask (key.length > 64)
  if long then do
    let e ← engine.pushT key
    e.finalizeT
  else pure (key, engine)

/-- `Hmac::with_engine` for SHA-256, hmac.rs 29-64. -/
def hmacWithT (key : List Byte) (engine : Engine) : Tr (Hmac Engine) := do
  Tr.check engine.is_reset
  let u ← usedKeyT key engine
  let p ← padLoopT (List.replicate 64 0x36#8) (List.replicate 64 0x5c#8) 0 u.1
  pure { engine := u.2, ipad := p.1, opad := p.2 }

/-- `Hmac::new` for `HmacSha256`, hmac.rs 18, 124-126. -/
def hmacNewT (key : List Byte) : Tr (Hmac Engine) := hmacWithT key Engine.default

/-- The start of a message: `if self.engine.is_reset() { self.engine.push(&self.ipad) }`, hmac.rs
79-81, 91-93 and 105-107. -/
def Hmac.startT (h : Hmac Engine) : Tr Engine := do
  let r ← h.engine.is_resetT
  if r then h.engine.pushT h.ipad else pure h.engine

/-- `Hmac::push`, hmac.rs 78-85. -/
def Hmac.pushT (h : Hmac Engine) (data : List Byte) : Tr (Hmac Engine) := do
  let empty ← Tr.ask data.isEmpty
  if empty then pure h
  else do
    let e ← h.startT
    let e ← e.pushT data
    pure { h with engine := e }

/-- `Hmac::push_zero`, hmac.rs 90-97. -/
def Hmac.push_zeroT (h : Hmac Engine) (length : Nat) : Tr (Hmac Engine) := do
  let some_ ← Tr.ask (length > 0)
  if some_ then do
    let e ← h.startT
    let e ← e.push_zeroT length
    pure { h with engine := e }
  else pure h

/-- `Hmac::finalize`, hmac.rs 104-113. -/
def Hmac.finalizeT (h : Hmac Engine) : Tr (List Byte × Hmac Engine) := do
  let e ← h.startT
  let v ← e.finalizeT
  let e ← v.2.pushT h.opad
  let e ← e.pushT v.1
  let r ← e.finalizeT
  pure (r.1, { h with engine := r.2 })

#guard ((hashT (List.replicate 100 7)).events.count .round) = 2
#guard ((hashT (List.replicate 63 7)).result).isNone

end Verif.Hash
