import Verif.Hash.Model
/-!
# Model of `lib/osi/src/hmac.rs`

The code is generic over a hash engine (`hash::Engine`, hash.rs 15-54). The model is generic in the
same way: an engine type `E` together with the trait's operations.
-/
namespace Verif.Hash

/-- Trait `hash::Engine`, hash.rs 15-54, with `Hash = Hash<HASH>` seen as its bytes. -/
structure EngineOps (E : Type) where
  is_reset : E → Bool
  reset : E → E
  push : E → List Byte → Option E
  push_zero : E → Nat → Option E
  finalize : E → Option (List Byte × E)

/-- The trait's default `Engine::push_zero`, hash.rs 40-46: pieces of at most 128 zero bytes. -/
def default_push_zero {E : Type} (push : E → List Byte → Option E) (e : E) (length : Nat) : Option E :=
  if _h : length > 0 then
    let n := min length 128
    match push e ((List.replicate 128 0).take n) with
    | none => none
    | some e' => default_push_zero push e' (length - n)
  else some e
termination_by length
decreasing_by omega

/-- The generic `hash::hash`, hash.rs 64-68, with the backend's default engine as an argument. -/
def hashWith {E : Type} (ops : EngineOps E) (fresh : E) (data : List Byte) : Option (List Byte) := do
  let e ← ops.push fresh data
  let (h, _) ← ops.finalize e
  some h

/-- `impl hash::Engine for sha256::Engine`, sha256.rs 164-281. -/
def sha256Ops : EngineOps Engine :=
  { is_reset := Engine.is_reset, reset := Engine.reset, push := Engine.push,
    push_zero := Engine.push_zero, finalize := Engine.finalize }

/-- `Hmac<CHUNK, Engine>`, hmac.rs 11-15. -/
structure Hmac (E : Type) where
  engine : E
  ipad : List Byte
  opad : List Byte

/-- The loop of `with_engine`, hmac.rs 58-61, starting at index `i`. Panics if the key is longer
than the pads. -/
def padLoop (ipad opad : List Byte) (i : Nat) : List Byte → Option (List Byte × List Byte)
  | [] => some (ipad, opad)
  | v :: vs =>
    if i < ipad.length ∧ i < opad.length then
      padLoop (ipad.set i (v ^^^ 0x36)) (opad.set i (v ^^^ 0x5c)) (i + 1) vs
    else none

/-- `Hmac::with_engine`, hmac.rs 29-64. -/
def Hmac.with_engine {E : Type} (ops : EngineOps E) (chunk : Nat) (key : List Byte) (engine : E) :
    Option (Hmac E) := do
  guard (ops.is_reset engine = true)                               -- 34
  let ipad := List.replicate chunk 0x36#8
  let opad := List.replicate chunk 0x5c#8
  let (ukey, engine) ←
    (if key.length > chunk then do                                 -- 48-54
      let e ← ops.push engine key
      ops.finalize e
    else some (key, engine))
  let (ipad, opad) ← padLoop ipad opad 0 ukey
  some { engine := engine, ipad := ipad, opad := opad }

/-- `Hmac::reset`, hmac.rs 72-74. -/
def Hmac.reset {E : Type} (ops : EngineOps E) (h : Hmac E) : Hmac E :=
  { h with engine := ops.reset h.engine }

/-- `Hmac::push`, hmac.rs 78-85. -/
def Hmac.push {E : Type} (ops : EngineOps E) (h : Hmac E) (data : List Byte) : Option (Hmac E) :=
  if data.isEmpty then some h
  else do
    let e ← (if ops.is_reset h.engine then ops.push h.engine h.ipad else some h.engine)
    let e ← ops.push e data
    some { h with engine := e }

/-- `Hmac::push_zero`, hmac.rs 90-97. -/
def Hmac.push_zero {E : Type} (ops : EngineOps E) (h : Hmac E) (length : Nat) : Option (Hmac E) :=
  if length > 0 then do
    let e ← (if ops.is_reset h.engine then ops.push h.engine h.ipad else some h.engine)
    let e ← ops.push_zero e length
    some { h with engine := e }
  else some h

/-- `Hmac::finalize`, hmac.rs 104-113. -/
def Hmac.finalize {E : Type} (ops : EngineOps E) (h : Hmac E) : Option (List Byte × Hmac E) := do
  let e ← (if ops.is_reset h.engine then ops.push h.engine h.ipad else some h.engine)
  let (v, e) ← ops.finalize e
  let e ← ops.push e h.opad
  let e ← ops.push e v
  let (r, e) ← ops.finalize e
  some (r, { h with engine := e })

/-- `Hmac::new` for `HmacSha256` (hmac.rs 18, 124-126). -/
def hmacSha256_new (key : List Byte) : Option (Hmac Engine) :=
  Hmac.with_engine sha256Ops 64 key Engine.default

#guard (do
  let h ← hmacSha256_new ("key".toUTF8.toList.map (fun b : UInt8 => b.toBitVec))
  let h ← h.push sha256Ops
    ("The quick brown fox jumps over the lazy dog".toUTF8.toList.map (fun b : UInt8 => b.toBitVec))
  let (r, _) ← h.finalize sha256Ops
  to_hex r).map String.ofList
  = some "f7bc83f430538424b13298e6aa6fb143ef4d59a14946175997479dbc2d1a3cd8"

end Verif.Hash
