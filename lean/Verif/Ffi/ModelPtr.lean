/-! # Model of the tagged pointer `NonNull4` (`lib/osi/src/ptr.rs` 123-237) and of the field arithmetic
in `lib/osi/src/meta.rs`

`usize` is `BitVec w` for any `w`. A pointer is its address; for its provenance see
`Borrow/ModelBorrow.lean`. -/
namespace Verif.Ffi

variable {w : Nat}

/-- `MASK_META`, ptr.rs 124. -/
def MASK_META (w : Nat) : BitVec w := BitVec.ofNat w 3
/-- `MASK_ADDR`, ptr.rs 125. -/
def MASK_ADDR (w : Nat) : BitVec w := ~~~ MASK_META w

/-- `NonNull4`, the raw address with metadata in it. -/
structure NonNull4 (w : Nat) where
  ptr : BitVec w
deriving DecidableEq

/-- `new`, ptr.rs 145-153. -/
def NonNull4.new (v : BitVec w) : Option (NonNull4 w) :=
  if v &&& MASK_META w = 0 then some ⟨v⟩ else none

/-- `ptr`, ptr.rs 159-165. -/
def NonNull4.getPtr (p : NonNull4 w) : BitVec w := p.ptr &&& MASK_ADDR w

/-- `meta`, ptr.rs 171-173. -/
def NonNull4.getMeta (p : NonNull4 w) : BitVec w := p.ptr &&& MASK_META w

/-- `1usize << bit`: `none` is the shift-overflow panic. -/
def oneShl (w : Nat) (bit : Nat) : Option (BitVec w) := if bit < w then some (1#w <<< bit) else none

/-- `meta_bit`, ptr.rs 179-181. -/
def NonNull4.metaBit (p : NonNull4 w) (bit : Nat) : Option Bool := do
  let m ← oneShl w bit
  pure (decide (p.getMeta &&& m = m))

/-- `set_ptr_unchecked`, ptr.rs 198-206. -/
def NonNull4.setPtr (p : NonNull4 w) (v : BitVec w) : NonNull4 w := ⟨(v &&& MASK_ADDR w) ||| p.getMeta⟩

/-- `set_meta`, ptr.rs 211-219. -/
def NonNull4.setMeta (p : NonNull4 w) (m : BitVec w) : NonNull4 w :=
  ⟨(p.ptr &&& MASK_ADDR w) ||| (m &&& MASK_META w)⟩

/-- `set_meta_bit`, ptr.rs 222-226. -/
def NonNull4.setMetaBit (p : NonNull4 w) (bit : Nat) (flag : Bool) : Option (NonNull4 w) := do
  let m ← oneShl w bit
  pure (p.setMeta ((p.getMeta &&& ~~~m) ||| (if flag then m else 0#w)))

/-- `get0`, `get1`, ptr.rs 184-191. -/
def NonNull4.get0 (p : NonNull4 w) := p.metaBit 0
def NonNull4.get1 (p : NonNull4 w) := p.metaBit 1
/-- `set0`, `set1`, ptr.rs 229-236. -/
def NonNull4.set0 (p : NonNull4 w) (f : Bool) := p.setMetaBit 0 f
def NonNull4.set1 (p : NonNull4 w) (f : Bool) := p.setMetaBit 1 f

/-- The calls of a history. `setPtr` takes an aligned, non-null pointer by contract (ptr.rs 193-197). -/
inductive Call (w : Nat)
  | setPtr (v : BitVec w)
  | setMeta (m : BitVec w)
  | setMetaBit (bit : Nat) (f : Bool)
  | set0 (f : Bool)
  | set1 (f : Bool)

def NonNull4.call (p : NonNull4 w) : Call w → Option (NonNull4 w)
  | .setPtr v => some (p.setPtr v)
  | .setMeta m => some (p.setMeta m)
  | .setMetaBit b f => p.setMetaBit b f
  | .set0 f => p.set0 f
  | .set1 f => p.set1 f

def NonNull4.calls (p : NonNull4 w) : List (Call w) → Option (NonNull4 w)
  | [] => some p
  | c :: cs => (p.call c).bind (·.calls cs)

/-- `wrapping_byte_offset` of an address. -/
def wrapping_byte_offset (p : BitVec w) (o : Int) : BitVec w := p + BitVec.ofInt w o

/-- `field_of_ptr`, meta.rs 82-87: `OFFSET as isize` reinterprets the `usize`. -/
def field_of_ptr (offset p : BitVec w) : BitVec w := wrapping_byte_offset p offset.toInt

/-- `container_of_ptr`, meta.rs 144-150. The negation overflows (panics) for `isize::MIN`. -/
def container_of_ptr (offset p : BitVec w) : Option (BitVec w) :=
  if offset.toInt = -2 ^ (w - 1) then none else some (wrapping_byte_offset p (-offset.toInt))

end Verif.Ffi
