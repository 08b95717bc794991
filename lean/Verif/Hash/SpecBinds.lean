import Verif.Hash.Spec
/-! # What a digest binds

A digest is made by compressing one block after the other (FIPS 180-4, 6.2.2). Two messages *collide within
compression* if, among these compressions, there is one of each message with different inputs but the same result. -/
namespace Verif.Hash.Spec

/-- The inputs of the compressions for the blocks of `bs`: the hash value so far, and the block. -/
def inputs (H : Vars) (bs : List Byte) : List (Vars × List Byte) :=
  if _h : bs.length < 64 then [] else (H, bs.take 64) :: inputs (compress H (bs.take 64)) (bs.drop 64)
termination_by bs.length
decreasing_by simp; omega

/-- The inputs of all compressions that make the digest of a message. -/
def compressions (m : List Byte) : List (Vars × List Byte) := inputs H0 (pad m)

/-- A compression of one message has the same result as one of the other, of different inputs. -/
def Collide (m n : List Byte) : Prop :=
  ∃ x ∈ compressions m, ∃ y ∈ compressions n, x ≠ y ∧ compress x.1 x.2 = compress y.1 y.2

end Verif.Hash.Spec
