import Verif.Hash.Spec
/-! # Continuing from a digest

What an adversary computes who knows a digest and the length of its message, but not the message. -/
namespace Verif.Hash.Spec

/-- What padding adds to a message of length `n`, FIPS 180-4, 5.1.1. -/
def padding (n : Nat) : List Byte := [0x80] ++ List.replicate (padZeros n) 0 ++ be64 (8 * n)

/-- The hash value from its bytes. -/
def Vars.ofBytes (d : List Byte) : Vars :=
  ⟨blockWord d 0, blockWord d 1, blockWord d 2, blockWord d 3, blockWord d 4, blockWord d 5, blockWord d 6, blockWord d 7⟩

/-- From the digest `d` of some message of length `n`: the digest of that message, its padding, and `x`. -/
def continued (d : List Byte) (n : Nat) (x : List Byte) : List Byte :=
  (digestBlocks (Vars.ofBytes d) (x ++ padding (n + (padding n).length + x.length))).bytes

end Verif.Hash.Spec
