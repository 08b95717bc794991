import Verif.Dbus.ModelDec
/-! # Model of the memory of D-Bus signatures, `lib/tmp/src/fmt/dbus/signature.rs` 131-149, 201-294, 373-422 and 809-868

`ModelSig` has nodes, and a kind of nodes, where the code has nothing but an array of `u64`, which it reinterprets as nodes. Here are the bytes of that
array, how nodes are laid out in them, and the functions that read signatures from them. The byte order is that of the machine. -/
namespace Verif.Dbus

/-- The bytes of a `Node8` (signature.rs 131-138) or `Node64` (140-149), which are `repr(C)`: the fields follow each other without padding. Assigning to a
field leaves the bytes of the others as they are. `none` if there is no `u16` that has the counters (201-211). -/
def Node.bytes (be : Bool) (k : Kind) (n : Node) : Option (List UInt8) :=
  match k with
  | .node8 => (opl n.offset n.position n.length).map fun v =>
      enNum be 4 n.flags.toNat ++ enNum be 2 v.toNat ++ enNum be 1 n.dvarSize ++ enNum be 1 n.gvarSize
  | .node64 => some (enNum be 4 n.flags.toNat ++ enNum be 4 0 ++ enNum be 8 n.offset ++ enNum be 8 n.position ++ enNum be 8 n.length
      ++ enNum be 8 n.dvarSize ++ enNum be 8 n.gvarSize)

/-- The bytes of nodes that follow each other. -/
def nodesBytes (be : Bool) (k : Kind) : List Node → Option (List UInt8)
  | [] => some []
  | n :: l => (n.bytes be k).bind fun a => (nodesBytes be k l).map fun b => a ++ b

/-- The field of `w` bytes at an offset. -/
def fieldAt (be : Bool) (at_ w : Nat) (bs : List UInt8) : Nat := deNum be ((bs.drop at_).take w)

/-- Bytes as a `Node8` (with its accessors, 232-242) or `Node64`. -/
def Node.ofBytes (be : Bool) (k : Kind) (bs : List UInt8) : Node :=
  match k with
  | .node8 =>
    let v := BitVec.ofNat 16 (fieldAt be 4 2 bs)
    ⟨BitVec.ofNat 32 (fieldAt be 0 4 bs), opl_offset v, opl_position v, opl_length v, fieldAt be 6 1 bs, fieldAt be 7 1 bs⟩
  | .node64 => ⟨BitVec.ofNat 32 (fieldAt be 0 4 bs), fieldAt be 8 8 bs, fieldAt be 16 8 bs, fieldAt be 24 8 bs, fieldAt be 32 8 bs, fieldAt be 40 8 bs⟩

/-- `Sig<[u64]>`, signature.rs 183-185: the byte order of the machine, and the bytes of the array in the order of their addresses. -/
structure Store where
  be : Bool
  cells : List UInt8
deriving DecidableEq, Repr

namespace Store

/-- `self.nodes.len()`. -/
def words (s : Store) : Nat := s.cells.length / 8

/-- `Sig::flags`, signature.rs 809-817: the first of the two `u32` that are in place of the first `u64`. `none` is the panic of `self.nodes[0]`. -/
def flags (s : Store) : Option Flag := if 0 < s.words then some (BitVec.ofNat 32 (deNum s.be (s.cells.take 4))) else none

/-- `Sig::len`, signature.rs 824-830. -/
def len (s : Store) : Option Nat := do
  let f ← s.flags
  if FlagSet.node f = Kind.node8.id then some (s.words / Kind.node8.coeff)
  else if FlagSet.node f = Kind.node64.id then some (s.words / Kind.node8.coeff)
  else none

/-- `derive`, signature.rs 408-422: the array as nodes; what is left at its end is ignored. -/
def derive (s : Store) (k : Kind) : List Node :=
  (List.range (s.words / k.coeff)).map fun i => Node.ofBytes s.be k ((s.cells.drop (8 * (k.coeff * i))).take (8 * k.coeff))

/-- `Sig::node_at`, signature.rs 832-844; a `NodeRef` (152-155) has the kind of the node. -/
def node_at (s : Store) (idx : Nat) : Option (Option (Kind × Node)) := do
  let f ← s.flags
  if FlagSet.node f = Kind.node8.id then some ((s.derive .node8)[idx]?.map (.node8, ·))
  else if FlagSet.node f = Kind.node64.id then some ((s.derive .node64)[idx]?.map (.node64, ·))
  else none

/-- `split_at` of the array of `u64`. `none` is a panic. -/
def split_at (s : Store) (mid : Nat) : Option (Store × Store) :=
  if mid ≤ s.words then some (⟨s.be, s.cells.take (8 * mid)⟩, ⟨s.be, s.cells.drop (8 * mid)⟩) else none

/-- `strict_mul`. -/
def strictMul (a b : Nat) : Option Nat := if a * b < 2 ^ 64 then some (a * b) else none

/-- `Sig::at`, signature.rs 846-868. -/
def at_ (s : Store) (idx : Nat) : Option (Option Store) := do
  let node ← s.node_at idx
  match node with
  | none => some none
  | some (k, node) =>
    if !FlagSet.all node.flags FLAG_PREFIX then some none
    else do
      let start ← strictMul idx k.coeff
      let rest ← s.split_at start
      let size ← strictMul node.length k.coeff
      let parts ← rest.2.split_at size
      some (some parts.1)

end Store

/-- The memory of a signature. -/
def Sig.store (be : Bool) (s : Sig) : Option Store := (nodesBytes be s.kind s.nodes).map (⟨be, ·⟩)

end Verif.Dbus
