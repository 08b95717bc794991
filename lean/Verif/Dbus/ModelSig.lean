import Verif.Dbus.ModelElement
/-! # Model of the D-Bus signature parser, `lib/tmp/src/fmt/dbus/signature.rs`

The macro `impl_node!` is instantiated for two node types; the model takes the node type as a parameter `Kind`.
A buffer of uninitialised nodes is a list of optional nodes. Reading an uninitialised node (undefined behaviour),
a failed assertion, an index out of range and an arithmetic overflow are all `fault` (`none` in functions that
cannot report errors). A reference into the buffer is an index. `usize` has 64 bits. -/
namespace Verif.Dbus

/-- `Error`, signature.rs 85-128. -/
inductive SigError
  | dataExceeded
  | signatureEmpty
  | signatureSequence (breakIdx : Nat)
  | signatureIncomplete (containerIdx : Nat)
  | elementInvalid (idx : Nat) (code : UInt8)
  | elementUnknown (position : Nat) (code : UInt8)
  | elementUnpaired (idx : Nat)
  | elementMispaired (idx pairIdx : Nat) (expected : Option Element)
  | dictInvalid (position : Nat)
deriving DecidableEq, Repr

/-- Outcome of a call: a value, an error, a panic or undefined behaviour, or no return at all. -/
inductive Res (α : Type)
  | ok (a : α)
  | err (e : SigError)
  | fault
  | hang
deriving DecidableEq, Repr

/-- `?`. -/
def Res.bind {α β} : Res α → (α → Res β) → Res β
  | .ok a, f => f a
  | .err e, _ => .err e
  | .fault, _ => .fault
  | .hang, _ => .hang

/-- A computation that can only fault. -/
def Res.ofOption {α} : Option α → Res α
  | some a => .ok a
  | none => .fault

/-- The two node types `Node8` and `Node64`, signature.rs 131-149 and 692-693. -/
inductive Kind | node8 | node64
deriving DecidableEq, Repr

/-- `<$int>::MAX`. -/
def Kind.max : Kind → Nat
  | .node8 => 255
  | .node64 => 2 ^ 64 - 1

/-- `ID`, signature.rs 339 and 692-693. -/
def Kind.id : Kind → Nat
  | .node8 => 0
  | .node64 => 3

/-- `SIZE_COEFF`, signature.rs 340: 8 and 48 bytes in units of 8. -/
def Kind.coeff : Kind → Nat
  | .node8 => 1
  | .node64 => 6

/-- `LENGTH_MAX`, signature.rs 341-348. -/
def Kind.lengthMax (k : Kind) : Nat := k.max / 8

/-- `Node8::opl`, signature.rs 201-211. `none` is a failed assertion. Bits shifted out of the `u16` are lost. -/
def opl (offset position length : Nat) : Option (BitVec 16) :=
  let oMask : BitVec 16 := BitVec.ofNat 16 offset <<< 0
  let pMask : BitVec 16 := BitVec.ofNat 16 position <<< 5
  let lMask : BitVec 16 := BitVec.ofNat 16 length <<< 10
  if oMask &&& ~~~(0x1f#16 <<< 0) ≠ 0#16 then none else
  if pMask &&& ~~~(0x1f#16 <<< 5) ≠ 0#16 then none else
  if lMask &&& ~~~(0x1f#16 <<< 10) ≠ 0#16 then none else
  some (oMask ||| pMask ||| lMask)

/-- `Node8::offset`, `Node8::position`, `Node8::length`, signature.rs 232-242. -/
def opl_offset (v : BitVec 16) : Nat := ((v >>> 0) &&& 0x1f#16).toNat
def opl_position (v : BitVec 16) : Nat := ((v >>> 5) &&& 0x1f#16).toNat
def opl_length (v : BitVec 16) : Nat := ((v >>> 10) &&& 0x1f#16).toNat

/-- The three counters of a node as they read back after being stored: packed for `Node8` (signature.rs 201-242),
as they are for `Node64` (254-294). -/
def Kind.pack : Kind → Nat → Nat → Nat → Option (Nat × Nat × Nat)
  | .node8, o, p, l => (opl o p l).map fun v => (opl_offset v, opl_position v, opl_length v)
  | .node64, o, p, l => some (o, p, l)

/-- `Node8` and `Node64`, signature.rs 131-149. The counters are stored as they read back. -/
structure Node where
  flags : Flag
  offset : Nat
  position : Nat
  length : Nat
  dvarSize : Nat
  gvarSize : Nat
deriving DecidableEq, Repr

/-- `Node8::with` and `Node64::with`, signature.rs 213-226 and 254-270. -/
def Node.with (k : Kind) (e : Element) (offset position : Nat) : Option Node := do
  let (o, p, l) ← k.pack offset position 1
  let flags ← FlagSet.set_node e.flags k.id
  some ⟨flags, o, p, l, e.dvarSize, e.gvarSize⟩

/-- `set_length`, signature.rs 248-250 and 292-294. -/
def Node.set_length (k : Kind) (n : Node) (v : Nat) : Option Node := do
  let (o, p, l) ← k.pack n.offset n.position v
  some { n with offset := o, position := p, length := l }

/-- `pair`, signature.rs 369-371. The outer option is the validity of the stored element. -/
def Node.pair (n : Node) : Option (Option Element) := (FlagSet.element n.flags).map Element.pair

/-- `strict_add` and checked `+`. -/
def strictAdd (k : Kind) (a b : Nat) : Option Nat := if a + b ≤ k.max then some (a + b) else none

/-- `strict_sub`. -/
def strictSub (a b : Nat) : Option Nat := if b ≤ a then some (a - b) else none

/-- `next_multiple_of`, for a positive argument. -/
def nextMultiple (k : Kind) (v m : Nat) : Option Nat :=
  if v % m = 0 then some v else strictAdd k v (m - v % m)

/-- A buffer of possibly uninitialised nodes. -/
abbrev Buf := List (Option Node)

/-- Access through a reference to a node. -/
def Buf.rd (b : Buf) (i : Nat) : Option Node :=
  match b[i]? with
  | some (some n) => some n
  | _ => none

/-- Assignment to a node, `nodes[i].write(..)`. -/
def Buf.wr (b : Buf) (i : Nat) (n : Node) : Option Buf := if i < b.length then some (b.set i (some n)) else none

/-- `parse_goto`, signature.rs 424-445: the index of the container of the node at `idx`, if any. -/
def goto (b : Buf) (idx : Nat) : Option (Option Nat) := do
  let this ← b.rd idx
  if this.offset = 0 then some none else do
    let up ← strictSub idx this.offset
    if up < b.length then some (some up) else none

/-- Propagation of a complete type to its container, signature.rs 594-641: lengths, alignments and flags. Returns
the container and the type. -/
def absorb (k : Kind) (up this : Node) : Option (Node × Node) := do
  let len ← strictAdd k up.length this.length
  let up ← up.set_length k len
  let tf := if FlagSet.dvarExp this.flags ≥ 3 then FlagSet.clear this.flags FLAG_DVAR_MISALIGNED else this.flags
  let uf := if FlagSet.dvarExp tf > FlagSet.dvarExp up.flags then FlagSet.set up.flags FLAG_DVAR_MISALIGNED else up.flags
  let uf ← if FlagSet.gvarExp tf > FlagSet.gvarExp uf then FlagSet.set_gvarExp uf (FlagSet.gvarExp tf) else some uf
  let uf := FlagSet.set uf (tf &&& (FLAG_DYNAMIC ||| FLAG_HANDLE ||| FLAG_DVAR_UNSUPPORTED ||| FLAG_DVAR_MISALIGNED))
  let uf := if FlagSet.all uf FLAG_DICT && this.position == 0 && !FlagSet.all tf FLAG_BASIC then
    FlagSet.clear uf FLAG_DICT else uf
  some ({ up with flags := uf }, { this with flags := tf })

/-- The size of an unbound container after one more member, signature.rs 659-667. -/
def grow (k : Kind) (up this : Node) : Option Node := do
  let d ← nextMultiple k up.dvarSize ((1 <<< FlagSet.dvarExp this.flags) % (k.max + 1))
  let d ← strictAdd k d this.dvarSize
  let g ← nextMultiple k up.gvarSize ((1 <<< FlagSet.gvarExp this.flags) % (k.max + 1))
  let g ← strictAdd k g this.gvarSize
  some { up with dvarSize := d, gvarSize := g }

/-- The loop `while let Some(up) = o_up`, signature.rs 593-673. It climbs to smaller indices; `fuel` bounds the
number of turns, running out of it is a fault. Returns the buffer, `o_up_idx` and `position`. -/
def climb (k : Kind) : Nat → Buf → Nat → Option Nat → Option Nat → Nat → Option (Buf × Option Nat × Nat)
  | _, b, _, oUpIdx, none, position => some (b, oUpIdx, position)
  | 0, _, _, _, some _, _ => none
  | fuel + 1, b, thisIdx, oUpIdx, some upIdx, position => do
    let this ← b.rd thisIdx
    let up ← b.rd upIdx
    let (up, this) ← absorb k up this
    let pair ← up.pair
    if FlagSet.all up.flags FLAG_OPEN && pair.isNone then do
      let b ← b.wr thisIdx this
      let b ← b.wr upIdx up
      let idx ← oUpIdx
      let next ← goto b idx
      let this ← b.rd idx
      let position ← strictAdd k this.position 1
      climb k fuel b idx next next position
    else do
      let up ← if FlagSet.all up.flags FLAG_OPEN && pair.isSome then grow k up this else some up
      let b ← b.wr thisIdx this
      let b ← b.wr upIdx up
      some (b, oUpIdx, position)

/-- The handling of closing elements, signature.rs 536-587, after `up` was found. Returns the buffer, `this_idx`,
the container (`o_up_idx` and `o_up`) and `position`. -/
def close (k : Kind) (b : Buf) (thisIdx upIdx position : Nat) : Res (Buf × Nat × Option Nat × Nat) :=
  .bind (.ofOption (b.rd thisIdx)) fun this =>
  .bind (.ofOption (b.rd upIdx)) fun up =>
  .bind (.ofOption (this.pair.bind id)) fun expected =>
  .bind (.ofOption (FlagSet.element up.flags)) fun upEl =>
  .bind (.ofOption (FlagSet.element this.flags)) fun thisEl =>
  if expected.id ≠ upEl.id then
    .bind (.ofOption (strictSub thisIdx up.offset)) fun i =>
    .err (.elementMispaired i thisIdx (some expected))
  else
    let this : Node := if thisEl = .structClose ∧ position = 1 then
      { this with flags := FlagSet.set this.flags FLAG_DVAR_UNSUPPORTED } else this
    let up : Node := if FlagSet.all up.flags FLAG_DICT && position != 3 then
      { up with flags := FlagSet.clear up.flags FLAG_DICT } else up
    .bind (.ofOption (strictSub thisIdx this.offset)) fun openIdx =>
    if thisEl = .dictClose ∧ FlagSet.all up.flags FLAG_DICT = false then
      .err (.dictInvalid openIdx)
    else
      .bind (.ofOption ((strictAdd k up.length this.length).bind (up.set_length k))) fun up =>
      .bind (.ofOption (b.wr thisIdx this)) fun b =>
      .bind (.ofOption (b.wr upIdx up)) fun b =>
      .bind (.ofOption (goto b openIdx)) fun next =>
      .bind (.ofOption (b.rd openIdx)) fun this =>
      .bind (.ofOption (strictAdd k this.position 1)) fun position =>
      .ok (b, openIdx, next, position)

/-- The offset of a new node, signature.rs 495-503: relative to its container, or to the root. -/
def offsetFrom (thisIdx : Nat) : Option Nat → Option Nat
  | some v => strictSub thisIdx v
  | none => some thisIdx

/-- Closing elements leave their container, signature.rs 539-589; other elements are types of their own. Returns
the buffer, `this_idx`, `o_up_idx`, `o_up` and `position`. -/
def leave (k : Kind) (isClose : Bool) (b : Buf) (thisIdx : Nat) (oUpIdx oUp : Option Nat) (position : Nat) :
    Res (Buf × Nat × Option Nat × Option Nat × Nat) :=
  if isClose then
    match oUp with
    | none => .err (.elementUnpaired thisIdx)
    | some up => .bind (close k b thisIdx up position) fun (b, thisIdx, next, position) =>
        .ok (b, thisIdx, next, next, position)
  else .ok (b, thisIdx, oUpIdx, oUp, position)

/-- The loop of `parse`, signature.rs 463-688, on the remaining bytes of the signature. -/
def parseLoop (k : Kind) (total : Nat) : List UInt8 → Nat → Buf → Nat → Option Nat → Res Buf
  | [], _, _, _, oUpIdx => .bind (.ofOption oUpIdx) fun i => .err (.signatureIncomplete i)
  | code :: rest, sigIdx, b, position, oUpIdx =>
    -- pre-processing, 471-508
    if code.toNat ≥ 128 then .err (.elementInvalid sigIdx code) else
    match Element.fromCode code with
    | none => .err (.elementUnknown sigIdx code)
    | some element =>
      let thisIdx := sigIdx % (k.max + 1)
      .bind (.ofOption (offsetFrom thisIdx oUpIdx)) fun offset =>
      .bind (.ofOption (Node.with k element offset position)) fun node =>
      .bind (.ofOption (b.wr thisIdx node)) fun b =>
      -- 516-518
      .bind (.ofOption (goto b thisIdx)) fun oUp =>
      .bind (.ofOption (strictAdd k position 1)) fun position =>
      let sigIdx := sigIdx + 1
      -- 528-532
      if FlagSet.all node.flags FLAG_OPEN then parseLoop k total rest sigIdx b 0 (some thisIdx) else
      -- 539-589
      .bind (leave k (FlagSet.all node.flags FLAG_CLOSE) b thisIdx oUpIdx oUp position)
        fun (b, thisIdx, oUpIdx, oUp, position) =>
      .bind (.ofOption (climb k (b.length + 1) b thisIdx oUpIdx oUp position)) fun (b, oUpIdx, position) =>
      -- 676-683
      if oUpIdx.isNone then
        if sigIdx ≠ total then .err (.signatureSequence sigIdx) else .ok b
      else parseLoop k total rest sigIdx b position oUpIdx

/-- `parse` of a node type, signature.rs 447-689. -/
def Kind.parse (k : Kind) (b : Buf) (signature : List UInt8) : Res Buf :=
  if signature.length > k.lengthMax then .err .dataExceeded else
  if signature.length < 1 then .err .signatureEmpty else
  parseLoop k signature.length signature 0 b 0 none

/-- The node type chosen for a signature of the given length, signature.rs 715-720 and 737-743. -/
def kindFor (length : Nat) : Kind := if length ≤ Kind.node8.lengthMax then .node8 else .node64

/-- `Sig::size_for_length`, signature.rs 709-721: in units of 8 bytes. `none` is a panic. -/
def sizeForLength (length : Nat) : Option Nat :=
  if length ≤ Kind.node8.lengthMax then some (length * Kind.node8.coeff)
  else if length ≤ Kind.node64.lengthMax then
    if length * Kind.node64.coeff < 2 ^ 64 then some (length * Kind.node64.coeff) else none
  else none

/-- `Sig::parse`, signature.rs 733-753, on an uninitialised buffer of `size` words. The buffer is divided into
nodes and trailing padding (`derive_uninit`, 382-397). The index of the loop clearing the padding is never
advanced, hence that loop does not end if there is padding. -/
def sigParse (size : Nat) (signature : List UInt8) : Res Buf :=
  let k := kindFor signature.length
  let pad := size % k.coeff
  .bind (k.parse (List.replicate ((size - pad) / k.coeff) none) signature) fun b =>
  if pad > 0 then .hang else .ok b

/-- `Sig`, signature.rs 182-184: the nodes, and the node type as which they were written (in the code this is
only recorded in the flags of the nodes). -/
structure Sig where
  kind : Kind
  nodes : List Node
deriving DecidableEq, Repr

/-- All nodes, if all are initialised: `assume_init`. -/
def Buf.assumeInit : Buf → Option (List Node)
  | [] => some []
  | some n :: b => (Buf.assumeInit b).map (n :: ·)
  | none :: _ => none

/-- `Sig::new`, signature.rs 762-778; `arc` (787-803), `try_make` (906-928, with `SIZE` chosen by the macros
1222-1247) are the same but for the allocation. -/
def Sig.new (signature : List UInt8) : Res Sig :=
  .bind (.ofOption (sizeForLength signature.length)) fun size =>
  .bind (sigParse size signature) fun b =>
  .bind (.ofOption b.assumeInit) fun nodes => .ok ⟨kindFor signature.length, nodes⟩

namespace Sig

/-- Number of words of the signature, `self.nodes.len()`. -/
def words (s : Sig) : Nat := s.kind.coeff * s.nodes.length

/-- `Sig::flags`, signature.rs 809-817. -/
def flags (s : Sig) : Option Flag := s.nodes[0]?.map (·.flags)

/-- `Sig::len`, signature.rs 824-830: both cases divide by the size of a `Node8`. -/
def len (s : Sig) : Option Nat := do
  let f ← s.flags
  if FlagSet.node f = Kind.node8.id then some (s.words / Kind.node8.coeff)
  else if FlagSet.node f = Kind.node64.id then some (s.words / Kind.node8.coeff)
  else none

/-- `Sig::node_at`, signature.rs 832-844. The outer option is a panic or a wrong interpretation of the memory. -/
def node_at (s : Sig) (idx : Nat) : Option (Option Node) := do
  let f ← s.flags
  if FlagSet.node f = s.kind.id then some s.nodes[idx]? else none

/-- `Sig::at`, signature.rs 846-868. `split_at` panics past the end. -/
def at_ (s : Sig) (idx : Nat) : Option (Option Sig) := do
  let node ← s.node_at idx
  match node with
  | none => some none
  | some node =>
    if !FlagSet.all node.flags FLAG_PREFIX then some none
    else if idx + node.length ≤ s.nodes.length then
      some (some { s with nodes := (s.nodes.drop idx).take node.length })
    else none

end Sig

/-- `Cursor`, signature.rs 194-197. Whether the signature is owned is not modelled. -/
structure Cursor where
  sig : Sig
  idx : Nat
deriving DecidableEq, Repr

namespace Cursor

/-- `Cursor::with`, signature.rs 965-977. -/
def with_ (s : Sig) (idx : Nat) : Option Cursor := do
  let len ← s.len
  some ⟨s, if idx < len then idx else len⟩

/-- `Cursor::new`, signature.rs 981-983, and `Sig::cursor`, 870-872. -/
def new (s : Sig) : Option Cursor := with_ s 0

/-- `Cursor::flags_at`, signature.rs 1019-1021. -/
def flags_at (c : Cursor) (idx : Nat) : Option (Option Flag) := do
  let n ← c.sig.node_at idx
  some (n.map (·.flags))

/-- `Cursor::element_at`, signature.rs 1023-1025. -/
def element_at (c : Cursor) (idx : Nat) : Option (Option Element) := do
  let n ← c.sig.node_at idx
  match n with
  | none => some none
  | some n => do
    let e ← FlagSet.element n.flags
    some (some e)

/-- `Cursor::offset_at`, signature.rs 1027-1034. -/
def offset_at (c : Cursor) (idx : Nat) : Option (Option Nat) :=
  if idx = 0 then some (some 0) else do
    let n ← c.sig.node_at idx
    some (n.map (·.offset))

/-- `Cursor::position_at`, signature.rs 1036-1043. -/
def position_at (c : Cursor) (idx : Nat) : Option (Option Nat) :=
  if idx = 0 then some (some 0) else do
    let n ← c.sig.node_at idx
    some (n.map (·.position))

/-- `Cursor::length_at`, signature.rs 1045-1047. -/
def length_at (c : Cursor) (idx : Nat) : Option (Option Nat) := do
  let n ← c.sig.node_at idx
  some (n.map (·.length))

/-- `Cursor::idx_next`, signature.rs 1049-1055. -/
def idx_next (c : Cursor) : Option (Option Nat) := do
  let len ← c.sig.len
  some (if c.idx < len then some (c.idx + 1) else none)

/-- `Cursor::idx_prev`, signature.rs 1057-1063. -/
def idx_prev (c : Cursor) : Option (Option Nat) := some (if c.idx > 0 then some (c.idx - 1) else none)

/-- `Cursor::idx_step`, signature.rs 1065-1092. -/
def idx_step (c : Cursor) : Option (Option Nat) := do
  let o ← c.offset_at c.idx
  match o with
  | none => some none
  | some v => do
    let flags ← ← c.flags_at c.idx
    let len ← ← c.length_at c.idx
    let upIdx ← strictSub c.idx v
    let up ← ← c.element_at upIdx
    if v = 0 then some (some (c.idx + len))
    else if up.pair.isNone then some none
    else if FlagSet.all flags FLAG_CLOSE then some none
    else some (some (c.idx + len))

/-- `Cursor::idx_down`, signature.rs 1094-1099. -/
def idx_down (c : Cursor) : Option (Option Nat) := do
  let f ← c.flags_at c.idx
  some (f.bind fun v => if FlagSet.all v FLAG_OPEN then some (c.idx + 1) else none)

/-- `Cursor::idx_up`, signature.rs 1101-1105. -/
def idx_up (c : Cursor) : Option (Option Nat) := do
  let o ← c.offset_at c.idx
  match o with
  | none => some none
  | some v => if v > 0 then (strictSub c.idx v).map some else some none

/-- `Cursor::maybe_move`, signature.rs 1112-1114 (`move_to`, 1107-1110). -/
def maybe_move (c : Cursor) (idx : Option Nat) : Cursor :=
  match idx with
  | some v => { c with idx := v }
  | none => c

/-- `move_next`, `move_prev`, `move_step`, `move_down`, `move_up`, signature.rs 1116-1134. -/
def move_next (c : Cursor) : Option Cursor := c.idx_next.map c.maybe_move
def move_prev (c : Cursor) : Option Cursor := c.idx_prev.map c.maybe_move
def move_step (c : Cursor) : Option Cursor := c.idx_step.map c.maybe_move
def move_down (c : Cursor) : Option Cursor := c.idx_down.map c.maybe_move
def move_up (c : Cursor) : Option Cursor := c.idx_up.map c.maybe_move

/-- `Cursor::sig`, signature.rs 1141-1143. -/
def sigAt (c : Cursor) : Option (Option Sig) := c.sig.at_ c.idx

/-- `Cursor::element`, signature.rs 1149-1151. -/
def element (c : Cursor) : Option (Option Element) := c.element_at c.idx

/-- `Cursor::down`, signature.rs 1157-1159. -/
def down (c : Cursor) : Option (Option Element) := do
  match ← c.idx_down with
  | none => some none
  | some v => c.element_at v

/-- `Cursor::up`, signature.rs 1165-1167. -/
def up (c : Cursor) : Option (Option Element) := do
  match ← c.idx_up with
  | none => some none
  | some v => c.element_at v

/-- `Cursor::position`, signature.rs 1178-1180. -/
def position (c : Cursor) : Option (Option Nat) := c.position_at c.idx

/-- `Cursor::length`, signature.rs 1190-1192. -/
def length (c : Cursor) : Option (Option Nat) := c.length_at c.idx

/-- `Cursor::dvar_alignment_exp`, signature.rs 1201-1204. -/
def dvarExp (c : Cursor) : Option (Option Nat) := (c.flags_at c.idx).map (·.map FlagSet.dvarExp)

/-- `Cursor::gvar_alignment_exp`, signature.rs 1213-1216. -/
def gvarExp (c : Cursor) : Option (Option Nat) := (c.flags_at c.idx).map (·.map FlagSet.gvarExp)

/-- `Iterator::next`, signature.rs 1342-1346. -/
def next (c : Cursor) : Option (Option Element × Cursor) := do
  let v ← c.element
  let c ← c.move_next
  some (v, c)

/-- `Iterator::size_hint`, signature.rs 1348-1351: lower bound, the upper bound is the same. -/
def size_hint (c : Cursor) : Option Nat := do
  let len ← c.sig.len
  strictSub len c.idx

/-- Collecting an iterator: `next` until it yields `None`; `fuel` bounds the number of calls. -/
def collect : Nat → Cursor → Option (List Element)
  | 0, _ => none
  | fuel + 1, c => do
    let (v, c) ← c.next
    match v with
    | none => some []
    | some e => (collect fuel c).map (e :: ·)

end Cursor

namespace Sig

/-- The elements a `Sig` iterates over, signature.rs 1319-1326. -/
def elements (s : Sig) : Option (List Element) := do
  let c ← Cursor.new s
  c.collect (s.nodes.length + 1)

/-- `Sig::to_string`, signature.rs 888-890, `Debug` and `Display`, 1265-1280: the codes of all elements. -/
def text (s : Sig) : Option (List UInt8) := (s.elements).map (·.map Element.code)

/-- `PartialEq`, signature.rs 1307-1311. -/
def eq (a b : Sig) : Option Bool := do
  let x ← a.elements
  let y ← b.elements
  some (x == y)

/-- `Ord`, signature.rs 1296-1305: `Iterator::cmp` is lexicographic. -/
def cmp (a b : Sig) : Option Ordering := do
  let x ← a.elements
  let y ← b.elements
  some (compareOfLessAndEq (x.map Element.code) (y.map Element.code))

/-- `Hash`, signature.rs 1285-1294: the sequence of values fed to the hasher (the derived `Hash` of the
discriminants). -/
def hashInput (s : Sig) : Option (List Nat) := (s.elements).map (·.map Element.id)

end Sig

/-- Bytes of an ASCII string, for examples. -/
def sb (s : String) : List UInt8 := s.toList.map Char.toUInt8

#guard (["()", "a(a{sv}()()aay)", "{sv}", "v", "aaaaas", "m(th)"].all fun s =>
  match Sig.new (sb s) with | .ok x => x.text == some (sb s) && x.len == some s.length | _ => false)
#guard (["", "a", "m", "(", "{", "aa", "(tt", "(tt(ay)", "tt", "ayay", "()()", "c", ")", "}", "a)", "a}", "(}", "{)",
    "{sv)", "(sv}", "{}", "{t}", "{ttt}", "{vv}", "{(t)t}", "\x00"].all fun s =>
  match Sig.new (sb s) with | .err _ => true | _ => false)
#guard (match Sig.new (sb "(ttttttttttttttttttttttttttttttt)") with
  | .ok x => x.text == some (sb "(ttttttttttttttttttttttttttttttt)") && x.len == some (6 * 33) | _ => false)

end Verif.Dbus
