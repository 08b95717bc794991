import Verif.Dbus.ModelDec
/-! # Model of the time that D-Bus signatures, encoders and decoders take, `lib/tmp/src/fmt/dbus/signature.rs` 447-778

The model of the parser in `ModelSig` with a count of the turns of its loops: every turn of `while signature_idx < signature.len()`
(463) and every turn of `while let Some(up) = o_up` (593). Everything between two turns is free of loops and recursion, down to
`Element::from_code`, `parse_goto` and the accessors of nodes. The third loop, which clears the padding (747), is only entered if there
is padding, and then does not end.

Encoders and decoders have no loops of their own: all they do is done by readers and writers, on which they call `map` (`io/map.rs`
30-46, 86-93, 102-122, 132-139). Hence they are measured by the calls a reader or writer gets, and by the bytes that are copied. -/
namespace Verif.Dbus
open Verif.Io

/-- A result, and the number of turns it took. -/
abbrev Timed (α : Type) := Res α × Nat

/-- A step without loops. -/
def Timed.step {α : Type} (r : Res α) : Timed α := (r, 0)

/-- `?`: what follows adds to the time. -/
def Timed.bind {α β : Type} : Timed α → (α → Timed β) → Timed β
  | (.ok a, n), f => ((f a).1, n + (f a).2)
  | (.err e, n), _ => (.err e, n)
  | (.fault, n), _ => (.fault, n)
  | (.hang, n), _ => (.hang, n)

/-- One turn of a loop. -/
def Timed.turn {α : Type} (x : Timed α) : Timed α := (x.1, x.2 + 1)

/-- The loop `while let Some(up) = o_up`, signature.rs 593-673, as `climb`. -/
def climbT (k : Kind) : Nat → Buf → Nat → Option Nat → Option Nat → Nat → Timed (Buf × Option Nat × Nat)
  | _, b, _, oUpIdx, none, position => .step (.ok (b, oUpIdx, position))
  | 0, _, _, _, some _, _ => .step .fault
  | fuel + 1, b, thisIdx, oUpIdx, some upIdx, position => .turn <|
    .bind (.step (.ofOption (b.rd thisIdx))) fun this =>
    .bind (.step (.ofOption (b.rd upIdx))) fun up =>
    .bind (.step (.ofOption (absorb k up this))) fun (up, this) =>
    .bind (.step (.ofOption up.pair)) fun pair =>
    if FlagSet.all up.flags FLAG_OPEN && pair.isNone then
      .bind (.step (.ofOption (b.wr thisIdx this))) fun b =>
      .bind (.step (.ofOption (b.wr upIdx up))) fun b =>
      .bind (.step (.ofOption oUpIdx)) fun idx =>
      .bind (.step (.ofOption (goto b idx))) fun next =>
      .bind (.step (.ofOption (b.rd idx))) fun this =>
      .bind (.step (.ofOption (strictAdd k this.position 1))) fun position =>
      climbT k fuel b idx next next position
    else
      .bind (.step (.ofOption (if FlagSet.all up.flags FLAG_OPEN && pair.isSome then grow k up this else some up))) fun up =>
      .bind (.step (.ofOption (b.wr thisIdx this))) fun b =>
      .bind (.step (.ofOption (b.wr upIdx up))) fun b =>
      .step (.ok (b, oUpIdx, position))

/-- The loop of `parse`, signature.rs 463-688, as `parseLoop`. -/
def parseLoopT (k : Kind) (total : Nat) : List UInt8 → Nat → Buf → Nat → Option Nat → Timed Buf
  | [], _, _, _, oUpIdx => .step (.bind (.ofOption oUpIdx) fun i => .err (.signatureIncomplete i))
  | code :: rest, sigIdx, b, position, oUpIdx => .turn <|
    if code.toNat ≥ 128 then .step (.err (.elementInvalid sigIdx code)) else
    match Element.fromCode code with
    | none => .step (.err (.elementUnknown sigIdx code))
    | some element =>
      let thisIdx := sigIdx % (k.max + 1)
      .bind (.step (.ofOption (offsetFrom thisIdx oUpIdx))) fun offset =>
      .bind (.step (.ofOption (Node.with k element offset position))) fun node =>
      .bind (.step (.ofOption (b.wr thisIdx node))) fun b =>
      .bind (.step (.ofOption (goto b thisIdx))) fun oUp =>
      .bind (.step (.ofOption (strictAdd k position 1))) fun position =>
      let sigIdx := sigIdx + 1
      if FlagSet.all node.flags FLAG_OPEN then parseLoopT k total rest sigIdx b 0 (some thisIdx) else
      .bind (.step (leave k (FlagSet.all node.flags FLAG_CLOSE) b thisIdx oUpIdx oUp position))
        fun (b, thisIdx, oUpIdx, oUp, position) =>
      .bind (climbT k (b.length + 1) b thisIdx oUpIdx oUp position) fun (b, oUpIdx, position) =>
      if oUpIdx.isNone then
        if sigIdx ≠ total then .step (.err (.signatureSequence sigIdx)) else .step (.ok b)
      else parseLoopT k total rest sigIdx b position oUpIdx

/-- `parse` of a node type, signature.rs 447-689, as `Kind.parse`. -/
def Kind.parseT (k : Kind) (b : Buf) (signature : List UInt8) : Timed Buf :=
  if signature.length > k.lengthMax then .step (.err .dataExceeded) else
  if signature.length < 1 then .step (.err .signatureEmpty) else
  parseLoopT k signature.length signature 0 b 0 none

/-- `Sig::parse`, signature.rs 733-753, as `sigParse`. -/
def sigParseT (size : Nat) (signature : List UInt8) : Timed Buf :=
  let k := kindFor signature.length
  let pad := size % k.coeff
  .bind (k.parseT (List.replicate ((size - pad) / k.coeff) none) signature) fun b =>
  if pad > 0 then .step .hang else .step (.ok b)

/-- `Sig::new`, signature.rs 762-778, as `Sig.new`. The buffer is not initialised when it is allocated, and `assume_init` does
nothing. -/
def Sig.newT (signature : List UInt8) : Timed Sig :=
  .bind (.step (.ofOption (sizeForLength signature.length))) fun size =>
  .bind (sigParseT size signature) fun b =>
  .bind (.step (.ofOption b.assumeInit)) fun nodes => .step (.ok ⟨kindFor signature.length, nodes⟩)

#guard (Sig.newT (sb "a{sv}")).2 = 5 + 3
#guard (Sig.newT (sb "aaaaau")).2 = 6 + 5
#guard (Sig.newT (sb "(aau)x")).2 = 5 + 3

/-! ## Readers and writers that count -/

/-- The calls of `map` that a reader or writer got, the bytes that were copied from or to it, and the bytes a writer was told to
commit. -/
structure Tally where
  calls : Nat
  bytes : Nat
  committed : Nat
deriving DecidableEq, Repr

/-- Nothing happened yet. -/
def Tally.zero : Tally := ⟨0, 0, 0⟩

/-- A writer that counts. What is written to a mapped slice is what fits in it, at most what was asked for (map.rs 89, 115 and 135). -/
def countWrites {σ : Type} (I : WriteImpl σ) : WriteImpl (σ × Tally) where
  map st idx len :=
    let r := I.map st.1 idx len
    ((r.1, { st.2 with calls := st.2.calls + 1, bytes := st.2.bytes + match r.2 with | .cont n => min n len | _ => 0 }), r.2)
  commit st n := (I.commit st.1 n, { st.2 with committed := st.2.committed + n })

/-- A reader that counts. -/
def countReads {σ : Type} (I : ReadImpl σ) : ReadImpl (σ × Tally) where
  map st idx len :=
    let r := I.map st.1 idx len
    ((r.1, { st.2 with calls := st.2.calls + 1, bytes := st.2.bytes + match r.2 with | .cont m => min m.length len | _ => 0 }), r.2)

/-- The tally of an encoding into a vector, for examples. -/
def tallyTo (be : Bool) (sig : String) (ops : List Op) : Option Tally :=
  match Sig.new (sb sig) with
  | .ok s =>
    match Enc.with_ s be with
    | none => none
    | some e =>
      match Op.runs (countWrites vecWrite) ops e ⟨(0, .zero), fun _ => none⟩ with
      | none => none
      | some (_, w, _) => some w.st.2
  | _ => none

/-- The tally of decoding a slice, for examples. -/
def tallyFrom (be : Bool) (sig : String) (data : List UInt8) (l : List Ask) : Option Tally :=
  match Sig.new (sb sig) with
  | .ok s =>
    match Dec.with_ s be with
    | none => none
    | some d => (Ask.runs (countReads (sliceRead data)) l d ((), .zero)).map (·.2.1.2)
  | _ => none

#guard tallyTo false "as" [.array, .string (sb "foo"), .string (sb "bar"), .close, .commit] = some ⟨8, 24, 20⟩
#guard tallyFrom false "as" [16, 0, 0, 0, 3, 0, 0, 0, 102, 111, 111, 0, 3, 0, 0, 0, 98, 97, 114, 0]
  [.array, .string, .string, .close, .commit] = some ⟨5, 18, 0⟩

end Verif.Dbus
