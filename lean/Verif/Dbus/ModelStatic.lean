import Verif.Dbus.ModelSig
/-! # Signatures in buffers of a size chosen by the caller, and cursors moved by the caller -/
namespace Verif.Dbus

/-- `Sig::<[u64; SIZE]>::try_make`, signature.rs 906-928. A fault is a panic while parsing, or the use of memory that is
not initialised, after it. -/
def Sig.tryMake (size : Nat) (signature : List UInt8) : Res Sig :=
  .bind (sigParse size signature) fun b =>
  .bind (.ofOption b.assumeInit) fun nodes => .ok ⟨kindFor signature.length, nodes⟩

/-- `Sig::<[u64; SIZE]>::make`, signature.rs 936-954: panics on errors. -/
def Sig.make (size : Nat) (signature : List UInt8) : Res Sig :=
  match Sig.tryMake size signature with
  | .err _ => .fault
  | r => r

/-- The macros `make!` and `sig!`, signature.rs 1222-1247. -/
def Sig.literal (signature : List UInt8) : Res Sig :=
  .bind (.ofOption (sizeForLength signature.length)) fun size => Sig.make size signature

/-- `Cursor::move_to`, signature.rs 1107-1110. The reference `raw` hands out, 1011-1013, allows the same. -/
def Cursor.move_to (c : Cursor) (idx : Nat) : Cursor := { c with idx := idx }

end Verif.Dbus
