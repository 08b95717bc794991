import Verif.Args.Utf8
/-! # Model of `lib/osi/src/compat.rs`

A `&str` is the list of its bytes, which is valid UTF-8. A `std::ffi::OsStr` is its encoded bytes. `to_string_lossy` is in
`Text/ModelLossy.lean`. -/
namespace Verif.Text
open Verif.Args

/-- `&str`. -/
structure Str where
  bytes : Bytes
  valid : isUtf8 bytes = true

/-- `OsStr`, compat.rs 33-37. -/
structure OsStr where
  inner : Bytes
deriving DecidableEq

/-- `core::str::Utf8Error`, by `valid_up_to`. -/
structure Utf8Error where
  valid_up_to : Nat
deriving DecidableEq

/-- `core::str::from_utf8`. -/
def from_utf8 (v : Bytes) : Except Utf8Error Str :=
  if h : isUtf8 v = true then .ok ⟨v, h⟩ else .error ⟨validUpTo v⟩

/-- `OsStr::from_encoded_bytes_unchecked`, compat.rs 48-54. -/
def OsStr.from_encoded_bytes_unchecked (v : Bytes) : OsStr := ⟨v⟩
/-- `OsStr::as_encoded_bytes`, compat.rs 85-87. -/
def OsStr.as_encoded_bytes (o : OsStr) : Bytes := o.inner
/-- `OsStr::from_osstr`, compat.rs 59-67. -/
def OsStr.from_osstr (v : Bytes) : OsStr := .from_encoded_bytes_unchecked v
/-- `OsStr::as_osstr`, compat.rs 92-100. -/
def OsStr.as_osstr (o : OsStr) : Bytes := o.as_encoded_bytes
/-- `OsStr::from_str`, compat.rs 71-75. -/
def OsStr.from_str (v : Str) : OsStr := .from_encoded_bytes_unchecked v.bytes
/-- `OsStr::from_utf8`, compat.rs 79-81. -/
def OsStr.from_utf8 (v : Bytes) : Except Utf8Error OsStr :=
  match Text.from_utf8 v with
  | .ok s => .ok (.from_str s)
  | .error e => .error e
/-- `OsStr::to_str`, compat.rs 105-107. -/
def OsStr.to_str (o : OsStr) : Except Utf8Error Str := Text.from_utf8 o.as_encoded_bytes

/-! ## `Write` -/

/-- What one call of `std::io::Write::write` does: takes `n` bytes, was interrupted, or fails. -/
inductive Call
  | took (n : Nat)
  | interrupted
  | failed
deriving DecidableEq

/-- What `write_all` comes to; in each case with the bytes that were taken. -/
inductive Written
  | ok (taken : Bytes)
  | error (taken : Bytes)
  /-- Another call is made that has not returned. -/
  | waiting (taken : Bytes)
  /-- The writer claims to have taken more than it was given. -/
  | panic
deriving DecidableEq

/-- `std::io::Write::write_all` as documented: calls `write` until everything is taken, again if it is interrupted. The behaviour of the writer is
the list of what its calls do. -/
def write_all (taken : Bytes) : List Call → Bytes → Written
  | [], b => if b = [] then .ok taken else .waiting taken
  | c :: l, b =>
    if b = [] then .ok taken
    else match c with
      | .took n => if n = 0 then .error taken else if b.length < n then .panic else write_all (taken ++ b.take n) l (b.drop n)
      | .interrupted => write_all taken l b
      | .failed => .error taken

/-- `Write::write_str`, compat.rs 25-27. -/
def write_str (l : List Call) (v : Str) : Written := write_all [] l v.bytes

end Verif.Text
