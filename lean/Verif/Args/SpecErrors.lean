import Verif.Args.Spec
/-! # Specification: what errors say

`lib/osi/src/args.rs` 32-81 names the fields of errors: the flag; the value; the short flags, "without the leading dash"; and the
parameter. For flags nothing is said about dashes. They are left out here, like for short flags, and so is the value behind the
first `=`, since it is a field of its own. That is a reading of ours, but it is what the code does for every name in UTF-8. -/namespace Verif.Args

/-- How a flag with a name and possibly a value is given in one argument. -/
def spelled (name : Bytes) : Option Bytes → Bytes
  | none => 0x2d :: 0x2d :: name
  | some value => 0x2d :: 0x2d :: (name ++ 0x3d :: value)

/-- The error says what was given, for the arguments it is about. -/
def Names (used : List Bytes) : Error → Prop
  | .shortsUnknown shorts => used = [0x2d :: shorts]
  | .flagUnknown flag | .flagUnexpectedToggle flag => (0x3d : UInt8) ∉ flag ∧ ∃ value, used = [spelled flag value]
  | .flagUnexpectedValue flag value => (0x3d : UInt8) ∉ flag ∧ used = [spelled flag (some value)]
  | .flagNoValue flag => (0x3d : UInt8) ∉ flag ∧ used = [spelled flag none]
  | .parameterUnexpected parameter => used = [parameter]
  | .flagValueNotUtf8 _ _ | .parameterNotUtf8 _ => False

end Verif.Args
