import Verif.Dbus.ModelDvar

/-! The tests of tmp/src/fmt/dbus/dvar.rs, element.rs and signature.rs, run on the models. -/
namespace Verif.Tests

open Dbus

-- `basic`, dvar.rs
#guard encTo false "as" [.array, .string (sb "foo"), .string (sb "bar"), .close, .commit]
  = some (sb "\x10\x00\x00\x00\x03\x00\x00\x00foo\x00\x03\x00\x00\x00bar\x00")
#guard encTo false "a{sv}" [.array, .dict, .string (sb "foo"), .variant (sg "s"), .string (sb "bar"), .close, .close, .close, .commit]
  = some (sb "\x14\x00\x00\x00\x00\x00\x00\x00\x03\x00\x00\x00foo\x00\x01s\x00\x00\x03\x00\x00\x00bar\x00")
#guard encTo false "as" [.sub (some (sg "as")) [.array, .sub none [.string (sb "000"), .commit],
    .sub none [.string (sb "001"), .commit], .string (sb "002"), .string (sb "003"), .close, .commit], .commit]
  = some (sb "\x20\x00\x00\x00\x03\x00\x00\x00000\x00\x03\x00\x00\x00001\x00\x03\x00\x00\x00002\x00\x03\x00\x00\x00003\x00")

-- `flags`, element.rs
#guard
  let v := FlagSet_with .string 1 2 (FLAG_BASIC ||| FLAG_DYNAMIC)
  FlagSet.element v = some .string && FlagSet.dvarExp v = 1
    && FlagSet.all v FLAG_BASIC && FlagSet.all v FLAG_DYNAMIC && FlagSet.all v (FLAG_BASIC ||| FLAG_DYNAMIC)
    && !FlagSet.all v FLAG_HANDLE && !FlagSet.all v FLAG_VARIANT && !FlagSet.all v (FLAG_BASIC ||| FLAG_HANDLE)
#guard
  let mask := FlagSet_with .string 1 2 (FLAG_BASIC ||| FLAG_DYNAMIC)
  let v := FlagSet.set mask FLAG_VARIANT
  let w := FlagSet.set mask (FLAG_VARIANT ||| FLAG_HANDLE)
  FlagSet.all v FLAG_VARIANT && v = mask ||| FLAG_VARIANT
    && !FlagSet.all (FlagSet.clear v FLAG_VARIANT) FLAG_VARIANT && FlagSet.clear v FLAG_VARIANT = mask
    && FlagSet.all w (FLAG_VARIANT ||| FLAG_HANDLE) && w = mask ||| FLAG_VARIANT ||| FLAG_HANDLE
    && FlagSet.clear w (FLAG_VARIANT ||| FLAG_HANDLE) = mask
#guard
  let mask := FlagSet_with .string 1 2 (FLAG_BASIC ||| FLAG_DYNAMIC)
  FlagSet.node mask = 0 && (FlagSet.set_node mask 3).map FlagSet.node = some 3
    && ((FlagSet.set_node mask 3).bind (FlagSet.set_node · 0)) = some mask
    && FlagSet.gvarExp mask = 2 && (FlagSet.set_gvarExp mask 3).map FlagSet.gvarExp = some 3
    && ((FlagSet.set_gvarExp mask 3).bind (FlagSet.set_gvarExp · 2)) = some mask

def flagList : List Flag := [FLAG_PREFIX, FLAG_OPEN, FLAG_CLOSE, FLAG_BASIC, FLAG_DYNAMIC, FLAG_VARIANT, FLAG_HANDLE, FLAG_DICT,
  FLAG_DVAR_UNSUPPORTED, FLAG_DVAR_MISALIGNED]
def maskList : List Flag := [FLAG_ELEMENT_MASK, FLAG_NODE_MASK, FLAG_DVAR_ALIGNMENT_MASK, FLAG_GVAR_ALIGNMENT_MASK]
def ones (f : Flag) : Nat := ((List.range 32).filter fun i => f.getLsbD i).length

-- `flags_overlap`, element.rs
#guard ones (flagList.foldl (· ||| ·) 0) = flagList.length
#guard maskList.all fun i => maskList.all fun j => i = j || i &&& j = 0
#guard ones (maskList.foldl (· ||| ·) 0) = ones (FLAG_PREFIX - 1)

-- `flags_mask_limit…`, element.rs
#guard [0, 1, 2, 3].all fun n => (FlagSet.set_node (FlagSet_with .u64 0 0 0) n).isSome
#guard [4, 1 <<< 7].all fun n => (FlagSet.set_node (FlagSet_with .u64 0 0 0) n).isNone
#guard FlagSet_with_asserts .u64 0 0 0 && FlagSet_with_asserts .u64 3 0 0 && FlagSet_with_asserts .u64 0 3 0
#guard [4, 1 <<< 7].all fun n => !FlagSet_with_asserts .u64 n 0 0 && !FlagSet_with_asserts .u64 0 n 0

-- `elements_reserved`, element.rs
#guard [0x00, 0x72, 0x65, 0x2a, 0x3f, 0x40, 0x26, 0x5e].all fun c => (Element.fromCode c).isNone

-- `elements_consistency`, element.rs
#guard Element.all.length = ELEMENTS.length
#guard Element.all.zipIdx.all fun (v, i) =>
  v.id ≠ 0 && Element.fromId v.id = some v && Element.fromCode v.code = some v && v.char.toNat = v.code.toNat
    && v.str = [v.code] && FlagSet.element v.flags = some v && i + 1 = v.id
#guard ELEMENTS.zipIdx.all fun (r, i) =>
  r.element.id = i + 1 && (match r.pair with | some p => p ≠ r.element && p.pair = some r.element | none => true)
#guard Element.all.all fun v =>
  v.hasAll FLAG_PREFIX = !v.hasAll FLAG_CLOSE
    && (!v.hasAll FLAG_OPEN || v = .array || v = .maybe || v = .structOpen || v = .dictOpen)
    && (!v.hasAll FLAG_CLOSE || v = .structClose || v = .dictClose)
    && !v.hasAll (FLAG_OPEN ||| FLAG_CLOSE)
    && (v.pair.isNone || v.hasAny (FLAG_OPEN ||| FLAG_CLOSE))
    && (!v.hasAll FLAG_CLOSE || v.pair.isSome)

/-- What `to_string()` gives for a signature. -/
def show_ (s : String) : Option (List UInt8) :=
  match Sig.new (sb s) with
  | .ok x => x.text
  | _ => none

-- `api`, `sig_common`, signature.rs
#guard ["y", "q", "n", "u", "i", "t", "x", "d", "b", "s", "o", "g", "h", "v", "ay", "my", "(yy)", "{sv}", "a{sv}", "(uuta{sv}a{sv})",
  "a(uu(t)(t))", "({uu}{tt})", "amamy", "(ayata{yy}a(vv)v)"].all fun s => show_ s = some (sb s)

-- `sig_invalid`, signature.rs
#guard (["", "a", "m", "(", "{", "aa", "(tt", "(tt(ay)", "tt", "ayay", "()()", "()()()()", "\u00ff", "\x00", "c", ")", "}", "a)", "a}",
    "(}", "{)", "{sv)", "(sv}", "{}", "{t}", "{ttt}", "{vv}", "{(t)t}"].all fun s =>
  match Sig.new (sb s) with | .err _ => true | _ => false)
#guard sb "\u00ff" = [0xff]

/-- One move of a cursor. -/
inductive Move | next | prev | step | down | up

def Move.run (c : Cursor) : Move → Option Cursor
  | .next => c.move_next
  | .prev => c.move_prev
  | .step => c.move_step
  | .down => c.move_down
  | .up => c.move_up

/-- What is seen after every move. -/
def walk {α : Type} (look : Cursor → Option α) : Option Cursor → List Move → List (Option α)
  | none, _ => [none]
  | some c, [] => [look c]
  | some c, m :: l => look c :: walk look (m.run c) l

/-- The text below the cursor. -/
def below_ (c : Cursor) : Option (Option (Option (List UInt8))) := c.sigAt.map (·.map Sig.text)

-- `subslicing`, signature.rs
#guard walk below_ (Cursor.new (sg "a{sv}")) [.down, .down, .step, .step, .up, .up, .step]
  = ([some "a{sv}", some "{sv}", some "s", some "v", none, some "{sv}", some "a{sv}", none].map fun x => some (x.map fun t => some (sb t)))

-- `cursor_movement`, signature.rs
#guard walk Cursor.element (Cursor.new (sg "s")) [.next, .next, .prev, .prev, .next]
  = [some (some .string), some none, some none, some (some .string), some (some .string), some none]
#guard walk Cursor.element (Cursor.new (sg "(tui)")) [.next, .next, .next, .next, .next, .next, .prev, .prev, .prev, .prev, .prev, .prev]
  = [some (some .structOpen), some (some .u64), some (some .u32), some (some .i32), some (some .structClose), some none, some none,
    some (some .structClose), some (some .i32), some (some .u32), some (some .u64), some (some .structOpen), some (some .structOpen)]
#guard walk Cursor.element (Cursor.new (sg "a(a{sv}()()aay)"))
    [.down, .down, .down, .down, .down, .step, .step, .up, .step, .up, .step, .step, .step, .down, .down, .up, .up, .step, .up, .up, .up, .step]
  = ([some .array, some .structOpen, some .array, some .dictOpen, some .string, some .string, some .variant, some .dictClose,
    some .dictOpen, some .dictOpen, some .array, some .structOpen, some .structOpen, some .array, some .array, some .u8, some .array,
    some .array, some .structClose, some .structOpen, some .array, some .array, none] : List (Option Element)).map some

-- `traits`, signature.rs
#guard Sig.eq (sg "(tt)") (sg "(tt)") = some true
#guard Sig.cmp (sg "(tt)") (sg "(tt)") = some .eq
#guard Sig.cmp (sg "(tt)") (sg "(tv)") = some .lt

end Verif.Tests
