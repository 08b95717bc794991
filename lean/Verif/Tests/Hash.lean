import Verif.Rng.Model
import Verif.Str.Model
import Verif.Hash.ModelHmac

/-! The tests of osi/src/rng.rs 372-455, osi/src/str.rs, osi/src/hmac.rs and osi/src/hash/sha256.rs, run on the models. -/
namespace Verif.Tests

open Rng Hash

/-- The first `n` values of a generator. -/
def take64 {S : Type} (next : S → U64 × S) : Nat → S → List U64 × S
  | 0, s => ([], s)
  | n + 1, s => let (v, s) := next s; let (l, s) := take64 next n s; (v :: l, s)

-- `sm64_known`, rng.rs
#guard (take64 Mix64.next64 4 (Mix64.with_seed 0)).1
  = [16294208416658607535, 7960286522194355700, 487617019471545679, 17909611376780542444]
#guard (take64 SplitMix64.next64 4 (SplitMix64.with_seed 0)).1
  = [16294208416658607535, 7960286522194355700, 487617019471545679, 17909611376780542444]
#guard (take64 Mix64.next64 4 (Mix64.with_seed 1234567)).1
  = [6457827717110365317, 3203168211198807973, 9817491932198370423, 4593380528125082431]
#guard (take64 SplitMix64.next64 4 (SplitMix64.with_seed 1234567)).1
  = [6457827717110365317, 3203168211198807973, 9817491932198370423, 4593380528125082431]

-- `sm64_split`, rng.rs
#guard
  let r := (Mix64.with_seed 0).next64.2
  r.split.2.next64.1 = r.next64.2.next64.2.next64.1
#guard
  let s := SplitMix64.from_mix64 (Mix64.with_seed 0)
  s.mix.state = (SplitMix64.with_seed 0).mix.state && s.gamma = (SplitMix64.with_seed 0).gamma
#guard
  let a := (Mix64.with_seed 0).split.1
  let b := (SplitMix64.with_seed 0).split.1
  a.mix.state = b.mix.state && a.gamma = b.gamma

-- `xoshiro256pp_known`, rng.rs
#guard
  let (a, s) := take64 next64 4 (with_seed ⟨1, 2, 3, 4⟩)
  let (b, s) := take64 next64 4 (jump128 s)
  let (c, _) := take64 next64 4 (jump192 s)
  a = [41943041, 58720359, 3588806011781223, 3591011842654386]
    && b = [10838999831620499216, 8680420094678800874, 9570055643283944810, 7079802948504130534]
    && c = [7229965972965062926, 2140690761664815708, 5733913562642225265, 10699737370828579003]

-- `some_basic`, str.rs
#guard Str.some [] = none
#guard Str.some " ".toList = some " ".toList
#guard Str.some "foobar".toList = some "foobar".toList

-- `cmp_natural_basic`, str.rs
#guard Str.cmp_natural Str.ascii "foobar".toList "foobar".toList = .eq
#guard Str.cmp_natural Str.ascii "foobar0".toList "foobar1".toList = .lt
#guard Str.cmp_natural Str.ascii "foobar1".toList "foobar0".toList = .gt
#guard Str.cmp_natural Str.ascii "foobar2".toList "foobar10".toList = .lt
#guard Str.cmp_natural Str.ascii "foo2bar3".toList "foo10bar10".toList = .lt

-- `symbolize_basic`, str.rs
#guard Str.symbolize Str.ascii [] = "_".toList
#guard Str.symbolize Str.ascii "foobar".toList = "foobar".toList
#guard Str.symbolize Str.ascii "0foobar".toList = "_0foobar".toList
#guard Str.symbolize Str.ascii "foo-bar".toList = "foo_bar".toList
#guard Str.symbolize Str.ascii "0foo-bar".toList = "_0foo_bar".toList
#guard Str.symbolize Str.ascii "foo(bar)".toList = "foo_bar_".toList

def octets (s : String) : List Byte := s.toUTF8.toList.map (·.toBitVec)

def hex (h : Option (List Byte)) : Option String := (h.bind to_hex).map String.ofList

-- `basic`, hmac.rs
#guard hex (do
    let h ← hmacSha256_new (octets "key")
    let h ← h.push sha256Ops (octets "The quick brown fox jumps over the lazy dog")
    (h.finalize sha256Ops).map (·.1))
  = some "f7bc83f430538424b13298e6aa6fb143ef4d59a14946175997479dbc2d1a3cd8"

-- `reference_vectors`, `object_safety`, sha256.rs
#guard hex (hash []) = some "e3b0c44298fc1c149afbf4c8996fb92427ae41e4649b934ca495991b7852b855"
#guard hex (hash (octets "foobar")) = some "c3ab8ff13720e8ad9047dd39466b3c8974e592c2fa383d4a3960714caef0c4f2"
#guard hex (Engine.default.finalize.map (·.1)) = some "e3b0c44298fc1c149afbf4c8996fb92427ae41e4649b934ca495991b7852b855"

-- `split`, sha256.rs
#guard hex (((["f", "o", "o", "b", "a", "r"].foldlM (fun e s => Engine.push e (octets s)) Engine.default).bind
    Engine.finalize).map (·.1)) = some "c3ab8ff13720e8ad9047dd39466b3c8974e592c2fa383d4a3960714caef0c4f2"

/-- The loop of `zeroes`, sha256.rs: the same engine is used for all cases. -/
def zeroes : List Nat → Engine → List (Option String)
  | [], _ => []
  | n :: l, e =>
    match (e.push_zero n).bind Engine.finalize with
    | some (h, e) => hex (some h) :: zeroes l e
    | none => [none]

-- `zeroes`, sha256.rs
#guard zeroes [54, 55, 56, 57, 58, 64, 128, 256, 512, 1024] .default = [
  "ea659cdc838619b3767c057fdf8e6d99fde2680c5d8517eb06761c0878d40c40",
  "02779466cdec163811d078815c633f21901413081449002f24aa3e80f0b88ef7",
  "d4817aa5497628e7c77e6b606107042bbba3130888c5f47a375e6179be789fbb",
  "65a16cb7861335d5ace3c60718b5052e44660726da4cd13bb745381b235a1785",
  "66b4a8b2a17f0463f7427c0239106eaf710ea7129f42d184a58c50cdff614ba4",
  "f5a5fd42d16a20302798ef6ed309979b43003d2320d9f0e8ea9831a92759fb4b",
  "38723a2e5e8a17aa7950dc008209944e898f69a7bd10a23c839d341e935fd5ca",
  "5341e6b2646979a70e57653007a1f310169421ec9bdd9f1a5648f75ade005af1",
  "076a27c79e5ace2a3d47f9dd2e83e4ff6ea8872b3c2218f66c92b89b55f36560",
  "5f70bf18a086007016e948b04aed3b82103a36bea41755b6cddfaf10ace3c6ef"].map some

end Verif.Tests
