import Verif.Json.ModelToken
import Verif.Json.ModelBytes

/-! The tests of osi/src/json/token.rs and tmp/src/fmt/json/token.rs, run on the models. -/
namespace Verif.Tests

section Osi
open Json

/-- `tk`, osi/src/json/token.rs: the outcome and the reports. -/
def tk (s : String) : Bool × List Ev :=
  match Tokenizer.parseStr collect (Tokenizer.withFlags 0) [] s.toList with
  | (_, evs, .cont .done) => (true, evs)
  | (_, evs, _) => (false, evs)

-- `basic` and `known`
#guard tk "" = (true, [])
#guard tk ":" = (true, [.tok .colon])
#guard tk "," = (true, [.tok .comma])
#guard tk "[" = (true, [.tok .arrayOpen])
#guard tk "]" = (true, [.tok .arrayClose])
#guard tk "{" = (true, [.tok .objectOpen])
#guard tk "}" = (true, [.tok .objectClose])
#guard tk "null" = (true, [.tok .null])
#guard tk "false" = (true, [.tok .false])
#guard tk "true" = (true, [.tok .true])
#guard tk " \n\r\t" = (true, [.tok (.whitespace " \n\r\t".toList)])
#guard tk "0" = (true, [.tok (.number "0".toList [0] [] [] .plus .plus)])
#guard tk "\"foobar\"" = (true, [.tok (.string "foobar".toList "foobar".toList)])
#guard tk "-0" = (true, [.tok (.number "-0".toList [0] [] [] .minus .plus)])
#guard tk "12.34e-56" = (true, [.tok (.number "12.34e-56".toList [1, 2] [3, 4] [5, 6] .plus .minus)])
#guard tk "-0e100" = (true, [.tok (.number "-0e100".toList [0] [] [1, 0, 0] .minus .plus)])
#guard tk "0.12345678901234567890123456789012345678901234567890123456789"
  = (true, [.tok (.number "0.12345678901234567890123456789012345678901234567890123456789".toList [0]
    [1, 2, 3, 4, 5, 6, 7, 8, 9, 0, 1, 2, 3, 4, 5, 6, 7, 8, 9, 0, 1, 2, 3, 4, 5, 6, 7, 8, 9, 0, 1, 2,
     3, 4, 5, 6, 7, 8, 9, 0, 1, 2, 3, 4, 5, 6, 7, 8, 9, 0, 1, 2, 3, 4, 5, 6, 7, 8, 9] [] .plus .plus)])
#guard tk "0.0000" = (true, [.tok (.number "0.0000".toList [0] [0, 0, 0, 0] [] .plus .plus)])
#guard tk "\"foo\\nbar\"" = (true, [.tok (.string "foo\\nbar".toList "foo\nbar".toList)])
#guard tk "\"\\u0020\"" = (true, [.tok (.string "\\u0020".toList " ".toList)])
#guard tk "\"\\uD834\\udd1e\"" = (true, [.tok (.string "\\uD834\\udd1e".toList [Char.ofNat 0x1d11e])])
#guard tk "\"\\\"\\\\\\/\\b\\f\\n\\r\\t\""
  = (true, [.tok (.string "\\\"\\\\\\/\\b\\f\\n\\r\\t".toList "\"\\/\x08\x0c\x0a\x0d\x09".toList)])
#guard tk "+" = (true, [.err (.characterStray '+')])
#guard tk "foobar" = (true, [.err (.keywordUnknown "foobar".toList)])
#guard tk "0e" = (true, [.err .numberIncomplete, .tok (.number "0e".toList [0] [] [] .plus .plus)])
#guard tk "\"" = (true, [.err .stringIncomplete])
#guard tk "\"\x00\"" = (true, [.err (.stringCharacterInvalid '\x00'), .tok (.string ['\x00'] ['\x00'])])
#guard tk "\"\\ \"" = (true, [.err (.stringEscapeInvalid ' '), .tok (.string "\\ ".toList " ".toList)])
#guard tk "\"\\u \"" = (true, [.err .stringEscapeIncomplete, .tok (.string "\\u ".toList " ".toList)])
#guard tk "\"\\ud834\"" = (true, [.err .stringSurrogateUnpaired, .tok (.string "\\ud834".toList [])])
#guard tk "# foobar" = (true, [.err (.comment " foobar".toList)])
#guard tk " \"foo\\\"bar\":-0.1e-10 " = (true, [.tok (.whitespace [' ']),
  .tok (.string "foo\\\"bar".toList "foo\"bar".toList), .tok .colon,
  .tok (.number "-0.1e-10".toList [0] [1] [1, 0] .minus .minus), .tok (.whitespace [' '])])

end Osi

section Tmp
open Json.Bytes

def u8 (s : String) : List UInt8 := s.toUTF8.toList

/-- The tokens of a buffer, followed by a `complete()`. -/
def pops (s : String) : List Token × Option (Option Token) :=
  let r := popAll 100 (u8 s) .new
  (r.1, (complete slice r.2.1 r.2.2).map (·.2.2))

def num (raw : String) (s : Sign) (i : String) (f : Option String) (e : Option (Sign × String)) : Token :=
  .number ⟨u8 raw, s, u8 i, f.map u8, e.map fun x => (x.1, u8 x.2)⟩

-- `tokens_valid`
#guard pops " [ \"foobar\", null ]" == ([.whitespace (u8 " "), .arrayOpen, .whitespace (u8 " "), .string (u8 "\"foobar\"") (u8 "foobar"),
  .comma, .whitespace (u8 " "), .null, .whitespace (u8 " "), .arrayClose], some none)

-- `number_valid`
#guard pops "0,1,-0.1e+5," == ([num "0" .plus "0" none none, .comma, num "1" .plus "1" none none, .comma,
  num "-0.1e+5" .minus "0" (some "1") (some (.plus, "5")), .comma], some none)

-- `number_leading_signs`
#guard pops "+71,-71,-+71,--71,++71,--++71," == ([
  .error .numberLeadingPlus, num "+71" .plus "71" none none, .comma,
  num "-71" .minus "71" none none, .comma,
  .error .numberMultipleSigns, num "-+71" .plus "71" none none, .comma,
  .error .numberMultipleSigns, num "--71" .minus "71" none none, .comma,
  .error .numberLeadingPlus, .error .numberMultipleSigns, num "++71" .plus "71" none none, .comma,
  .error .numberMultipleSigns, num "--++71" .plus "71" none none, .comma], some none)

-- `number_empty_ranges`
#guard pops "-,-0.,-0.0e,-0.0e+,-.0e+0,-0.0e+0," == ([
  .error .numberRangeEmpty, num "-" .minus "" none none, .comma,
  .error .numberRangeEmpty, num "-0." .minus "0" (some "") none, .comma,
  .error .numberRangeEmpty, num "-0.0e" .minus "0" (some "0") (some (.plus, "")), .comma,
  .error .numberRangeEmpty, num "-0.0e+" .minus "0" (some "0") (some (.plus, "")), .comma,
  .error .numberRangeEmpty, num "-.0e+0" .minus "" (some "0") (some (.plus, "0")), .comma,
  num "-0.0e+0" .minus "0" (some "0") (some (.plus, "0")), .comma], some none)

/-- One string token after some errors. -/
def str (raw : String) (errs : List Err) (s : String) : List Token × Option (Option Token) :=
  (errs.map .error ++ [.string (u8 raw) (u8 s)], some none)

-- `string_noncopy` (the accumulator stays empty, so the text comes from the input)
#guard pops "\"foobar\"" == str "\"foobar\"" [] "foobar"
#guard (popAll 1 (u8 "\"foobar\"") .new).2.2.accStr = []

-- `string_copy`
#guard pops "\"foo\\nbar\"" == str "\"foo\\nbar\"" [] "foo\nbar"
#guard pops "\"foo\\zbar\"" == str "\"foo\\zbar\"" [.stringEscapeUnknown 0x7a] "foozbar"
#guard pops "\"foo\\u1234bar\"" == str "\"foo\\u1234bar\"" [] "foo\u1234bar"
#guard pops "\"foo\\u01Zbar\"" == str "\"foo\\u01Zbar\"" [.stringEscapeInvalid] "foo\ufffdZbar"
#guard pops "\"foo\\udc00bar\"" == str "\"foo\\udc00bar\"" [.stringEscapeUnpairedTrailSurrogate 0xdc00] "foo\ufffdbar"
#guard pops "\"foo\\ud800\\udc00bar\"" == str "\"foo\\ud800\\udc00bar\"" [] ("foo" ++ String.singleton (Char.ofNat 0x10000) ++ "bar")
#guard pops "\"foo\\ud800bar\"" == str "\"foo\\ud800bar\"" [.stringEscapeUnpairedLeadSurrogate 0xd800] "foo\ufffdbar"
#guard pops "\"foo\\ud800\\nbar\"" == str "\"foo\\ud800\\nbar\"" [.stringEscapeUnpairedLeadSurrogate 0xd800] "foo\ufffd\nbar"
#guard pops "\"foo\\ud800\\ud800\\udc00bar\"" == str "\"foo\\ud800\\ud800\\udc00bar\"" [.stringEscapeUnpairedLeadSurrogate 0xd800]
  ("foo\ufffd" ++ String.singleton (Char.ofNat 0x10000) ++ "bar")
#guard pops "\"foo\\ud800\\u1234bar\"" == str "\"foo\\ud800\\u1234bar\"" [.stringEscapeUnpairedLeadSurrogate 0xd800] "foo\ufffd\u1234bar"

-- `string_esc`
#guard pops "\"\\b\\f\\n\\r\\t\\\"\\\\\\/\"" == str "\"\\b\\f\\n\\r\\t\\\"\\\\\\/\"" [] "\x08\x0c\x0a\x0d\x09\"\\/"
#guard pops "\"\\u0000\\u1234\\uffff\"" == str "\"\\u0000\\u1234\\uffff\"" [] "\x00\u1234\uffff"
#guard pops "\"\\ud834\\udd1e\"" == str "\"\\ud834\\udd1e\"" [] (String.singleton (Char.ofNat 0x1d11e))

end Tmp

end Verif.Tests
