#!/usr/bin/env python3
"""Regenerates /verif/properties.jsonl. One entry per property."""
import json, os
P = []
def p(title, statement, quantifier, why, anchors):
    P.append(dict(id="C%02d" % (len(P)+1), title=title, statement=statement,
                  quantifier=quantifier, why_tests_cant=why, anchors=anchors))

SHA="lib/osi/src/hash/sha256.rs"; HMAC="lib/osi/src/hmac.rs"; RNG="lib/osi/src/rng.rs"; STR="lib/osi/src/str.rs"
PARSE="lib/osi/src/args/parse.rs"; LAY="lib/osi/src/args/layout.rs"; REP="lib/osi/src/args/report.rs"; HELP="lib/osi/src/args/help.rs"
SIG="lib/tmp/src/fmt/dbus/signature.rs"; ELE="lib/tmp/src/fmt/dbus/element.rs"; DVAR="lib/tmp/src/fmt/dbus/dvar.rs"
MAP="lib/tmp/src/io/map.rs"; STREAM="lib/tmp/src/io/stream.rs"; OTOK="lib/osi/src/json/token.rs"; TTOK="lib/tmp/src/fmt/json/token.rs"; JST="lib/tmp/src/fmt/json/stream.rs"

p("SHA-256 computes the standard digest",
  "Feeding a message to a fresh SHA-256 engine and finalizing it yields the FIPS 180-4 digest of that message.",
  "every byte string shorter than 2^61 bytes",
  "The set of messages is infinite and padding behaves differently for each residue of the length modulo 64; a handful of test vectors leaves residues untested (residue 63 in fact panics).",
  [f"{SHA}: Sha256::push, push_zero, finalize, sha256_round, sha256_step", "lib/osi/src/hash.rs: Engine, hash"])
p("SHA-256 streaming is independent of chunking",
  "Any sequence of push(bytes) and push_zero(n) calls leaves the engine in the same state as one push of the concatenated bytes (push_zero(n) counting as n zero bytes).",
  "every sequence of push/push_zero calls with any chunk sizes from any reachable engine state",
  "There are unboundedly many ways to split an unbounded message across calls.",
  [f"{SHA}: Sha256::push, push_zero", "lib/osi/src/hash.rs: Engine::push_zero"])
p("SHA-256 engines are reusable",
  "After finalize() or reset(), the engine produces the same digests for every later history as a newly created engine, and reports itself as reset.",
  "every history of pushes before the finalize/reset and every history afterwards",
  "Left-over state shows only for particular pairs of histories; the pairs are unbounded.",
  [f"{SHA}: Sha256::finalize, reset, is_reset"])
p("HMAC computes RFC 2104",
  "An HMAC engine created with a key and fed with a message finalizes to H((K xor opad) || H((K xor ipad) || message)) as defined by RFC 2104, K being the key hashed if longer than a block and zero-padded.",
  "every key and every message, in every chunking",
  "Keys and messages range over all byte strings, with boundary behaviour at block length and at each padding residue.",
  [f"{HMAC}: Hmac::with_engine, push, push_zero, finalize"])
p("HMAC engines are reusable with the same key",
  "finalize() and reset() return the engine to the state it had directly after creation with its key, so any number of messages can be authenticated in turn, each independent of earlier ones.",
  "every key, every list of messages and every interleaving of resets",
  "Histories are unbounded; a stale inner or outer block shows only in later messages.",
  [f"{HMAC}: Hmac::reset, finalize"])
p("Hex rendering of a hash is faithful",
  "Hash::to_hex() yields exactly two lower-case hex digits per byte, and decoding them gives the hash back, so two hashes have equal hex strings only if they are equal.",
  "every hash value of every size",
  "The space of hashes cannot be enumerated.",
  ["lib/osi/src/hash.rs: Hash::to_hex"])
p("SplitMix64 generators never repeat within 2^64 outputs",
  "For every generator obtained from with_seed or by any number of split() calls, 2^64 consecutive next64() outputs are pairwise distinct (hence each 64-bit value occurs exactly once) and the sequence then repeats.",
  "every seed, every history of next/split calls, every position in the sequence",
  "The period is 2^64 and the family of generators is unbounded.",
  [f"{RNG}: Mix64::mix64, mixg, next64, split; SplitMix64"])
p("Split gammas are odd and not degenerate",
  "Every gamma produced by a split is odd and has at least 24 positions where neighbouring bits differ.",
  "every 64-bit mixer state",
  "2^64 inputs.",
  [f"{RNG}: Mix64::mixg, split"])
p("Mix64 and SplitMix64 agree, and splitting advances the parent by a fixed amount",
  "SplitMix64 with the default gamma yields exactly the Mix64 sequence of the same seed, and split() moves the parent forward by exactly two steps, whatever the child is used for later. The child starts from the parent's next number, and its gamma is drawn from the step after that.",
  "every seed and every sequence length",
  "Unbounded sequences.",
  [f"{RNG}: Mix64::step, next64, split; SplitMix64::with_seed, from_mix64, next64, split"])
p("xoshiro256++ state transition is a bijection that avoids the all-zero state",
  "Every xoshiro256++ instance, however seeded, stepped or jumped, has a non-zero state, and no two different states step to the same state.",
  "every seed and every history of next64/jump128/jump192 calls",
  "2^256 states and unbounded histories.",
  [f"{RNG}: Xoshiro256pp::with_seed, from_splitmix64, step, next64, jump128, jump192"])
p("xoshiro256++ jumps equal 2^128 and 2^192 steps",
  "jump128() leaves the generator in exactly the state reached by 2^128 calls of next64(), and jump192() in the state reached by 2^192 calls.",
  "every 256-bit state",
  "The reference is 2^128 steps away and there are 2^256 states; no test can run it.",
  [f"{RNG}: Xoshiro256pp::jump, step128, step192, jump128, jump192"])
p("xoshiro256++ seeding uses successive SplitMix64 outputs",
  "Seeding from a SplitMix64 fills the four state words with four successive outputs of it, and the built-in zero seed is the first four Mix64(0) outputs.",
  "every SplitMix64 state",
  "All 64-bit seeds; and tests comparing with values produced by the code itself cannot see a repeated word.",
  [f"{RNG}: MIX64_0, Xoshiro256pp::from_splitmix64, with_seed"])
p("Natural comparison distinguishes exactly the different strings and is antisymmetric",
  "cmp_natural(a, b) is Equal exactly if a and b are identical, and cmp_natural(b, a) is always the reverse of cmp_natural(a, b).",
  "every pair of strings",
  "Infinite domain with digit runs of any length.",
  [f"{STR}: cmp_natural"])
p("Natural comparison is a total order",
  "cmp_natural is transitive, so it can be used to sort; digit runs are ordered by numeric value.",
  "every triple of strings",
  "Transitivity ranges over triples of unbounded strings; random triples miss the run lengths near the u64 limit.",
  [f"{STR}: cmp_natural"])
p("symbolize always yields an identifier and is idempotent",
  "symbolize(s) is non-empty, consists only of alphanumeric characters and underscores, never starts with a numeric character, leaves valid identifiers unchanged, and applying it twice changes nothing.",
  "every string",
  "Infinite domain.",
  [f"{STR}: symbolize"])
p("Endian wrappers round-trip and fix the memory byte order",
  "from_native/to_native and from_raw/to_raw are inverse for BigEndian and LittleEndian on either host, the stored bytes are the value's most- respectively least-significant byte first, equality and ordering follow the native value, and byte swapping is an involution that reverses the bytes for every size.",
  "every integer width, every value, both host byte orders",
  "Values and widths range beyond enumeration, and only one host order can be run.",
  ["lib/osi/src/ffi/endian.rs: NativeEndian, from_native, to_native, BigEndian, LittleEndian", "lib/osi/src/mem.rs: bswap_copy"])
p("Tagged pointers keep address and metadata apart",
  "For a 4-byte aligned non-null pointer with 2 metadata bits, each setter changes only its component, each getter returns what was last set, and the pointer stays aligned and non-null.",
  "every aligned address and every history of set_ptr/set_meta/set_meta_bit calls",
  "Unbounded histories over 2^64 addresses.",
  ["lib/osi/src/ptr.rs: NonNull4::new, ptr, meta, meta_bit, set_ptr_unchecked, set_meta, set_meta_bit"])
p("Argument parsing selects the command path exactly",
  "The command the parser returns is the one whose path is spelled by the leading command words: a word is taken as sub-command exactly if some registered command path extends the words taken so far by it; the first other word (or `--`) ends selection, and no command is returned if the words taken are not a registered path.",
  "every registered set of commands and every argument vector",
  "Both schema and argument vectors are unbounded; binary search and level bookkeeping fail only for particular shapes.",
  [f"{PARSE}: Cursor::enter, command, compare_prefix, Parser::parse_command, parse_cursor, parse", f"{LAY}: CommandSet::compile, search_by"])
p("Every argument is reported exactly once and in order",
  "Parsing reports each argument exactly once, in order, as command word, flag report, parameter or error, and a trailing end-of-arguments report, unless a report asks to stop, in which case nothing further is reported.",
  "every schema, argument vector and report behaviour",
  "Unbounded inputs; lookahead for flag values can silently drop or duplicate arguments.",
  [f"{PARSE}: Parser::parse_long, parse_short, parse_cursor, parse"])
p("Flags are only accepted for commands on the selected path",
  "A flag is reported to a command only if that command's path is a prefix of the command words seen so far; if several such commands define it, the longest path wins.",
  "every schema and argument vector",
  "Depends on the relation between schema order, the cursor and the flag position; unboundedly many combinations.",
  [f"{PARSE}: Cursor::find_flag, Parser::parse_long", f"{LAY}: module documentation, CommandSet::up_from"])
p("A double dash ends option parsing",
  "Everything after a bare `--` is reported verbatim as parameters, in order, whatever it looks like.",
  "every schema and argument vector containing `--`",
  "Arbitrary unbounded suffixes.",
  [f"{PARSE}: Parser::parse_cursor"])
p("The flag decision table is complete and exact",
  "For a long flag with given name, optional `no-` prefix and optional inline value, exactly one report is issued as the flag's mode prescribes: set, toggle, parse with inline or following argument, or the documented error.",
  "every flag name, mode, toggle prefix, inline value and following argument",
  "Names and values are arbitrary strings, including names that themselves start with `no-` or contain `=`.",
  [f"{PARSE}: Parser::parse_long, parse_cursor"])
p("Each command's parent is its longest registered proper prefix",
  "After compiling a command set, walking up from a command visits exactly the registered commands whose paths are proper prefixes of it, longest first.",
  "every set of commands with distinct paths, in any registration order",
  "Arbitrary trees of commands.",
  [f"{LAY}: CommandSet::compile, up_from, iter_from"])
p("Help output lists exactly the flags and direct sub-commands",
  "The help text for a command lists each of its flags and each registered command exactly one level below it, in order, and nothing else, with columns wide enough for all of them.",
  "every compiled command set and command",
  "Arbitrary command trees.",
  [f"{HELP}: Help::write, help, try_help"])
p("Report targets keep the documented value",
  "Toggle targets hold the last reported toggle, optional values the last valid value, collections all valid values in order; an invalid value changes nothing and is reported as error.",
  "every sequence of reports",
  "Unbounded sequences of reports.",
  [f"{REP}: FlagReport, CommandReport, ParserReport, Shared"])
p("D-Bus signatures are accepted exactly if they are one complete type",
  "Parsing a byte string succeeds exactly if it is a single complete type of the D-Bus/GVariant grammar (dict entries having one basic key and one value).",
  "every byte string up to the length limit of the node format",
  "Signatures nest without bound; acceptance is decided by an in-place parser with back references.",
  [f"{SIG}: parse, Sig::new, Sig::parse"])
p("Parsing a signature never panics",
  "Given a buffer of the size the API asks for, parsing any byte string returns a signature or an error without panic, overflow or out-of-range access.",
  "every byte string",
  "Field widths (5 bits, 8 bits) overflow only for specific nestings.",
  [f"{SIG}: parse, Node8, Node64, size_for_length"])
p("Parsed signatures print back and iterate faithfully",
  "A parsed signature's elements are the input's elements, in order; its text form is the input; equality and order are those of the text, and its length is the number of elements.",
  "every accepted signature",
  "Unbounded signatures; the node format changes at 32 elements.",
  [f"{SIG}: Sig::len, to_string, Eq, Ord, Iterator for Cursor, size_hint"])
p("Signatures form a prefix code",
  "No accepted signature is a proper prefix of another accepted signature.",
  "every pair of accepted signatures",
  "Pairs of unbounded strings.",
  [f"{SIG}: Hash for Sig (comment), parse"])
p("Cursor navigation follows the type tree",
  "On every accepted signature, stepping down reaches the first child of a container, stepping over reaches the next sibling (just past the whole sub-type), stepping up reaches the enclosing container, and sub-signatures are exactly the text of the sub-type.",
  "every accepted signature and every element position",
  "Offsets are relative and packed; errors show only at particular depths.",
  [f"{SIG}: Cursor::idx_next, idx_prev, idx_step, idx_down, idx_up, Sig::at"])
p("Signature flags summarise the type",
  "After parsing, each sub-type is marked dynamic, handle-carrying or unsupported exactly if it contains such an element, and its alignment is the maximum prescribed by the format.",
  "every accepted signature",
  "Recursively defined over unbounded nesting.",
  [f"{SIG}: parse, Sig::flags, Cursor::dvar_alignment_exp, gvar_alignment_exp", f"{ELE}: ELEMENTS"])
p("Element codes and table are consistent",
  "Element from code and code from element are inverse, pairs are symmetric, and flags, alignments and sizes match the D-Bus and GVariant definitions of every type code.",
  "every byte and every element",
  "Finite table, but complete agreement with the specification is what is relied on.",
  [f"{ELE}: Element::from_code, code, pair, ELEMENTS, FlagSet"])
p("D-Bus encoding equals the specified marshalling",
  "Driving the encoder along a signature with the values of any well-typed value produces exactly the bytes of the D-Bus marshalling format, in either byte order.",
  "every signature built from the supported types and every value of it",
  "Alignment depends on all preceding data; values nest without bound.",
  [f"{DVAR}: Enc::u16, u32, u64, string, object, signature, array, structure, dict, close, variant_with, commit"])
p("Rejected encoder calls have no effect",
  "An encoder call that does not match the signature at the current position is rejected and leaves the encoder as it was, so that encoding can continue with the right call; committing an incomplete value is rejected.",
  "every signature, every history and every call",
  "Unbounded histories.",
  [f"{DVAR}: Enc"])
p("D-Bus decoding inverts encoding",
  "Decoding bytes produced by the encoder along the same signature yields the encoded values and reports the end of arrays exactly where they end.",
  "every signature of the types supported by the decoder, every value, both byte orders",
  "Array ends depend on absolute offsets.",
  [f"{DVAR}: Dec::u16, string, signature, array, close, more, commit"])
p("Mapped reads and writes are independent of chunking",
  "Reading or writing n bytes at an offset transfers exactly those n bytes and advances the offset by n, however the implementation splits the range into maps; alignment pads with zero bytes up to the next multiple of a power of two (up to 2^30).",
  "every implementation of map returning non-empty partial maps, every offset and length",
  "Arbitrary implementations and chunk sizes.",
  [f"{MAP}: Read::read, Write::write, fill, zero, align_exp2, write_iter"])
p("map_while finds the first byte failing the predicate and resumes correctly",
  "read_map_while, called with a start below the maximum, returns the index of the first byte at or after the start failing the predicate; if data runs out it asks for more and, called again with more data, continues to the same result without re-testing bytes.",
  "every predicate, every data stream and every arrival pattern of the data",
  "Arbitrary interruption schedules.",
  [f"{STREAM}: read_map_while, Read"])
p("JSON tokenizing is independent of chunking",
  "Feeding text in any number of pieces reports the same sequence of tokens and errors as feeding it at once.",
  "every text and every way to split it",
  "Unbounded splits.",
  [f"{OTOK}: Tokenizer::push, push_str, parse_str"])
p("The JSON tokenizer never gets stuck or panics and always resynchronises",
  "From every reachable state every character and the end-of-input signal is handled without panic; after end-of-input the tokenizer is in its initial state; if a report asks to stop, the tokenizer is reset.",
  "every text, flags and report behaviour",
  "Unbounded texts reach combinations of 19 states and accumulators.",
  [f"{OTOK}: Tokenizer::advance, push, prepare"])
p("JSON tokens reproduce the input text",
  "For inputs tokenized without errors, concatenating the source text of the reported tokens gives the input back.",
  "every error-free input text",
  "Unbounded texts.",
  [f"{OTOK}: Token, Tokenizer::push"])
p("JSON numbers are tokenized according to the grammar",
  "A number token is reported without error exactly for the JSON number grammar (as relaxed by the flags), and its integer, fraction and exponent digits and signs are those of the text.",
  "every character sequence",
  "Infinite language.",
  [f"{OTOK}: Tokenizer::advance_number"])
p("JSON strings are unescaped according to the specification",
  "Tokenizing the JSON encoding of any string yields that string, for every way of escaping its characters, including surrogate pairs.",
  "every string and every choice of escapes",
  "Infinite domain.",
  [f"{OTOK}: Tokenizer::advance_string"])
p("The streaming JSON byte tokenizer rejects unescaped control characters",
  "Every unescaped control character U+0000..U+001F inside a string is reported as an error.",
  "every byte stream",
  "Boundary of a range within arbitrary strings.",
  [f"{TTOK}: advance_string"])
p("Completing the streaming JSON tokenizer terminates with the remaining tokens",
  "Calling complete() in a loop at the end of input reports the remaining token with all its text exactly once and then returns None, without panicking.",
  "every byte stream and every buffering of it",
  "Any input tail.",
  [f"{TTOK}: Dec::complete, complete_inner"])
p("Streaming JSON tokenization is independent of buffering",
  "The tokens reported by repeated pop() calls do not depend on how much input was buffered at each call.",
  "every byte stream and arrival schedule",
  "Arbitrary schedules.",
  [f"{TTOK}: Dec::pop, advance"])
p("The JSON stream decoder accepts exactly well-formed JSON token sequences",
  "The structural decoder accepts a sequence of structural tokens exactly if it is a JSON value.",
  "every token sequence",
  "Unbounded nesting.",
  [f"{JST}: Dec::advance, array_open, array_close, object_open, object_close, value"])
p("JSON nesting is balanced",
  "The structural decoder only accepts a closing bracket matching the innermost open one, never accepts anything after the root value was closed, and rejected tokens leave it unchanged.",
  "every token sequence",
  "Unbounded nesting depth.",
  [f"{JST}: Dec"])
p("DOS checksum arithmetic",
  "sum16 is the little-endian 16-bit word sum modulo 2^16 with a zero-padded odd tail, is additive over even-length prefixes, and storing the complement of the sum of a file with zeroed checksum field makes the sum of the file all ones.",
  "every byte string and every even checksum position",
  "Infinite domain.",
  ["lib/tmp/src/msdosmz.rs: sum16, Header::csum"])
p("File-format structures map bytes to fields one-to-one",
  "For the DOS, PE and ELF structures, every field lies at the offset of the published format, fields do not overlap, and importing bytes and exporting them again is the identity in both directions.",
  "every structure and every byte content",
  "All contents of each header.",
  ["lib/tmp/src/msdosmz.rs: Header, HeaderExt, Relocation, from_bytes, as_bytes", "lib/tmp/src/pecoff.rs", "lib/sys/src/ffi/elf.rs"])
p("Container and field pointers are inverse",
  "container_of_ptr(field_of_ptr(p)) is p for every pointer and every offset that a field of an object can have, and vice versa.",
  "every address and every offset but the smallest isize, which cannot be negated",
  "2^64 addresses and wrap-around.",
  ["lib/osi/src/meta.rs: field_of_ptr, container_of_ptr"])
p("xoshiro256++ has full period and non-overlapping jumps",
  "From any seeding, next64() returns to the same state exactly after multiples of 2^256-1 calls, visits every non-zero state once per period, and the 2^128 numbers before a jump128() never share a state with the 2^128 after it; so up to 2^64 machines (long jumps) of 2^64 threads (jumps) each can draw 2^128 numbers from streams that share no state, except that the very last state of the last stream is the first of the first one.",
  "every seed, every history and every number of calls",
  "The period is 2^256-1 steps.",
  [f"{RNG}: Xoshiro256pp::step, next64, jump128"])
p("str::some distinguishes exactly the empty string",
  "some(s) is None exactly when s is empty and otherwise returns s unchanged.",
  "every string",
  "Infinite domain.",
  ["lib/osi/src/str.rs: some"])
p("Signature errors locate the first problem",
  "When a signature is rejected, the error gives the reason and the documented position: for an unknown or invalid code, an unmatched or wrong closing bracket and for trailing data the byte at which the text stops being the beginning of a valid signature (everything before it is such a beginning, and with it no continuation is valid); for a text that just ends too early the start of the innermost container left open; and for a dict entry with wrong key or member count the start of the entry.",
  "every rejected byte string up to the length limit of the node format",
  "Infinite domain; the error depends on the whole prefix.",
  [f"{SIG}: parse, Error"])
p("Decoding hostile data is safe",
  "Whatever the data contains and whatever sequence of calls is made, no call on a D-Bus decoder panics; every call either delivers the value found at the current position according to the wire format, or is rejected - with an error that matches the reason (wrong type, data missing, text that is not UTF-8, value incomplete) - and then leaves the decoder as it was. Sub-decoders that are not committed have no effect.",
  "every data, every signature, every reader, every history of calls including nested sub-decoders",
  "Unbounded data and histories; lengths in the data are under the control of a peer.",
  [f"{DVAR}: Dec"])
p("Written JSON tokens are recognised",
  "Writing any sequence of correctly spelled JSON tokens one after the other, with numbers and keywords separated by punctuation or white space, and tokenizing the text reports exactly those tokens and no error; and whenever no error is reported, every reported token is correctly spelled.",
  "every token sequence, every spelling of its numbers and strings, every flag combination",
  "Unbounded sequences and spellings.",
  [f"{OTOK}: Tokenizer, Token"])
p("Tokenizer flags only relax the grammar",
  "A text that is tokenized without error by a tokenizer with no flags is tokenized to the same tokens under every combination of flags.",
  "every text and every flag combination",
  "Infinite domain.",
  [f"{OTOK}: FLAG_ALLOW_LEADING_ZERO, FLAG_ALLOW_PLUS_SIGN, Tokenizer::with_flags"])
p("The streaming JSON tokenizer reports the text, all of it and nothing else",
  "Whatever bytes arrive, in whatever portions, pop() never panics; every text is cut in exactly one way into white space, punctuation, words, numbers and strings, the tokens reported are those of this cut in order, the texts of the reported tokens together with what is still buffered are the input, and pop() asks for more data exactly when all tokens that are certain were reported.",
  "every byte stream, every arrival schedule, every stream implementation that does what it is asked for",
  "Unbounded inputs and schedules; any bytes, including ones that are not UTF-8.",
  [f"{TTOK}: Dec::pop, Token"])
p("The streaming JSON tokenizer decodes every spelling of every string",
  "For every Unicode text and every way to write its characters within a JSON string (as they are, by short escape, by \\u escape, by a pair of surrogates), the string token carries exactly this text, and no error is reported.",
  "every text, every spelling, every arrival schedule",
  "Unbounded texts; 4^n spellings; escapes cut apart by the buffer at any place.",
  [f"{TTOK}: advance_string, Token::String"])
p("The streaming JSON tokenizer recovers from errors in strings",
  "A string with errors is still reported with contents: bytes stand for themselves, unknown escapes for the escaped byte, surrogates without partner and incomplete codes for U+FFFD, each once and in order.",
  "every byte stream and arrival schedule",
  "Combinations of errors at any place.",
  [f"{TTOK}: advance_string, string_raw, raise_string"])
p("The streaming JSON tokenizer reports the parts of every number",
  "Every JSON number that is followed by a byte which cannot continue it is reported as one token with its sign, integer digits, fraction digits and signed exponent digits, and without an error.",
  "every number, every byte stream after it, every arrival schedule",
  "Unbounded digits; numbers cut apart by the buffer at any place.",
  [f"{TTOK}: advance_number, Token::Number"])
INT="lib/osi/src/ffi/integer.rs"; PTR="lib/osi/src/ffi/pointer.rs"; PACK="lib/osi/src/ffi/packed.rs"; ABI="lib/osi/src/ffi/abi.rs"; ALN="lib/osi/src/align.rs"; END="lib/osi/src/ffi/endian.rs"
p("Fixed-ABI types have the requested layout on every platform",
  "An Integer has exactly the requested alignment, the size of its value rounded up to it, and its value at the beginning, on every platform; Packed has alignment 1, endian wrappers and Pointer the layout of what they wrap; alignment markers are empty and have the alignment of the type they were made for; the types of the predefined ABIs have the published sizes and alignments, and the ABI of the target agrees with the native types.",
  "every nesting of wrappers, every value type and alignment, every byte order, pointer width and alignment of primitive numbers",
  "Tests run on one platform and for a few combinations; a foreign layout matters exactly where it differs from the native one.",
  [f"{INT}: Integer", f"{PACK}: Packed", f"{PTR}: Pointer", f"{ABI}: aarch64_sysv, x86_sysv, x86_64_sysv, native, target", f"{ALN}: Aligned, AlignAs, AlignOf"])
p("Fixed-ABI integers hold their value",
  "A number stored in a fixed-ABI integer lies at the beginning of its memory in the byte order of the type, independent of the platform, and is read back unchanged; every valid object holds exactly one number; comparing, ordering, hashing and printing objects does so with their numbers, independent of padding; new, get, set, replace, take and the default value behave as for a plain variable; no operation reads uninitialised memory or yields a NonZero integer that is zero.",
  "every nesting of wrappers, every number, every content of the padding, every platform",
  "Unbounded combinations of widths, alignments, byte orders and nestings; padding is invisible to tests.",
  [f"{INT}: Integer", f"{PACK}: Packed", f"{PTR}: Pointer", f"{END}: from_native, to_native, from_raw, to_raw", "lib/osi/src/mem.rs: transmute_copy_uninit, bswap_copy"])
p("Fixed-ABI pointers hold their address",
  "from_usize yields nothing exactly for address 0; every other address is stored and read back unchanged; the address of a pointer is never zero; pointers are equal, ordered and hashed by their addresses; dangling pointers are aligned and not null; no conversion panics, and addresses of foreign width or byte order cannot be converted.",
  "every address, every nesting of wrappers, every platform",
  "2^64 addresses; other pointer widths and byte orders are not reachable in a test run.",
  [f"{PTR}: NativeAddress, Pointer", f"{INT}: Integer"])
p("The JSON decoder reports the items of the text, however it arrives",
  "Whatever bytes arrive, in whatever portions, pop() ends and never panics; the items reported are those of the text from the first one on, the same for every arrival schedule and stream; pop() asks for more data exactly when all items that are certain were reported, and then the stream holds exactly the token that is not certain yet; a reported end of an array or object always belongs to the one opened last.",
  "every byte stream, every arrival schedule, every stream implementation that does what it is asked for",
  "Unbounded inputs, nestings and schedules; two state machines that are resumed at any byte.",
  [f"{JST}: Dec::with, Dec::pop"])
p("The JSON decoder reports the structure of every JSON text",
  "For every JSON text, with any white space and any spelling of its strings and numbers, no error is reported, and the items are the beginnings and ends of its arrays and objects, its keys and its scalars, in order.",
  "every JSON text, every arrival schedule",
  "Unbounded nesting and spellings.",
  [f"{JST}: Dec::pop, Item"])
p("A command line reaches the targets it is meant for",
  "After parsing any arguments, the target of each flag holds what its type documents for exactly the reports addressed to it, in order, and the errors were reported in the order of the arguments. Conversely, for every command, any sequence of settings of flags that can be used with it, and any parameters at all, the command line written for them selects that command, every target receives exactly its settings, the parameters arrive verbatim and no other command gets any; if targets and values fit the flags, there are no errors. A help flag given last makes the help text of that command the one that is written.",
  "every schema, binding of flags to targets (also shared ones), argument list, and behaviour of the error report",
  "Combines command lookup, flag inheritance, spelling and target semantics; tests cover single examples.",
  ["lib/osi/src/args/parse.rs: parse, Cursor::report_set_for, report_toggle_for, report_parse_for, report_parameter_for", "lib/osi/src/args/report.rs: FlagReport, CommandReport, Shared", "lib/osi/src/args/layout.rs: Flag::with, Command::with", "lib/osi/src/args/help.rs: Help::flag, Help::help"])
p("Every number is drawn equally often in a full period",
  "In the 2^256-1 calls after which a Xoshiro256pp generator repeats, every number other than 0 is returned by next64() exactly 2^192 times and 0 once less; every pair of successive numbers occurs 2^128 times and every triple 2^64 times, those of zeros once less. In 2^64 calls of SplitMix64, next64() returns every number exactly once, and next32() every number exactly 2^32 times.",
  "every generator obtainable through the API, every number, pair and triple",
  "The periods have 2^256-1 and 2^64 calls; statistical tests only sample them.",
  [f"{RNG}: Xoshiro256pp::next64, SplitMix64::next64, SplitMix64::next32"])
p("Wrappers compare and hash as promised",
  "Mown compares, orders and hashes as what it dereferences to, whether borrowed or owned, and as the owned values do if those keep the contract of Borrow; a clone has the same ownership and value. Identity, Ptr, OnceRef and NonNull4 are equal exactly for the same place and are ordered by it, whatever they point to. Markers are all equal and do not change a hash. All of them obey the laws of Eq, Ord, PartialOrd and Hash that collections rely on.",
  "all types and values, all hashers",
  "Laws over all triples of values and over arbitrary types.",
  ["lib/osi/src/mown.rs: Mown", "lib/osi/src/cmp.rs: Identity", "lib/osi/src/ptr.rs: Ptr, OnceRef, NonNull4", "lib/osi/src/marker.rs: PhantomInvariant", "lib/osi/src/align.rs: AlignAs, AlignOf"])
p("Converting smart pointers to OnceRef and back is sound",
  "into_deref() followed by from_deref() of the same type yields the same pointer without touching counters. In any history of creating, cloning, dropping, reading and converting references, Box, Rc and Arc in which from_deref() is used with the type the OnceRef was made from, nothing is used after it was destroyed, every object is destroyed at most once, namely exactly when no smart pointer and no OnceRef to it is left and none was given up, and every access yields the value of the object the pointer was made from.",
  "every history of operations on any number of objects and pointers",
  "Unbounded interleavings of clones, conversions and drops; misuse is undefined behaviour, which tests cannot observe reliably.",
  ["lib/osi/src/convert.rs: IntoDeref, FromDeref", "lib/osi/src/ptr.rs: OnceRef"])
p("Constants have their published values",
  "The error codes of every platform have the names and numbers of the Linux interface, none missing, distinct up to the documented aliases, and can be made and read on every host in the byte order of their platform. The constants of the ELF, PE/COFF and DOS formats have the published values; constants of one field are distinct up to documented aliases, and flags are single bits.",
  "every constant of the modules, every host and platform for the error codes",
  "Tests repeat the same literals; foreign byte orders and hosts are not reachable in a test run.",
  ["lib/sys/src/ffi/elf.rs: common", "lib/tmp/src/pecoff.rs: constants", "lib/tmp/src/msdosmz.rs: WORD_SIZE, PARAGRAPH_SIZE, PAGE_SIZE", "lib/sys/src/ffi/linux/common/errno.rs", "lib/sys/src/ffi/linux/libc/errno.rs"])
p("Uncaught errors expose no more than promised",
  "Whatever is folded with the `any` constructors, the error prints the same and has no source. The `debug` constructors expose nothing but the debug text of the value, the `display` constructors nothing but its display text. The `error` constructors expose debug text, display text and source with the feature std, and only the display text without it. The kind can be read off both texts whatever the value prints, and a failure to print the value is passed on without writing anything more.",
  "every value, its texts and source, every formatter, with and without std",
  "Absence of a dependency on the value is a statement about all pairs of values; formatters may fail at any point.",
  ["lib/osi/src/error.rs: Uncaught"])
p("Compatibility types lose nothing",
  "OsStr keeps the bytes it is made from: conversions from and to str and the OsStr of the standard library are inverse, from_utf8 and to_str succeed exactly for valid UTF-8 and otherwise report the length of the longest valid beginning. Text written through Write reaches the underlying writer completely and in order if write_str succeeds, and as a proper beginning if it fails; with a writer that keeps its contract, write_str succeeds however the text is cut up and interrupted.",
  "every byte string, every behaviour of the writer",
  "All byte strings; short writes and interruptions in any order.",
  ["lib/osi/src/compat.rs: OsStr, Write"])
p("HMAC and hashing work over any hash engine",
  "For every hash engine that does what the trait documents, every block length and key: Hmac computes the code of RFC 2104 with the hash function of the engine, over every history of push, push_zero, finalize and reset, and panics exactly where the engine cannot take one of the two inputs of the code. Creating it panics exactly if the engine is in use already or the key is longer than a block and cannot be hashed to fit in one. hash() returns the hash of its argument, and the default push_zero() is a push of that many zero bytes.",
  "every lawful engine, block length, key and history of calls",
  "Tests only instantiate SHA-256; engines, keys and histories are unbounded.",
  ["lib/osi/src/hmac.rs: Hmac::with_engine, Hmac::push, Hmac::push_zero, Hmac::finalize, Hmac::reset", "lib/osi/src/hash.rs: Engine::push_zero, hash"])
p("Copies and comparisons of objects are byte exact and touch nothing else",
  "For all types, sizes, alignments and addresses: mem::transmute_copy_uninit() returns the leading bytes of the source, followed by uninitialised bytes if the target type is larger; mem::bswap_copy() returns all bytes in reverse order on either byte order of the host; mem::as_bytes() shows the bytes of the object; mem::eq() is true exactly if both objects have the same bytes; an assignment through mem::as_bytes_mut() changes this byte of the object and no other memory. None of them accesses memory outside of the objects or makes an aligned access to an address that is not aligned.",
  "every pair of types, every address and content of memory",
  "All sizes and alignments, and memory around the object that must not be touched; tests run with a few types at addresses that happen to be aligned.",
  ["lib/osi/src/mem.rs: transmute_copy_uninit, bswap_copy, as_bytes, as_bytes_mut, eq"])
p("Format-independent encoders and decoders speak the chosen format",
  "An encoder or decoder created for a format follows the marshalling of that format for every history of calls and never panics; and inlining the value at a decoder into an encoder of the same type makes the encoder hold that value.",
  "every format, every signature, every history of calls, every data",
  "Infinite domain; the inlined value may have any type.",
  ["lib/tmp/src/fmt/dbus/ende.rs: Format, Enc::new, Enc::inline, Dec::new, Dec::more, Dec::close"])
p("Conditional compilation keeps exactly one block",
  "cfg::cond! with a list of conditions and blocks keeps, in every configuration, the block of the first condition that holds and no other; if no condition holds it keeps the block without condition, or nothing if there is none.",
  "every list of conditions, however nested, and every configuration",
  "A test run is compiled for one configuration only.",
  ["lib/osi/src/cfg.rs: cond"])
p("Platform aliases stand for the platform of the compilation",
  "On every platform, the alias `target` of the ABIs and of the Linux interfaces, where it exists, has types of the size, alignment and byte order of the native types; no alias is defined twice or refers to something that does not exist; `native` of the Linux interfaces exists wherever there is a platform module or the feature libc; `elfn` is the ELF format with addresses of the size of the platform; the integers that can be used as native addresses are those of the size of a native address.",
  "every platform: architecture, families, environment, byte order, pointer width, alignments and features",
  "Tests only run on the platform they are compiled for.",
  ["lib/osi/src/ffi/abi.rs: target", "lib/sys/src/ffi/linux/mod.rs: target, native, libc", "lib/sys/src/ffi/elf.rs: elfn", "lib/osi/src/ffi/pointer.rs: NativeAddress"])
p("JSON texts are told by their tokens",
  "A text is a JSON text (RFC 8259) of a value exactly if the tokenizer of osi reports no error for it and the tokens without white space are those of the value: brackets, separators, keywords, numbers by their digits and signs, strings by their characters. Different values have different tokens. Every value with well-formed numbers has a text. The text may be pushed in any pieces.",
  "every value, however nested, and every text and its pieces",
  "Infinitely many values, and infinitely many ways to write each of them.",
  ["lib/osi/src/json/token.rs: Tokenizer::parse_str, Tokenizer::push, Tokenizer::push_str, Report"])
p("Raw pointers obtained from pins point to the live target",
  "For every smart pointer (&T, &mut T, Box, Rc, Arc), pinned and after any history of a program: pin::as_ptr(), pin::as_mut_ptr(), ptr::nonnull_from_pin_ref() and ptr::nonnull_from_pin_mut() yield the address of the target, and the target is still there and unchanged when they return. Conversion of a pin to a pinned OnceRef and back yields the same pin and keeps the target alive.",
  "every kind of smart pointer, every history of creating, cloning, dropping and converting pointers",
  "A dangling pointer usually still reads the old value, so a test that looks at the address or at the value does not notice; and whether the target lives depends on the history of all other owners.",
  ["lib/osi/src/pin.rs: as_inner, as_ptr, as_mut_ptr, map_unchecked", "lib/osi/src/ptr.rs: nonnull_from_pin_ref, nonnull_from_pin_mut, OnceRef::pin_from_ref, OnceRef::pin_from_mut", "lib/osi/src/convert.rs: IntoDeref::pin_into_deref, FromDeref::pin_from_deref"])
p("Signatures can be made in buffers of any size",
  "Sig::<[u64; N]>::try_make() and Sig::parse() return for every size N of the buffer: a complete signature, the same that Sig::new() makes, if the signature is valid and there is room for it, and an error otherwise; on success all of the buffer is initialised. Signature literals compile for exactly the valid signatures.",
  "every byte string and every size of the buffer",
  "Uninitialised memory usually reads as something harmless, so that a test passes; sizes and signatures are unbounded.",
  ["lib/tmp/src/fmt/dbus/signature.rs: Sig::parse, Sig::try_make, Sig::make, make, sig, Sig::size_for_length"])
p("Cursors are exact and fused iterators",
  "From every position a cursor yields the elements from there to the end of the signature, each once and in order, and nothing ever after. No sequence of moves panics or leaves the signature. The size hint is, after every sequence of moves, the number of elements that are left.",
  "every signature and sub-signature, every history of moves, every index set by the caller",
  "Infinitely many signatures and histories.",
  ["lib/tmp/src/fmt/dbus/signature.rs: Cursor (Iterator, ExactSizeIterator, FusedIterator), Cursor::move_to, Cursor::with, Cursor::move_next, Cursor::move_step"])
p("Flags given again override, extend, or start over",
  "A flag that is given again does what its kind says: flags without value and toggles override what was given before, flags with values override it or collect all values in order, and the form `no-` of a flag that collects values clears the list, so that collecting starts over. No flag's report is ever called in a way its kind does not have.",
  "every set of commands and flags, every command line, every report the caller provides",
  "Flags can be repeated any number of times, in any order, between any other arguments.",
  ["lib/osi/src/args/layout.rs: documentation of flags, FlagMode", "lib/osi/src/args/parse.rs: parse_long", "lib/osi/src/args/report.rs: Flag, Report"])
p("Pointer, marker and test types have the variance, thread safety and size they promise",
  "CovariantType, ContravariantType and InvariantType convert exactly as their names say, and SubType is a subtype of SuperType but not the other way round. PhantomInvariant and PhantomInvariantLifetime make a type invariant. OnceRef and Ptr can be converted in their lifetime and target exactly as mutable references can, and can be sent to or shared with other threads exactly if both kinds of references can. NonNull4, Pointer and Mown convert as what they hold. Brands, markers and test types are of size 0 and alignment 1 for every parameter; pointer types are as large as the pointer.",
  "every parameter type, however nested, every pair of lifetimes and everything known about them",
  "Tests show that a program compiles; that a conversion does not exist, for all types and lifetimes, is not something a program can check.",
  ["lib/osi/src/marker.rs: PhantomInvariant, PhantomInvariantLifetime", "lib/osi/src/brand.rs: Id, Unique", "lib/osi/src/ptr.rs: NonNull4, Ptr, OnceRef", "lib/osi/src/ffi/pointer.rs: Pointer", "lib/osi/src/mown.rs: Mown", "lib/osi/src/test.rs: SuperType, SubType, CovariantType, ContravariantType, InvariantType"])
p("Brands are unique, cannot be forged and do not leave their closure",
  "For every call of brand::unique() there is at most one value of type Unique with its brand, and no Id of that brand while it exists; every Unique comes from a call of unique() and every Id from a Unique of the same brand; values exist only while the closure of the call runs. Brands convert to each other only if their lifetimes are the same, and nothing that contains a brand, in whatever nesting, can be used as the result of the closure.",
  "every history of calls, conversions, copies and drops; every type built around a brand",
  "It is about programs that must not exist: tests can only contain programs that compile.",
  ["lib/osi/src/brand.rs: Id, Unique, unique", "lib/osi/src/marker.rs: PhantomInvariantLifetime"])
p("A OnceRef behaves like the reference it was made from",
  "A OnceRef dereferences to the target of the reference, and like references, two of them are equal, ordered and hashed as their targets are.",
  "every type with lawful operators, every content of memory, every pair of references",
  "All contents of memory; a test that compares a OnceRef with itself, or to another object that is different and comes later in memory, passes.",
  ["lib/osi/src/ptr.rs: OnceRef"])
p("A schema keeps finding its commands and flags when it is changed",
  "Commands and flags of a schema can be replaced through the mutable references that the API gives out. After any history of such changes, parsing does what it would do for a schema made of the commands and flags that are now in it.",
  "every schema, every history of assignments, every command line",
  "Histories and schemas are unbounded; whether a replaced flag is still found depends on all other names.",
  ["lib/osi/src/args/layout.rs: FlagSetRef::flag_mut_at, CommandSetRef::command_mut_at, Schema::flag_mut_at, Schema::command_mut_at, FlagSet::with, CommandSet::with"])
p("Encoders and decoders need memory in proportion to the data",
  "Whatever the data is, what a D-Bus decoder or encoder asks of the allocator is at most in proportion to the length of the encoded data, type signature included.",
  "every signature, every data, every history of calls, every machine",
  "Data may be hostile: the lengths in it are chosen by someone else. A test sees memory only if it runs out.",
  ["lib/tmp/src/fmt/dbus/dvar.rs: Dec::str8, Dec::str32, Dec::array, Enc::array, Enc::variant (documentation, lines 17-20)"])
p("Linking the commands of a schema takes linear time",
  "When a set of commands is compiled, every command is linked to the closest one above it. No command is visited twice in doing so, except as the one that ends the search; all searches together take at most two visits per command.",
  "every set of commands, of every size",
  "A test can only time a few shapes of trees; the bound is about all of them.",
  ["lib/osi/src/args/layout.rs: CommandSet::compile"])
p("Vectors used as writers only ever have initialised elements",
  "Whatever safe code does with the slices it gets from a vector used as a writer, and whatever is committed under the contract that it was initialised before, the elements of the vector are initialised and within its capacity; they are what the vector had before, followed by what was committed, in order.",
  "every vector, every history of calls and of uses of the slices, every allocator",
  "Uninitialised memory cannot be told from initialised memory by running a program; histories are unbounded.",
  ["lib/tmp/src/io/stream.rs: Write for Vec<u8>, Write::map, Write::map_unchecked, Write::commit, Write::write", "lib/tmp/src/io/map.rs: Write for Vec<u8>, Write::map, Write::commit"])
p("Code that compiles with Polonius does the same without it",
  "A use of coerce_unsafe! that compiles with Polonius, and so is declared safe, yields the same value without Polonius, or does not compile.",
  "every source and target type, every chain of coercions between them, every value, every implementation of Deref",
  "It is about all programs that use the macro, built in two ways; the project's tests are built in one of them.",
  ["lib/osi/src/polonius.rs: coerce_unsafe", "lib/osi/src/never.rs: Never"])
p("Checked field offsets are only given out for the type of the field",
  "typed_offset_of! compiles for the type of the field, and does not compile for any other type.",
  "every type of a field, every type given",
  "It is about programs that must not compile.",
  ["lib/osi/src/mem.rs: typed_offset_of", "lib/osi/src/meta.rs: Field"])
p("JSON numbers have the value that their text denotes, with and without extensions",
  "The value computed from the reported digits and signs of a JSON number is the number its text denotes. Plus signs and leading zeros, where flags allow them, have no effect on it: a text with them means the same as the text without them, which is accepted without flags.",
  "every text, every value, every combination of flags",
  "Numbers have any number of digits, and texts any number of numbers; the value is a rational number without bounds.",
  ["lib/osi/src/json/token.rs: FLAG_ALLOW_LEADING_ZERO, FLAG_ALLOW_PLUS_SIGN (documentation), Token::Number, Tokenizer::advance_number"])
p("A JSON tokenizer needs memory for the current token only",
  "Whatever a JSON tokenizer has read, the memory it holds is bounded by the size of the token it is reading, or by a constant: it grows to hold a token in its entirety, and nothing is retained after the token is finalized, except buffers of at most a fixed size. This also holds if the report handler stops it, after a reset, and for copies.",
  "every text, every history of pushed characters, ends, stops, resets and copies, every combination of flags",
  "Streams are unbounded; a leak of memory between tokens only shows after some of them.",
  ["lib/osi/src/json/token.rs: Tokenizer (documentation), Tokenizer::prepare, Tokenizer::reset, Tokenizer::push, Tokenizer::acc_raw, Tokenizer::acc_str, Tokenizer::acc_num"])
p("Both JSON tokenizers report the same tokens",
  "For every JSON text, the tokenizer for characters and the tokenizer for streams of bytes report the same tokens with the same contents in the same order, and no errors; both therefore tell the same value, and a client that computes numbers gets the same ones.",
  "every JSON text of every value, every combination of flags, every way in which the text arrives in a stream",
  "It relates two implementations for an infinite set of texts; the tests of each only know some texts of their own.",
  ["lib/osi/src/json/token.rs: Tokenizer::push, Tokenizer::parse_str, Token", "lib/tmp/src/fmt/json/token.rs: Dec::pop, Token, Number"])
p("The streaming JSON tokenizer and decoder only ever wait for the next byte",
  "Whenever the tokenizer or the decoder asks for more data, it asks for exactly one byte more than the stream holds, and states a maximum, if any, that lets this byte in. So it neither waits for bytes a peer might not send, nor asks for data that is there already; and once a byte arrived, the next call reports something or asks for a byte further on.",
  "every text, every way in which it arrives in any stream that reports what it was asked for, every sequence of calls",
  "Which request is made depends on where within a token the data ends: there are infinitely many such points, and waiting too long shows only with a peer that waits, too.",
  ["lib/tmp/src/fmt/json/token.rs: Dec::pop, Dec::advance", "lib/tmp/src/fmt/json/stream.rs: Dec::pop", "lib/tmp/src/io/stream.rs: More, Read::map, read_map_while"])
p("The DOS stub prints its line and exits with code 1",
  "If a file that begins with the stub is run by DOS, the program prints the documented line and nothing else and exits with the code 1, whatever follows the stub and wherever the new header is said to be. It changes no memory but its own, even if it only gets the memory that its header asks for.",
  "every file that begins with the stub, every address it is loaded to, every content of memory and registers, every amount of memory it is given, and interrupts at any time",
  "The library cannot run the stub; its test compares the fields of the header. What the program does depends on where it is loaded and on what is there.",
  ["lib/tmp/src/msdosmz.rs: STUB_X86, Header (documentation of the fields), Relocation"])
p("Sub-signatures are as good as signatures of their own",
  "A signature that was taken out of another one, at any depth, cannot be told from the one parsed from its text: it compares, orders and hashes the same, a cursor gives the same answers at every position, it summarises the type in the same way, and can be used in the same calls.",
  "every signature, every sub-signature of sub-signatures, every position",
  "Equality, hash and navigation have to agree for each pair of origins, of which there are infinitely many; tests only compare signatures they parsed.",
  ["lib/tmp/src/fmt/dbus/signature.rs: Sig::at, Sig::eq, Sig::cmp, Sig::hash, Sig::len, Cursor", "lib/tmp/src/fmt/dbus/dvar.rs: Enc::variant"])
p("The streaming JSON tokenizer takes time and memory in proportion to the text",
  "However a text arrives in a stream, the tokenizer looks at each of its bytes a fixed number of times at most, and starts over with none of them after it waited for more. Its buffer is at most a fixed multiple of the token it is at, and what it copies at most a fixed multiple of the text, whatever the text is; once all text was read, no more than a fixed amount of memory is kept.",
  "every text, every way in which it arrives in any stream, every sequence of calls, every growth policy of vectors that at most doubles what is needed",
  "A factor that grows with the text only shows with texts that are large enough, and of the right shape; there are infinitely many ways to cut a text into pieces.",
  ["lib/tmp/src/fmt/json/token.rs: Dec::pop, Dec::advance, Dec::advance_string, Dec::clear_done, DecInner::string_raw, DecInner::string_byte, DecInner::string_char", "lib/tmp/src/io/stream.rs: read_map_while (documentation of n)"])
p("D-Bus signatures, encoders and decoders take time in proportion to the data",
  "Parsing a signature takes a number of steps in proportion to its length, also if it is wrong. Encoding copies, all calls together, at most a fixed multiple of the bytes that are committed in the end, and a call at most the data it is given and a fixed number of bytes. Decoding copies every byte of the data at most once, and a call that is refused at most all of it. Buffers are not mapped more often than bytes are copied, but for one attempt per call.",
  "every byte string, every sequence of calls including those of nested encoders and decoders, every data, every behaviour of the buffers",
  "A factor that grows with the data only shows with data that is large enough, and of the right shape; nesting and calls that are repeated have infinitely many combinations.",
  ["lib/tmp/src/fmt/dbus/dvar.rs: documentation of the module (lines 17-19), Enc, Dec", "lib/tmp/src/fmt/dbus/signature.rs: Sig::new, parse", "lib/tmp/src/io/map.rs: Read::read_uninit, Write::write, Write::write_iter, Write::fill, Write::align_exp2"])
p("Growing buffers costs no more than what is put into them",
  "Over any history of calls, the bytes that are copied because a vector that is written to has to grow are at most a fixed multiple of the furthest end that was ever asked for, however the data is cut into pieces, and the vector never takes more than a fixed multiple of the memory that was asked for. So also for everything that is encoded into vectors, and for the buffers of the JSON tokenizer, where growing and shrinking them for one token after the other costs at most a fixed multiple of the text.",
  "every history of calls on vectors (as streams and as maps), every sequence of encoder calls, every history of characters pushed to a tokenizer with stops, resets and copies, every allocator that doubles vectors when they grow",
  "Whether cost adds up to something linear shows only over long histories, and depends on how requests are spaced; a test sees one history.",
  ["lib/tmp/src/io/stream.rs: Write for Vec", "lib/tmp/src/io/map.rs: Write for Vec", "lib/tmp/src/fmt/dbus/dvar.rs: Enc", "lib/osi/src/json/token.rs: Tokenizer::prepare, Tokenizer::acc_raw, Tokenizer::acc_str, Tokenizer::acc_num"])
p("A D-Bus signature is nothing but the words of its memory",
  "Parsing a signature fills exactly the array of 64-bit words that was allocated for it, down to the last byte, on machines of either byte order. Everything that is read back from these words, by reinterpreting them as nodes of the kind the first of them names, is what parsing has put there: flags, length, and every node. The signature of a sub-type is a part of the same array and is read in the same way, and signatures with the same words are the same signature of the same type, so that copying the words copies the signature.",
  "every accepted signature up to the length limit, every sub-signature of one, every index, both byte orders",
  "The array is reinterpreted by unsafe code, with two layouts that are told apart by bits within; tests on one machine see one byte order, a few signatures, and not whether bytes were left uninitialised.",
  ["lib/tmp/src/fmt/dbus/signature.rs: Node8, Node64, derive_uninit, derive, Sig::size_for_length, Sig::new, Sig::arc, Sig::flags, Sig::len, Sig::node_at, Sig::at, Sig::clone"])
p("Commands and flags are looked up in logarithmic time",
  "Each further word of the command-line is looked up with a number of comparisons that is logarithmic in the number of commands. A flag is looked up with a number of comparisons that is, for every command whose flags may be given at this point, logarithmic in the number of its flags.",
  "every set of commands and flags, every sequence of words before, every word and flag including unknown ones",
  "A factor that grows with the number of commands only shows with sets that are large enough, and of the right shape.",
  ["lib/osi/src/args/parse.rs: Cursor::enter (comment in lines 210-215), Cursor::find_flag, Parser::parse_long"])
p("Commands are kept in depth-first order of their tree",
  "A set of commands is kept in the order in which its tree of words is visited depth-first, each command before its sub-commands, each level in lexicographic order of the names. So each command is directly followed by all of its sub-commands, and the order is the same in whatever order the commands were given. The flags of each command are those given for it, in lexicographic order.",
  "every set of commands and flags including those with gaps in the tree, every order in which they are given, every way of sorting that the standard library may use",
  "The tree may have any shape and any names; orders such as that of joined strings agree with this one on most of them.",
  ["lib/osi/src/args/layout.rs: FlagSet (documentation, lines 138-140), FlagSet::new, CommandSet, CommandSet::new"])
p("Hashing and authenticating show and cost nothing but lengths",
  "Which conditions SHA-256 and HMAC evaluate and how they come out, which positions of their buffers they write, and how often the compression function is run depends on the lengths of the key and of the data pushed, and on nothing else; neither the bytes of the key nor those of the messages have an influence. A message costs exactly one run of the compression function for each block of the padded message, however it is cut into pieces and whatever was digested before, and each byte is buffered exactly once; an authentication code costs what its two messages cost.",
  "every history of calls on engines, every key, every message that can be digested, every way of cutting it into pieces, any number of messages per engine",
  "Leaks show as differences between runs on different secrets, and wasted work as numbers that nobody counts; results are right in both cases.",
  ["lib/osi/src/hash/sha256.rs: Engine::push, Engine::push_zero, Engine::finalize, Engine::is_reset, Engine::reset", "lib/osi/src/hmac.rs: Hmac::new, Hmac::with_engine, Hmac::push, Hmac::push_zero, Hmac::finalize, Hmac::reset"])
p("String utilities take linear time and ask for memory once",
  "Comparing two strings in natural order looks at each of their characters a bounded number of times, however names and numbers alternate in them. Turning a string into a symbol, and rendering a hash, ask for memory exactly once, for a size known beforehand, and never outgrow it, whatever characters are replaced.",
  "every pair of strings, every string, every hash of any size, every classification of characters, every way in which buffers may grow",
  "Strings are unbounded and their structure arbitrary; a test sees the right result, but not how often a character was looked at or a buffer moved.",
  ["lib/osi/src/str.rs: cmp_natural, symbolize", "lib/osi/src/hash.rs: Hash::to_hex"])
p("A D-Bus value that is encoded into a vector is appended to it",
  "If all calls of an encoder that writes to a vector are accepted, including the final commit, then the vector holds what it held before, followed by the encoded value, whatever it held before. So several messages can be collected in one vector.",
  "every type, every value, every sequence of encoder calls (also with sub-encoders), every contents of the vector",
  "Tests encode into fresh vectors; what happens to other contents depends on both lengths, and uninitialised elements look like any other bytes.",
  ["lib/tmp/src/fmt/dbus/dvar.rs: Enc::commit, Enc::with", "lib/tmp/src/io/map.rs: Write for Vec<u8>, Write::commit"])
p("Building with Meson means the same as building with Cargo",
  "The lints that the workspace allows are those that the compiler is told to allow by Meson, and only those, whatever tables of lints there are; libraries have the versions of their packages, and dependencies are named after the major version. Each option of the Meson build does what it says: for each choice of options there is a choice of Cargo features that compiles the same code. A change to a file that the build configuration is computed from is noticed.",
  "every table of lints in the workspace, every version, every combination of build options, every set of files",
  "Tests run in one configuration at a time, with the tables that happen to be there; a wrong configuration only shows when someone adds a lint or picks an option.",
  ["lib/util/cargo-query.py: toml_lints, toml_version", "meson.build", "meson_options.txt", "Cargo.toml", "lib/osi/Cargo.toml", "lib/sys/Cargo.toml", "lib/tmp/Cargo.toml"])
p("Formatting through the compatibility writer is like formatting to any other sink",
  "Formatting to a Write of the compatibility types has the result, and hands the writer the text, that formatting to any other sink of text with the same behaviour has; in particular errors are returned and not turned into panics. Formatted text arrives completely and in order if formatting succeeds, and as a proper beginning if it fails.",
  "everything that can be formatted (any implementation of the formatting traits, whatever it does about errors), every writer and every history of it",
  "Values that are formatted, and writers, are code of the user; failures can happen at any piece, and implementations may react to them in any way.",
  ["lib/osi/src/compat.rs: Write::write_fmt, Write::write_str"])
p("Hash engines and authentication codes survive panics",
  "A panic of a hash engine or an authentication code that is caught does no lasting harm: after a reset, everything that is observed is what is observed of a new one (with the same key), panics included, whatever was done before and wherever it panicked. Without a reset, an engine that panicked never returns a digest that is not that of a message.",
  "every history of calls, continued after every panic, before and after a reset; every key",
  "Where panics happen depends on the lengths of all pushes; what they leave behind shows only in what happens later. Tests stop at the first panic.",
  ["lib/osi/src/hash/sha256.rs: Sha256::push, push_zero, finalize, reset, is_reset", "lib/osi/src/hmac.rs: Hmac::push, Hmac::push_zero, Hmac::finalize, Hmac::reset"])
p("A JSON tokenizer survives panics of the report handler",
  "A panic of a report handler that is caught leaves a usable tokenizer behind: it does not itself panic afterwards, whatever is pushed; its status still tells whether it is in the middle of a token; a reset, a handler that asks to stop, or the end of the text make it as new. If the character is pushed again after each panic, all reports of the text are made, in order and unchanged, and no others (some possibly more than once).",
  "every text, every sequence of pushes and resets, every handler that may panic at any report and any number of times, all flags",
  "Handlers are code of the user and may panic at any report; what is then left of the tokenizer shows only in what is reported later.",
  ["lib/osi/src/json/token.rs: Tokenizer::push, Tokenizer::reset, Tokenizer::status, Report"])
p("D-Bus encoders and decoders survive panics of writers and readers",
  "A panic of the caller's writer or reader that is caught leaves a usable encoder or decoder behind, in the state it was in before the call. The calls that did not panic are answered as if the others had never been made, so that a call can be made again until it succeeds: a committed value is well-formed, is the one that the successful calls describe, and is committed once with its length. A commit during which the writer panics counts as not made.",
  "every type, every writer or reader that may panic or refuse at any of its calls, every history of calls, those of sub-encoders and sub-decoders included",
  "Writers and readers are code of the user and may panic in the middle of any call, after parts of it were written; what this leaves behind shows only at the end of the message.",
  ["lib/tmp/src/fmt/dbus/dvar.rs: Enc, Dec", "lib/tmp/src/io/map.rs: Read, Write"])
p("The streaming JSON tokenizer and decoder survive panics of the stream",
  "A panic of the caller's stream that is caught leaves a usable tokenizer or decoder behind: it never panics by itself afterwards, and calling it again goes on where it was. All tokens (items) of the text are reported, in order, each once, as on a stream that never panics, and the same bytes are left when more is asked for. Only if the stream panics instead of discarding what it was told to discard are the tokens of that lexeme reported again, and nothing else. A panic while the end of the text is announced loses nothing either.",
  "every text, every way in which it arrives, every stream that may panic in any of its calls, any number of times, every history of calls",
  "Streams are code of the user and can panic at any call, with a token read half; what is left behind shows only in tokens that are reported later.",
  ["lib/tmp/src/fmt/json/token.rs: Dec::pop, Dec::complete, Dec::clear_done", "lib/tmp/src/fmt/json/stream.rs: Dec::pop", "lib/tmp/src/io/stream.rs: read_map_while, Read"])
p("Arguments are taken from the caller's iterator one at a time, when they are needed",
  "Parsing asks the caller's iterator for an argument only when everything that is to be reported about the arguments before has been reported; a flag that takes a value asks for one more before it is reported. If a report asks to stop, nothing is called any more, and the iterator is left right behind the arguments that were dealt with, so that the caller can go on with the rest. Otherwise every argument is taken once, in order. Once the iterator has ended it is not asked again.",
  "every schema, every iterator (also without end, also one that goes on after its end, also one that depends on what was reported), every behaviour of the reports, every moment of the parse",
  "Iterators and reports are code of the user and see every call; tests with lists of arguments see neither when an argument is taken nor what happens after the end.",
  ["lib/osi/src/args/parse.rs: parse, Parser::parse_cursor, Parser::parse_long", "lib/osi/src/args/report.rs: ParserReport"])
p("Pointers of the utilities may be used as documented under Stacked Borrows and Tree Borrows",
  "A container pointer recreated from a field pointer has all rights of the original one if the field pointer was made with field_of_ptr(), under both borrow models and after any use of either. If it was made from a field reference, any access outside of the field is undefined under Stacked Borrows, and none within the container is under Tree Borrows. A OnceRef made from a mutable reference can always be turned into a mutable reference, one made from a shared reference never into one that can be written, and likewise for raw pointers made from references and pins and for addresses. Converting smart pointers to OnceRef and back keeps their rights, including those to the counters of Rc and Arc. NonNull4 keeps the provenance of the pointer last put in.",
  "both borrow models, every state of memory, every container and field, every history of accesses and borrows through those pointers or, where that is allowed, through any",
  "Miri sees only the executions it is run on; provenance has no effect that a test could observe.",
  ["lib/osi/src/meta.rs: field_of, field_of_mut, field_of_ptr, container_of_ptr", "lib/osi/src/ptr.rs: nonnull_from_ref, nonnull_from_mut, nonnull_from_pin_ref, nonnull_from_pin_mut, NonNull4, Ptr, OnceRef", "lib/osi/src/pin.rs: as_ptr, as_mut_ptr", "lib/osi/src/convert.rs: IntoDeref, FromDeref", "lib/osi/src/ffi/pointer.rs: NativeAddress, Pointer"])
p("Schemas can be read back: places, iterators and searches agree",
  "Every place of a command or flag that a report names, and that of the selected command, can be read from the schema without panic and holds what the report is about: a flag of the reported name and mode. The places hold exactly the commands and flags that were registered, with their help. Iterators, also cloned ones and those that begin at a place, go through the places in order and then yield nothing any more; only a beginning behind the end panics. A search with any closure, also an inconsistent one, never goes out of bounds, calls it logarithmically often, and succeeds only where the closure said Equal; a search by path or name finds what was registered and nothing else.",
  "every set of commands and flags, every command line and behaviour of the reports, every history of iterators, every closure with state",
  "Tests read a few schemas; the places in reports depend on the sorting and on the searches, for every command line.",
  ["lib/osi/src/args/layout.rs: Schema, CommandSet, CommandSetRef, CommandSetIter, FlagSet, FlagSetRef, FlagSetIter, Command, Flag"])
p("Errors about arguments say exactly what was given",
  "Every error that the parser itself reports is about a run of the given arguments and says what was given there: an unknown flag, or one wrongly negated or without its value, is named as it was spelled between the dashes and the first equals sign; an unexpected value is everything behind that sign; unknown short flags are given without the leading dash; an unexpected parameter is the argument.",
  "every schema, every list of arguments of arbitrary bytes, every behaviour of the reports",
  "Tests compare the text of a few errors; which bytes end up in an error depends on where the argument stops being UTF-8 and on its first equals sign.",
  ["lib/osi/src/args.rs: Error", "lib/osi/src/args/parse.rs: Parser::parse_cursor, Parser::parse_long, Parser::parse_short"])
p("Shared report targets stay consistent under calls back and panics",
  "While a report is handled by a target in a shared RefCell, all other access to the cell is refused, the target does what it would do if nobody else could reach it, and afterwards the cell is not borrowed, also if the report stops or panics. If the cell is borrowed when a report begins, the report panics without having changed or called anything. A target in a shared Cell works on a copy: other code that runs during the report sees the previous value; what it writes is replaced if the report continues, and remains, without the target's changes, if the report stops or panics.",
  "every target, every behaviour of the caller's reports, which may access the cell, keep or forget guards, stop and panic, every history of reports and other accesses",
  "Calls back into the caller during a report, and panics within them, are chosen by the caller; tests only use targets and reports that do not interfere.",
  ["lib/osi/src/args/report.rs: Shared, FlagReport, FlagContext"])
p("Parsing a command-line takes a bounded number of comparisons",
  "Whatever the command-line is and however the reports behave, each argument that begins with two dashes takes at most a logarithmic number of comparisons for each command whose flags may be given; and all other arguments together take at most as many binary searches as the longest command has words, and one more, and one comparison per command and word of the longest command.",
  "every set of commands with distinct paths, every command-line of any length, every behaviour of the reports",
  "How comparisons add up over a command-line only shows with large sets of commands and long command-lines of the right shape.",
  ["lib/osi/src/args/parse.rs: parse, Parser::parse_cursor, Cursor::enter, Cursor::find_flag"])
p("Lossy text of OS strings keeps everything that is valid",
  "Converting an OS string to text never fails, and always yields valid text: all characters of the string, in order, with one replacement character for each maximal beginning of a character, or single byte, that belongs to none, as Unicode recommends. The string itself is returned, without a copy, exactly if it is valid. ASCII characters are always kept, and what is between them does not depend on what is around; the text is at least as long as the string and at most three times; converting again changes nothing.",
  "every sequence of bytes",
  "Sequences of bytes that are not UTF-8 break off or go wrong in many ways and next to anything; tests try some of them.",
  ["lib/osi/src/compat.rs: OsStr::to_string_lossy"])
p("A D-Bus decoder accepts only the marshalled form of what it delivers",
  "If a D-Bus decoder answers all calls that read a value with that value, then its data begins with the marshalled form of the value: padding is zero, strings are followed by their terminator, the lengths of arrays are those of their elements, and nothing is missing. So different data is never read as the same value, and the same data never as different values of its type.",
  "every type the decoder has calls for, every value of it, every way to read it including sub-decoders, every data, both byte orders",
  "Tests decode what an encoder wrote, or data with an error in a place that is checked; that something is not checked anywhere only shows over all data.",
  ["lib/tmp/src/fmt/dbus/dvar.rs: Dec::u16, string, signature, array, close, commit, align"])
p("What a D-Bus encoder writes tells the value",
  "Different values of a type are encoded differently, and no encoding is the beginning of another one: from the bytes, and whatever follows them, both the value and its end can be told, including the types of variants, the elements of arrays and the ends of texts. The same holds for values one after the other, as in a structure or a message.",
  "every type, every two values of it, every way to write them including sub-encoders, whatever follows, both byte orders",
  "Injectivity is about all pairs of values, over nested types of unbounded depth.",
  ["lib/tmp/src/fmt/dbus/dvar.rs: Enc::u16, u32, u64, string, object, signature, variant_with, array, structure, dict, close, commit"])
p("A D-Bus decoder delivers no more than the data holds",
  "Whatever a decoder is asked and whatever lengths its data claims, all that it delivers, namely the numbers, the texts with their lengths and terminators, and the lengths of arrays, is together no larger than the data and one missing terminator. Hence every loop that reads a value in each round, whether it asks more() or not, ends with an error or by itself after at most half as many rounds as there are bytes. Only sub-decoders that are dropped without a commit deliver data again.",
  "every data, every reader of it, every signature, every history of calls including nested sub-decoders, both byte orders",
  "Claimed lengths reach 2^32, and histories are unbounded; tests try a few.",
  ["lib/tmp/src/fmt/dbus/dvar.rs: Dec::more, dec, commit, u16, string, signature, array, close"])
p("What a command-line means does not depend on chance",
  "The same commands with the same flags, in whatever order they are given, make the same schema, and every command-line leads to the same reports in the same order to the same targets, to the same result, and to the same help, whatever unstable sort and binary search the standard library uses. This needs that the paths of commands, and the names of the flags of each command, are distinct; without that the order matters.",
  "every set of commands and flags with distinct names, every two orders in which they are given, every sort and search that the standard library may use, every command-line and every behaviour of the report targets",
  "Tests run with one order and with the sort and search of one version of the standard library.",
  ["lib/osi/src/args/layout.rs: CommandSet::with, FlagSet::with", "lib/osi/src/args/parse.rs: Cursor::enter, find_flag, Parser::parse", "lib/osi/src/args/help.rs: Help::help"])
p("The first difference decides natural order",
  "Natural comparison reads two strings side by side up to their first difference, which decides: the end of a string comes before everything; of two characters that are not numeric the smaller code point comes first; a numeric character comes before all others unless it continues a number, which is then the longer one and comes after; two numbers compare by value, and by their first different characters if they have the same value or do not fit 64 bits. Hence strings without numbers, and those whose numbers are padded alike, are in plain order, a string comes before all its continuations, and common beginnings that do not end within a number do not matter.",
  "every two strings, every classification of characters that has the ASCII digits as numeric and + and _ not",
  "The order is over all pairs of strings of any length; tests compare a few.",
  ["lib/osi/src/str.rs: cmp_natural"])
p("Digests bind messages, and authentication codes bind keys and messages",
  "Whoever finds two different messages with the same SHA-256 digest has found, among the compressions of their blocks, two with different inputs and the same result: neither padding nor buffering nor lengths make messages the same (the theorem of Merkle and Damgard, for this implementation). Likewise two equal HMAC codes have the same message and the same key, or there is such a collision within one of the two hashes. Keys count as the same exactly if they differ by zeros at the end, up to one block, or one is the digest of the other, or by a collision.",
  "every two messages that are hashed, every two keys, in all pieces in which they may be given",
  "It is about all pairs of messages; no test can find a pair for which it would fail.",
  ["lib/osi/src/hash/sha256.rs: Sha256::push, push_zero, finalize", "lib/osi/src/hmac.rs: Hmac::with_engine, push, finalize"])
p("Damage to a JSON text stays where it is",
  "The tokenizer reports a text that is followed by another as it reports each of the two alone, whatever errors either has, provided the first does not end within a string or a comment, and the second begins with one of , : [ ] { } \" # =. A new line serves as well, ends comments, and needs only that the first does not end within a string or white space. Hence in a list of elements, of which any may be damaged, every element is reported as if it was alone, and two texts that differ in one element are reported alike up to that element and after it. Whether a text ends within a string or a comment is known from its last report.",
  "every two texts, every list of elements, damaged in every other way, every flags, every handler",
  "Recovery from errors is about all damaged texts next to all others; tests have a few.",
  ["lib/osi/src/json/token.rs: Tokenizer::parse_str, push, push_str, advance, Report"])
p("Damage to a JSON text stays where it is, also in streams",
  "Whatever the streaming tokenizer has read and whatever was wrong with it: once the stream is empty when pop() asks for more, all that follows is reported as if it was alone. A text that does not end within a string, that is, of which what is left in the stream does not begin with a quotation mark, is reported to its end in one way, whatever follows it, and what follows it is reported as if it was alone, if that begins with punctuation, a quotation mark or new white space. Hence in a list, of which any elements may be damaged, every element is reported as it is alone.",
  "every two byte texts, every list of elements, damaged in every way but by an open string, every arrival schedule and stream",
  "Recovery from errors is about all damaged texts next to all others, in all portions; tests have a few.",
  ["lib/tmp/src/fmt/json/token.rs: Dec::pop, clear_done, advance_none, advance_whitespace, advance_item, advance_number, advance_string"])
p("Neither values nor the byte order change the form of a D-Bus encoding",
  "How an encoder answers its calls, what it asks its writer for and which bytes it writes depend on the signature, on the calls and on the lengths of strings alone: not on the numbers, not on what strings say, and not on the byte order. The encodings of a value in both byte orders have the same size, and one is the other with the bytes of every number reversed, where the numbers are those of the value and the lengths of its strings and arrays, each at a multiple of its size.",
  "every writer, every signature, every two histories of calls that differ in values only, also with calls that fail; every value of every type and every way to write it",
  "It is about pairs of runs with all values and in both byte orders; tests compare a few encodings with their bytes.",
  ["lib/tmp/src/fmt/dbus/dvar.rs: Enc, Format::en_u8, en_u16, en_u32, en_u64", "lib/tmp/src/io/map.rs: Write"])
p("D-Bus encoders and decoders can wait",
  "A call that is refused, because the writer has no room or the reader has no data yet, may be made again, at any time and any number of times: the calls that were not refused, also those within sub-encoders and sub-decoders, have the same answers and the same effect as if the refused calls had never been made and the writer or reader never refused anything. Parts of a value that a refused call wrote are overwritten. Hence if the calls that were not refused write a value and commit it, then memory begins with its marshalled form and exactly this is committed; if they read a value then they yield it.",
  "every writer and every reader, refusing whatever and whenever it likes, with or without an error, every signature, every history of calls",
  "It ranges over all histories with all patterns of refusals, in the midst of every value; tests refuse nothing, or once.",
  ["lib/tmp/src/fmt/dbus/dvar.rs: Enc, Dec", "lib/tmp/src/io/map.rs: Read, Write"])
p("Where flags stand on a command line does not matter",
  "Flags may stand between the words of a command, between its parameters and behind them, wherever they can be used with the command whose words stand before. Two lines for the same command that have the same parameters in the same order, and say the same things in the same order about the flags of each target, give the same command, the same values at all targets and the same parameters, however words, flags of different targets and parameters are arranged and whether the parameters stand before or after --; errors are the same up to their order. Help flags alone remember the command whose words stand before them.",
  "every set of commands and flags, every binding to targets, every two arrangements of the parts of a line",
  "It is about all pairs of arrangements for all schemas; tests try a few lines.",
  ["lib/osi/src/args/parse.rs: parse", "lib/osi/src/args/report.rs: FlagReport, CommandReport, Shared"])
p("Arguments are understood from left to right, and flags leave everything else alone",
  "Unless arguments end with a flag whose value is missing, whatever follows them only adds to what was reported, and the command can only become one below. A flag, be it right or wrong (unknown, with an unexpected value or negation), and a flag together with the next argument as its value, whatever that is, leave everything else alone: all other arguments are reported as if it was not there, the same command is selected, no target but that of the flag changes, and errors are those without it and its own.",
  "every set of commands and flags, every list of arguments, every place in it, every binding to targets",
  "It compares all lists of arguments with all their beginnings and extensions; tests try a few lines.",
  ["lib/osi/src/args/parse.rs: parse, Parser::parse_cursor, parse_long", "lib/osi/src/args/report.rs: FlagReport, CommandReport"])
p("The JSON decoder takes time in proportion to the text, and memory in proportion to its depth",
  "However a text arrives in a stream, the decoder calls its tokenizer at most once for each byte of the text and once for each call of pop(), and each byte is looked at a fixed number of times at most. To keep track of arrays and objects it holds one byte for each that is open but the innermost, hence less than the text has opening brackets, and what is allocated for that is at most twice the greatest depth the text had so far, or eight bytes. As long as no error was reported, what is copied is at most a fixed multiple of the text, and what is buffered a fixed multiple of the current token. The depth is not limited.",
  "every text, every way in which it arrives in any stream, every sequence of calls, every growth policy of vectors that at most doubles what is needed",
  "A factor that grows with the text or its depth only shows with texts that are large enough; there are infinitely many ways to cut a text into pieces.",
  ["lib/tmp/src/fmt/json/stream.rs: Dec::pop, Dec::advance, DecInner::advance, array_open, array_close, object_open, object_close", "lib/tmp/src/fmt/json/token.rs: Dec::pop"])
p("What a generator returns tells it from all others",
  "The numbers that a Xoshiro256++ returns repeat after 2^256 - 1 calls and multiples of that, and never earlier. Two of them return the same numbers only if they are in the same state; those made from different seeds are different, but for the seed of zeros, which is the same as one other. Two numbers in a row tell a SplitMix64 from all others; two with the same gamma, such as all that are made from seeds, differ at every single call or are the same. The generators that are split off one generator, up to 2^63 of them, are all different.",
  "every two generators that can be reached, every seed, every number of calls and splits",
  "It compares all pairs of sequences of numbers, over a whole period of 2^256 - 1 calls; tests see the first few numbers for a few seeds.",
  ["lib/osi/src/rng.rs: Xoshiro256pp, SplitMix64, Mix64"])
p("The JSON decoder reports all that can be kept of a damaged text",
  "Whatever the text, an error is reported for a token if and only if nothing that the decoder accepts as a whole begins with this token after those before it for which no error was reported; such a token has no other effect, and there is one error for each. So the items without errors are at any time those of the beginning of something that would be accepted. If no errors are reported, the items tell the text but for its white space and scalars: also its commas and colons, which are not reported.",
  "every text, every way in which it arrives in any stream, every point in it; every two texts that are accepted",
  "There are infinitely many damaged texts, and for each point it has to be known whether any continuation would be accepted.",
  ["lib/tmp/src/fmt/json/stream.rs: Dec::pop, DecInner::advance, Item"])
p("Sorting in natural order has one result",
  "Every list of strings has exactly one arrangement in which, by natural comparison, no string comes before one that is in front of it; lists of the same strings, in whatever order, have the same one.",
  "every list of strings, of any length",
  "It needs the comparison to be consistent for all triples of strings in a list; tests sort a few lists.",
  ["lib/osi/src/str.rs: cmp_natural"])
p("Strings become the same symbol only if they differ in replaced characters",
  "Two strings become the same symbol if and only if they are the same but for characters that are not alphanumeric, or one of them is empty or begins with a numeric character and the other one is, up to such characters, the same with a character in front that is not alphanumeric. So different strings of alphanumeric characters become different symbols. Every symbol is that of a string.",
  "every two strings, every classification of characters",
  "It is about all pairs of strings that may collide; tests try a few strings.",
  ["lib/osi/src/str.rs: symbolize"])
p("What a D-Bus encoder has written is final, but for the lengths of arrays that are open",
  "At any time there are as many places of four bytes as arrays are open in an encoder, none of which overlap, and of all that was written so far only these change, whatever calls follow, accepted or refused, in this encoder or in its sub-encoders; and the encoder never goes back. So while no array is open, and after a commit that was accepted, everything written is final. What is in front of where an encoder or sub-encoder began is never touched.",
  "every writer, every sequence of calls, with sub-encoders, accepted or refused, and every point in it",
  "Whether something that was written is touched later depends on all the calls that may follow; tests look at the data at the end.",
  ["lib/tmp/src/fmt/dbus/dvar.rs: Enc", "lib/tmp/src/io/map.rs: Write"])
p("D-Bus encodings are put together from those of their parts",
  "Values can be encoded on their own and put together afterwards: the encoding of a structure is that of its members, that of an array its length and its elements, and that of a variant its signature and its value, each as an encoder for it alone writes it, with zeros in front up to its alignment. Neither the other parts nor the place matter, as long as nothing in a part has a greater alignment than the part itself; and a part of any type is as it is alone wherever it stands at a multiple of eight.",
  "every structure, array and variant, with any number of parts of any types and values, every way to write the whole and the parts including sub-encoders, both byte orders",
  "Whether a value may be encoded beforehand and be used in several places depends on all the places where it may stand, and on the alignments of everything within it.",
  ["lib/tmp/src/fmt/dbus/dvar.rs: Enc", "lib/tmp/src/fmt/dbus/element.rs: Element"])
p("What a D-Bus decoder has answered does not depend on what follows in its data",
  "An answer that a decoder gives, be it a value or an error, is final: calls that were answered from some data, and not refused because data was missing, have the same answers, and leave the same decoder behind, for all data that begins with it. So nothing that was read has to be taken back when more data arrives, and data that is answered differently differs within what was there.",
  "every data, whether it is valid or not, every continuation of it, every reader of either, every state of the decoder, every history of calls including nested sub-decoders",
  "A decoder that looks ahead, or to the end of its data, shows this only with the right data behind what is read.",
  ["lib/tmp/src/fmt/dbus/dvar.rs: Dec", "lib/tmp/src/io/map.rs: Read"])
p("D-Bus encoders have no dead ends",
  "Whatever was written so far, and whichever calls were rejected, an encoder can be completed: there are calls which are all accepted, and end with a successful commit of a value of the type, in which all that was written is still there, in its place. This needs room, arrays that do not get too long, and calls for everything the type, and the types of the opened variants, consist of (there are none for bytes, booleans, signed numbers, doubles, file descriptors and maybes). A type can be encoded at all exactly if there are calls for everything in it other than the elements of arrays, which may be empty; once something is open that needs a part without a call, nothing is ever committed.",
  "every type, every history of calls, including rejected ones, sub-encoders and refusals of the writer, either byte order, every writer that provides what is asked for",
  "A state from which no calls lead to a commit cannot be told by a test from one where the right calls were not tried.",
  ["lib/tmp/src/fmt/dbus/dvar.rs: Enc"])
p("SHA-256 digests can be continued without their message",
  "The digest of a message and its length determine the digests of all messages that begin with that message and its padding: nothing else is kept between blocks. Hence a digest of a secret followed by a message does not authenticate the message, as whoever knows it can tell the digest of the secret followed by longer messages (HMAC is there for this), and two messages of the same length with the same digest stay so when they are continued alike.",
  "every message, every secret, every continuation, up to the lengths that can be hashed",
  "That an outsider can tell a digest from another, for all messages and secrets, is a statement about the function as a whole; tests only compare digests of chosen messages.",
  ["lib/osi/src/hash/sha256.rs: Sha256::push, finalize"])
p("The last write to a byte counts",
  "After any history of writes, fills, alignments, writes from iterators and commits, at any indices and in any order, every byte of a mapping is that of the last operation that got to it, and is as it was if there is none. An operation that succeeds gets to all of its range, one that does not gets to a beginning of it, which its result tells. Hence operations on different ranges can be swapped, data can be written in two parts, and what is written over may as well be left out. The writer is told to commit exactly what the user commits, in this order. A vector grows by what is committed, and then holds, and yields to readers, the bytes last written.",
  "every history of operations, every index and data, every writer that provides what it promises, including writers that refuse some of the operations",
  "Tests write a few ranges once; overlapping ranges, and refusals in between, have no bound.",
  ["lib/tmp/src/io/map.rs: Write"])
# -- append new properties above this line --
with open(os.path.join(os.path.dirname(__file__), "..", "properties.jsonl"), "w") as f:
    for e in P: f.write(json.dumps(e)+"\n")
print(len(P))
