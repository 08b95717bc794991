# Formal model of bus1/sys in Lean 4

This document says what is modelled, how each property of `properties.jsonl` is stated and proved,
what is trusted, and where the code disagrees with a property.

## 1. Layout

* `lean/Verif/<Area>/Model*.lean`: executable model of the code. Every definition cites file and lines.
* `lean/Verif/<Area>/Spec.lean`: small independent specification (published standard or plain mathematics).
* `lean/Verif/<Area>/Lemmas*.lean`: helper lemmas.
* `lean/Verif/<Area>/Props.lean`: the property theorems and, beside each, non-vacuity examples.
* `lean/Verif/Tests/*.lean`: the unit tests of the repository, run on the models (`#guard`; section 4).
* `MANIFEST.json`: which theorem proves which property. `seeded/LOG.jsonl`: wrong-program tests.

## 2. Modelling conventions

* Machine integers are `BitVec w` where wrap-around matters (hash rounds, rng, endian, tagged pointers),
  otherwise `Nat` with explicit checks where the code has checks.
* `&mut self` functions return the new state. `Result`/`ControlFlow`/`Option` are data.
* A panic (`unwrap`, `assert!`, indexing, `strict_*`, `unreachable!`) is an explicit error value (`none`, or
  a dedicated constructor); it is never totalised away in a theorem about absence of panics.
* Loops become structural recursion, folds, or recursion with a proved decreasing measure.
* Callbacks and trait implementations supplied by the caller are function parameters of the model.

## 3. Plan per property

| Property | What is modelled | How it is proved |
|---|---|---|
| C01 SHA-256 = FIPS 180-4 | whole engine (`hash/sha256.rs`) over `BitVec 32` | refinement: engine state = fold of the spec's compression over the full blocks + tail; rolling schedule = 64-word schedule; padding equation. Panic at length 63 mod 64 is a counterexample |
| C02 chunking | `push`, `push_zero` | abstraction function (bytes pushed so far); each op appends |
| C03 reuse | `finalize`, `reset` | state equality modulo unobservable buffer bytes |
| C04, C05 HMAC | `hmac.rs` over an abstract engine and instantiated with SHA-256 | refinement to RFC 2104 |
| C06 hex | `Hash::to_hex` | decode is a left inverse |
| C07-C09 SplitMix64 | `Mix64`, `SplitMix64` | explicit inverse of `mix64`; odd gamma is a unit modulo 2^64 |
| C10-C12 xoshiro | `Xoshiro256pp` | linearity over GF(2); Cayley-Hamilton style check of the characteristic polynomial on a basis; modular squaring for the jump polynomials |
| C13, C14 natural order | `str::cmp_natural` | refinement to a key order; witness of non-transitivity; the exact boundary (`Str/PropsNatural.lean`): a string sorts together with all sortable ones iff its numeric runs fit `u64` or have a text not before nineteen nines |
| C15 symbolize | `str::symbolize` with abstract character classes | list induction |
| C16 endian | `ffi/endian.rs`, `mem::bswap_copy` for any width and host | list reversal and base-256 digits |
| C17 tagged pointers | `ptr::NonNull4` | bit extensionality |
| C18-C22 argument parser | `args/parse.rs` with an event log for the reports | refinement to a word-by-word specification |
| C23 parents | `CommandSet::compile` | sorted-list prefix theory |
| C24 help | `Help::write` selection logic | sorted-list contiguity |
| C25 report targets | report implementations | induction over report sequences |
| C26-C31 signatures | `signature.rs` parser on node arrays, cursor | invariant over the parser's stack; refinement to an inductive grammar; the flags also by the marshalled bytes of values (`PropsMeaning.lean`) |
| C32 element table | `element.rs` | decision over the complete table |
| C33-C35 dvar | `Enc`, `Dec` | refinement to recursive marshalling function |
| C36 io map | `io/map.rs` with abstract `map` | induction over bytes left |
| C37 map_while | `io/stream.rs` | induction over arrival schedule |
| C38-C42 JSON tokenizer | `osi/json/token.rs` with any report handler | refinement to the relation `Lex`, which cuts a text into lexemes; `Lex` is total and deterministic, hence no panic in any reachable state |
| C43-C45, C57-C60 JSON byte tokenizer | `tmp/fmt/json/token.rs` on any stream (`Json/ModelBytes.lean`, `Json/SpecBytes.lean`) | refinement to the relation `Cut`, which is total and deterministic, over all histories of arrivals and calls; `complete` is characterised for every tail |
| C46, C47 JSON structure | `tmp/fmt/json/stream.rs`, on token kinds | grammars of JSON and of what is accepted, as inductive predicates; stack invariant; witnesses for rejected/accepted inputs |
| C64, C65 JSON decoder | `tmp/fmt/json/stream.rs` with its tokenizer, on any stream (`Json/ModelDecode.lean`, `Json/SpecDecode.lean`) | refinement of histories of bytes to histories of tokens (C57) and runs on their kinds (C46, C47); grammar of JSON texts |
| C66 command line to targets | binding of flags and commands to the report objects of the library, with shared locations (`Args/ModelBind.lean`, `Args/SpecBind.lean`) | refinement of C18-C22 composed with C25 and C24; a grammar of command lines and what they must do |
| C67 equidistribution | Xoshiro256++ and SplitMix64 as for C07, C51 | positions of a period are exchanged with states by C51, the states with given outputs are counted by explicit bijections |
| C68 comparison wrappers | `mown.rs`, `cmp.rs`, `ptr.rs`, `marker.rs`, `align.rs`: records of operators (`Wrap/ModelCmp.lean`, `Wrap/SpecCmp.lean`) | laws are pulled back along dereferencing; lexicographic order of address and metadata |
| C69 smart pointer conversion | `convert.rs` with the objects, counters and destructions (`Wrap/ModelOwn.lean`, `Wrap/SpecOwn.lean`) | invariant over histories: counters equal the number of owning pointers |
| C70 constants | every constant of `elf.rs`, `pecoff.rs`, `msdosmz.rs` and the error codes (`Bin/ModelConsts.lean`, transcribed by `tools/gen_consts.py`); values from the C headers, for PE from memory (`Bin/SpecConsts.lean`) | decision over the complete tables; error codes also through the fixed-ABI integers of C61, C62 |
| C71 uncaught errors | `error.rs`: constructors, `Debug`, `Display`, `source` with any formatter (`Text/ModelUncaught.lean`, `Text/SpecUncaught.lean`) | noninterference: equality of all that the traits show, for all pairs of values |
| C72 compatibility types | `compat.rs`: `OsStr`, `Write::write_str` over a scripted writer (`Text/ModelCompat.lean`); `write_fmt` is C108, `to_string_lossy` is C119 | case split; induction over the calls of the writer |
| C73 HMAC over any engine | `hmac.rs`, `hash.rs` generic in the engine: the trait's operations with their documented laws as hypotheses (`EngineLaws`, `Sensible`) | refinement to the reference object by induction over calls; SHA-256 and a toy engine meet the laws |
| C74 memory helpers | `mem.rs` with addresses: `transmute_copy_uninit`, `copy_unaligned`, `bswap_copy`, `as_bytes`, `as_bytes_mut`, `eq`; forbidden accesses and misaligned reads are undefined (`Ffi/ModelMem.lean`) | computation on the bytes the object holds; loop invariant for `bswap_slow`; the address-free model of C16 is shown to be the same |
| C75 chosen formats | ende.rs: creation, `inline` with its loop | reduction to C33 and C54; the cursor of a new signature has no way up, so that `inline` ends in its first round |
| C76 `cond!` | `cfg.rs`: the expansion, on predicates and blocks (`Cfg/ModelCfg.lean`, `Cfg/SpecCfg.lean`) | induction over the arms with the accumulated conditions; evaluation = inductive definition of truth |
| C77 platform aliases | `#[cfg]` items of `abi.rs`, `linux/mod.rs`, `elf.rs`, `pointer.rs`; a platform is a record that fixes the options (`Cfg/SpecCfg.lean`) | case split over architecture, family, environment; exact condition for fitting layouts |
| C78 JSON texts | the tokenizer of C38-C42; values and the grammar of RFC 8259 on characters (`Json/SpecText.lean`) | induction over derivations (texts to tokens) and over values (tokens to texts); prefix-free marks; a writer without white space shows that every value whose numbers are well-formed has a text (`Json/SpecWrite.lean`) |
| C79 pins | `pin.rs`, pins in `ptr.rs` and `convert.rs`, on the objects of C69 (`Wrap/ModelPin.lean`, `Wrap/SpecPin.lean`) | from the invariant of C69: the call drops the pointer, so the target lives exactly if an owner is left; negation for `Box` |
| C80 static signatures | `Sig::try_make`, `make`, the literal macros, on buffers of any size (`Dbus/ModelStatic.lean`) | parsing with more room gives the same unless it faults (simulation); negation for larger buffers |
| C81 cursors as iterators | `Cursor` with histories of moves (`Dbus/SpecIter.lean`) | invariant over histories from the position theorems of C30; negation for long signatures |
| C82 repeated flags | the parser and reports of C21-C25 and C66 (`Args/PropsRepeat.lean`) | induction over the items of a command line; the bound targets of C66; negation: lists only grow |
| C83 variance, threads, size | the declarations of the pointer, marker and test types as terms of a type language; rules of subtyping, `Send`/`Sync` and layout as specification (`Types/SpecTypes.lean`) | subtyping shown to be a preorder; equivalences for all parameters |
| C84 brands | programs as histories of calls, moves, copies and drops (`Types/ModelBrand.lean`) | invariant over histories; induction over the types built around a brand |
| C85 OnceRef as reference | derived operators of `OnceRef` (`Wrap/ModelCmp.lean`) against those of references (`Wrap/SpecOnce.lean`) | equivalences for all contents of memory; negation |
| C86 changed schemas | assignments through `flag_mut_at` and `command_mut_at` (`Args/ModelEdit.lean`), the search of the standard library (`Args/ModelSearch.lean`) | invariant over histories, the refinement of C18-C22; negation with three witnesses; by induction on the search: everything is found exactly if the schema is still in order (`Args/PropsFound.lean`) |
| C87 memory of the D-Bus formats | the decoder on a machine with limits, where `Vec::with_capacity` is a step of its own (`Dbus/ModelMem.lean`); stacks as in C33-C35 | simulation with the decoder without limits, invariant over histories; negation for every length |
| C88 linear linking | the commands each loop of `compile` visits (`Args/ModelCost.lean`) | invariant over the loop: the chain of links is disjoint from what was passed over |
| C89 initialised vectors | vectors as memory with length and capacity, allocators, and what callers do with slices (`Io/ModelVec.lean`); what a caller knows is a ledger (`Io/SpecVec.lean`) | invariant over histories of calls; negation for all vectors that are not empty |
| C90 Polonius | the macro `coerce_unsafe!` in both builds (`Types/ModelCoerce.lean`), the coercion rules of the language (`Types/SpecCoerce.lean`) | induction over chains of coercions; negation for all coercions that dereference |
| C91 checked offsets | the assignment in `typed_offset_of!` (`Types/ModelCoerce.lean`) with the coercion rules of C90 | induction over chains of coercions |
| C92 values of JSON numbers | the tokenizer of C38–C42, C55, C78; `Json/SpecNumber.lean` says what a text denotes (a rational number) and how a client computes it from a token | the token of a number is known from C41; Horner's rule against tenths of tenths by induction over the digits; induction over values for texts with the extensions |
| C93 memory of the JSON tokenizer | the tokenizer of C38–C42 again, where each buffer has a capacity (`Json/ModelBuf.lean`); lives of a tokenizer with the text of the current token (`Json/SpecBuf.lean`) | simulation with the tokenizer without capacities; invariants over lives: capacity against contents, contents against the text of the token (an escape sequence is never shorter than the character it stands for) |
| C94 the two JSON tokenizers | the tokenizers of C38–C42 (`Json/ModelToken.lean`) and of C57 (`Json/ModelBytes.lean`), as they are; which tokens are the same (`Json/SpecAgree.lean`) | every token as it may be written is one lexeme of the other grammar; a lexeme ends where the next token starts, by the ends that the first grammar demands, but for a keyword and a minus; then the theorems on histories of C57 and on JSON texts of C78 |
| C95 waiting for the next byte | the model of C57 and C64; what a request is (`Json/SpecNext.lean`) | where the loop of `read_map_while` breaks it asked for the byte after its offset; the offset is within the data by the invariant of C57, and the data is shorter than what was asked for |
| C96 the DOS stub as a program | the bytes of the stub (`Bin/ModelSum.lean`) and loading as documented (`Bin/ModelDos.lean`); an 8086 with six instructions, two services of DOS and interrupts (`Bin/SpecDos.lean`) | an invariant for each of the seven steps, kept by instructions, services and interrupts; the memory behind the program is only touched below the stack pointer |
| C97 sub-signatures | `Dbus/ModelSig.lean`, `Dbus/ModelDvar.lean`; signatures however obtained (`View`) | the nodes of a signature are a segment of those of one that was parsed; what the operations use of the first node is the same |
| C98 work of the streaming tokenizer | the tokenizer of C45 again, with a meter that it never reads: calls, rounds, tested bytes, copied bytes, capacity (`Json/ModelWork.lean`); lives with the meter (`Json/SpecWork.lean`) | projection to the tokenizer without a meter; an invariant per state with a potential for tests and copies, preserved by each step, by `clear_done` and by text that arrives |
| C99 time of signatures, encoders and decoders | the parser of signatures with a count of the turns of its loops; readers and writers that count calls, bytes and commits around any other (`Dbus/ModelCost.lean`); sizes of calls and answers (`Dbus/SpecCost.lean`) | projection to the code without counts; the turns of the inner loop are bounded by what the proof for the parser finds open; per call a bound for every outcome, and for accepted calls a potential over index, bytes and open arrays; mutual induction over nested calls |
| C100 cost of growing buffers | the bytes copied by `Vec::reserve` next to the vectors of C89 (`Io/ModelGrow.lean`), a map that keeps count and that the D-Bus encoder writes to, and a meter in the buffers of C93 (`Json/ModelBuf.lean`); what a history asked for (`Io/SpecGrow.lean`) and what has been done to a tokenizer, in bytes (`Json/SpecMove.lean`) | credit 2·len − cap per buffer, kept by every call; allocators that double are an assumption, and the exact allocator is shown to cost n²/2; encoder: what is asked for lies within what is committed in the end, by the potential of C99; tokenizer: every function is shown to have one of five effects on the buffers, and what is in the buffers has been paid for (a lower bound) |
| C101 words of signatures | the bytes of `Node8` and `Node64`, an array of words in either byte order, and `flags`, `len`, `derive`, `node_at` and `at` of `Sig` on it (`Dbus/ModelWords.lean`), next to the nodes of C26 to C31 | all nodes of a signature, and hence of its parts, have counters and sizes that fit their fields (induction over the type); fields are read back by the round-trip of numbers (C33); parts by splitting the array |
| C102 logarithmic lookups | `enter`, `find_flag`, `resolve_flag` and the binary search of the standard library with a counter of comparisons (`Args/ModelLookup.lean`), proved to return what the model of the parser does; the logarithm, the commands that match and those in scope in `Args/SpecLookup.lean` | the search halves; it leaves the last match; matches are contiguous, so that backing up passes all of them; the chain of links is the list of commands in scope (induction over it). The claim of the code fails for words: family of witnesses, and no factor |
| C103 order of commands | `FlagSet_compile` and `compile` of `Args/Model.lean`; trees, their pre-order and when a tree is ordered in `Args/SpecTree.lean` | the pre-order of an ordered tree is strictly sorted by path (mutual induction), and sorted lists with distinct keys are unique; every set of commands has a tree (insertion, by induction over the path). Sub-commands are contiguous by transitivity of the order |
| C104 lengths only | SHA-256 and HMAC once more, recording every condition, write and compression, in `Hash/ModelTrace.lean` (a monad that keeps the events before a panic) | results are those of the models, function by function; a relation on pairs of runs (same events, engines with the same counters) is closed under bind, so that all functions preserve it; exact costs by the same compositional reasoning, the loop of `push` by strong induction |
| C105 string costs | `cmp_natural` once more with counters, `symbolize` and `to_hex` filling a buffer with a capacity (`Str/ModelWork.lean`) | the counted functions have the results of the models; induction on the total length (rounds continue only behind equal text); invariant: the rest of the result fits the buffer; that the counters do count is shown by exact values for equal strings (`Str/SpecWork.lean`, `Str/PropsSame.lean`) |
| C106 appending to vectors | the encoder of C33 on the vectors of C36 with any contents (`Dbus/PropsAppend.lean`) | the potential argument of C100, generalised to memory (`Dbus/LemmasGrow.lean`): a completed encoding leaves everything at and behind its final index alone; with the refinement of C33 this gives the contents of the vector exactly, and refutes the property for all vectors that are not empty |
| C107 builds with Meson | `cargo-query.py` as a function on tables of lints to text, what `meson.build` makes of the text, and the configuration of each library as a function of options (`Build/Model.lean`); what Cargo does with lints and features (`Build/Spec.lean`) | the text is the joined names, by induction on the tables; splitting inverts joining; exact conditions |
| C108 formatting | `compat.rs` 21-27: what is formatted as an arbitrary program that writes pieces and sees whether they were written, `core::fmt::write`, the adapter of `std::io::Write::write_fmt` (`Text/ModelFormat.lean`) | induction over the program with the flag of the adapter; exact condition; scripted writers as in C72 |
| C109 panics of engines | `sha256.rs` and `hmac.rs` with the state that a panic leaves behind (`Hash/ModelUnwind.lean`) | bisimulation up to the stale part of the buffer; agreement with the model without panics up to the first one; the engine after the panic represents the message with the marker in it |
| C110 panicking handlers | `json/token.rs` with the tokenizer at the point of each report (`Json/ModelPanic.lean`) | invariant of all points at which a report is made; advancing again from any such point makes the remaining reports from some earlier one on; induction over attempts and text |
| C111 panicking writers and readers | `fmt/dbus/dvar.rs`, `io/map.rs` with what is left at a panic, effects in the order of the code (`Dbus/ModelPanic.lean`) | a writer that panics is compared with one that refuses instead: same states, same answers otherwise; refinement of C33 and C54 for the latter; erasure of the refused calls in the specification; writers whose commit panics are simulated by the same relation with the commits counted (`Dbus/PropsDie.lean`) |
| C112 panicking streams | `fmt/json/token.rs` 752-859, `fmt/json/stream.rs` 297-333, `io/stream.rs` 188-218 with what is left at a panic (`Json/ModelFlaky.lean`); histories with caught panics (`Json/SpecFlaky.lean`) | each round is one step on the text as for C45, or leaves a state from which the step on any longer text is the same; the invariant of C45 then survives panics, and everything that follows from it |
| C113 argument iterator | `args/parse.rs` 285-527 as a conversation with the caller, whose iterator and reports share one state (`Args/ModelAsk.lean`); the log of all calls, and the script that belongs to the iterator's answers (`Args/SpecAsk.lean`) | induction over the rounds of the loop: the log is the script; list iterators by simulation with the model of C18; the rest is about scripts |
| C114 borrow models | what the functions of `ptr.rs`, `meta.rs`, `pin.rs`, `convert.rs` and `ffi/pointer.rs` do to the tags of pointers (`Borrow/ModelBorrow.lean`); Stacked Borrows and Tree Borrows as machines (`Borrow/SpecStacked.lean`, `Borrow/SpecTree.lean`), histories (`Borrow/SpecMachine.lean`) | invariants over histories for each model: whoever may write still may after any use of what is derived from it, what is shared is never written, and under Stacked Borrows nothing has rights outside of its range; then one proof for both |
| C115 reading schemas | `command_at`, `flag_at`, `len`, `is_empty`, iterators and `search_by` of `layout.rs` (`Args/ModelAccess.lean`); panics are `none`, closures have state; what places and iterators must hold (`Args/SpecAccess.lean`) | places by induction over the classification of C18; iterators refine positions, by induction over histories; the search by induction over its steps |
| C116 what errors say | the parser of C19; how flags are spelled and what an error has to say about them (`Args/SpecErrors.lean`) | from the faithfulness of reports (C19) and the shape of arguments; the two exceptions for every argument of their form |
| C117 shared targets | `Shared` for `Cell` and `RefCell`, `report.rs` 649-718 (`Args/ModelShared.lean`): targets and the caller's code as arbitrary programs, with the borrow flag and unwinding; a target that a report has alone, and target and caller's code seen separately (`Args/SpecShared.lean`) | refinement by induction over programs and histories |
| C118 comparisons of a run | the whole parser with the counters of C102 (`Args/ModelMetered.lean`), proved to return what the model of the parser does; arguments that can be flags (`Args/SpecMetered.lean`) | induction over the arguments, with the words that are left; the lower bound for a chain of commands |
| C119 lossy text | the loop of `Utf8Chunks::next` and `String::from_utf8_lossy` of the standard library (`Text/ModelLossy.lean`); the substitution of maximal subparts as a relation over encodings of characters (`Text/SpecLossy.lean`) | each round of the loop is one step of the relation, which determines the text; the table of well-formed sequences is that of `Args/Utf8Chars.lean`; induction over the rounds |
| C120 accepted data | the decoder of C35 and C54; which bytes of a marshalled value matter (`Dbus/SpecSkip.lean`) | both directions by induction over the ways to read a value, from the refinement of C54 (`Dbus/LemmasSkip.lean`): the answers tell the bytes that matter, and these tell the answers; negations for every string and every array |
| C121 encodings tell values | the encoder of C33 on vectors; types of structures without contents (`Dbus/SpecUnique.lean`) | marshalling is a prefix code on the values of a type: mutual induction over values, fields and elements (`Dbus/LemmasUnique.lean`); negation for every type of empty structures |
| C122 no more than the data holds | the decoder of C54; the size of what calls delivered (`Dbus/SpecYield.lean`) | every call moves on by at least the size of what it delivers, and ends within the data: induction over histories and sub-decoders (`Dbus/LemmasYield.lean`) |
| C123 order and luck do not matter | the parser of C18, with two sorters and two searchers (`Args/SpecSame.lean`) | there is one sorted order of distinct keys, and one lookup that meets the specification of C20; then the refinement of C18 twice (`Args/LemmasSame.lean`) |
| C124 first difference | `cmp_natural` against a scan of both strings in step (`Str/SpecScan.lean`) | induction on the string with the numeric characters before the position as parameter; common texts and common numbers that end are cut off; longer runs have no smaller values |
| C125 binding | the inputs of all compressions for a message (`Hash/SpecBinds.lean`) | induction on the blocks for messages of the same length, the length in the last block otherwise; the hash of the code is that of FIPS 180-4 by C01, HMAC by C04 |
| C126 damage stays local | the tokenizer of C38–C42; open strings and comments by the last report (`Json/SpecLocal.lean`) | induction on `Lex` of the first text: every lexeme that ended before the end of the text still ends there, and the last one is ended by the mark |
| C127 damage in streams | the tokenizer of C57; `Reads` says what is reported and left when more is asked for (`Json/PropsLocalBytes.lean`) | the cut of a text followed by another is the cut of both: lexemes that ended still do, the tail is ended by the byte that follows; then the theorems on histories of C57 |
| C128 byte order and values | the encoder of C33, any writer; `Op.shape` forgets values, `Flipped` reverses numbers, `Val.numbers` says where they are (`Dbus/SpecOrder.lean`) | two runs side by side: writes of the same length have the same outcome and fill the same bytes, so all calls go alike, by induction over calls and sub-encoders; sizes and reversed numbers by induction over values |
| C129 refused calls | encoder and decoder of C33, C35; `Op.kepts`, `Ask.kepts` remove the calls that were refused, also within sub-encoders (`Dbus/SpecRetry.lean`) | two runs side by side, one with a writer that never refuses: a call that is not refused succeeds or fails alike, one that is refused leaves the encoder as it was; the specification `Does` is deterministic and needs no refusals for the calls that are kept, hence memory is the same |
| C130 order of the parts of a line | parser and targets of C66; `Part`, `mixedLine`, `InPlace` say what stands where (`Args/SpecMixed.lean`) | induction over the parts: each gives its own report, whether or not parameters came before; the value of a target depends on its own reports in order, and only help objects look at the index; the errors are a permutation of those of the settings followed by those of the parameters |
| C131 arguments one after the other | parser and targets of C66; `told`, `chosen` are the reports and the command of a parse (`Args/SpecSteps.lean`) | the classification of arguments that follow others depends only on the words before and on whether there were parameters and `--`; an argument is classified alone or with the next one, and one that is reported as a flag changes neither |
| C132 work of the JSON decoder | the decoder of C64 on top of the metered tokenizer of C98, with a meter of its own that it never reads: calls, capacity of the stack (`Json/ModelEffort.lean`); lives with the meter (`Json/SpecEffort.lean`) | projection to the decoder without a meter and to lives of the metered tokenizer (C98); tokens that are not reported have a byte at least; the stack is what is open by C64; an invariant for the capacity from below and above |
| C133 numbers tell generators apart | the generators of C05–C08 as they are; the sequence of numbers (`Rng/SpecTell.lean`) | two periods of a sequence have their gcd as a period; within 2^256 - 1 calls 0 occurs once less than 1 (C67), so that no divisor is a period; any generator is a later state of any other (C51); SplitMix64 by injectivity of its mixer |
| C134 damaged JSON texts | the decoder of C46 and C64 as it is; beginnings of what is accepted, by its grammar, and the tokens that can be kept (`Json/SpecSalvage.lean`) | from every state all that is open can be closed without an error; induction over the tokens; two runs without errors in the same state with the same items take the same step |
| C135 sorting in natural order | the comparison of C13; lists in order (`Str/SpecSort.lean`) | insertion, with transitivity where it holds (C14); antisymmetry; the cycle of C14 has no smallest element |
| C136 equal symbols | `symbolize` of C15; strings that are alike (`Str/SpecSort.lean`) | character by character, with and without the prefix |
| C137 what is written is final | the encoder of C33 over any `Write`; what is open, from the calls and their answers (`Dbus/SpecFinal.lean`) | every write is behind the position but that of a length when an array is closed; induction over calls and sub-encoders |
| C138 encodings of parts | the encoder of C33; putting encodings together with zeros in between (`Dbus/SpecGlue.lean`) | marshalled values depend on their position modulo their alignment only (C31), and so do their lengths; induction over the parts |
| C139 decoders do not look ahead | the decoder of C35 over any `Read` | a reader of some data is one of all that begins with it, which refuses the rest; then as C129 |
| C140 encoders have no dead ends | the encoder of C33 | invariant over `Does`: what is missing can be written; then induction over the open containers, each completed with the smallest values and closed. Dead ends: a part without calls stays missing |
| C141 digests can be continued | SHA-256 as in C01; what an outsider computes from a digest and a length (`Hash/SpecExtend.lean`) | a padded message is whole blocks, the digest is the hash value after them, and the bytes of a hash value give it back |
| C142 the last write to a byte counts | writers as in C36; histories and the last operation that got to a byte in `Io/SpecHist.lean` | induction over the history, each step by the theorems on single operations; the corollaries by the bytes |
| C48 checksum | `msdosmz::sum16`, `STUB_X86` (`Bin/ModelSum.lean`) | induction over words; proved |
| C49 layouts | repr(C) layout function applied to the structures (`Bin/ModelLayout.lean`; the layout rules of `repr(C)` are part of the trusted base) | decision over the complete field tables (`Bin/SpecFormats.lean`); byte/field round trip for every content; proved |
| C50 container_of | `meta.rs` pointer arithmetic | modular arithmetic |
| C61-C63 fixed-ABI types | `ffi/{packed,integer,pointer,abi}.rs`, `align.rs`: nested wrappers as terms `Ty`, objects as memory with uninitialised padding (`Ffi/ModelAbi.lean`, `Ffi/SpecAbi.lean`) | induction over the nesting; the platform is a parameter |
| C51 full period | `Xoshiro256pp` | order of the step map from the jump polynomial arithmetic and certified factors of 2^256-1 |
| C52 str::some | `str::some` | case split |
| C55, C56 JSON tokenizer | `osi/json/token.rs` | from the refinement of C38-C42 |
| C54 hostile data | `Dec` on every reader; on machines with limits (`Dbus/ModelMem.lean`) | refinement to the relation `Gives`, stated on the data; negation for small machines |
| C53 signature errors | error values of the parser | the abstract parser is stuck exactly at the first byte without continuation; invariant over its frames; partial texts are completed to types frame by frame (`first_problem_partial`) |

## 4. Trusted base

Lean 4.33.0's kernel; the axioms `propext`, `Classical.choice`, `Quot.sound` (checked per theorem); the
reading of the Rust source (the code was not executed); the Rust semantics of the constructs used
(wrapping/checked arithmetic, slices, `binary_search_by`, sort stability, `char`/UTF-8 functions), which enter
the model as the obvious mathematical functions. `char::is_whitespace` is the list of code points with the Unicode
property White_Space; capacities and running out of memory are modelled for C87, C89, C93, C98 and C132 only. `core::str::from_utf8` is
modelled and proved to accept exactly the encodings of sequences of `char` (`Args.isUtf8_iff`, `Args.validUpTo_longest`).
The layout rules of `repr(C)`, `repr(packed)` and `repr(transparent)` are trusted, as are the documented effects of the
standard library's raw pointer functions (C69). Published constants (C70) are as good as their source: `elf.h`,
`elf-em.h` and `asm-generic/errno*.h` of this machine, and, for PE and MS-DOS, values written down from memory.
The rules of the language for subtyping, auto traits, the layout of packed and transparent structures, and fresh lifetimes
(C83, C84) are written down in `Types/SpecTypes.lean` and trusted.
The coercions of the language (C90) are written down in `Types/SpecCoerce.lean` and trusted.
The 8086 instructions and the DOS services (C96) are written down in `Bin/SpecDos.lean` and trusted.
The borrow models (C114) are written down in `Borrow/SpecStacked.lean` and `Borrow/SpecTree.lean`, after the papers, and trusted; they leave out protectors, two-phase borrows and interior mutability.
That the models agree with the code rests on reading. As a check, `lean/Verif/Tests` runs the repository's own unit tests on the models: all
expectations of the tests of `rng`, `str`, `hmac`, `sha256`, `json::token`, `mem`, `cfg`, `error`, `mown`, `cmp`, `NonNull4`, `Field`,
the endian wrappers, the D-Bus encoder, elements and signatures, the byte tokenizer, `msdosmz`, `pecoff`, `elf` and `io::stream` hold of them.
Left out are tests of layouts of Rust's own types, of trivial accessors, of type-checking, and the comparison with `libc`.
The nodes of D-Bus signatures are proved to be what the words they are stored in mean (C101), for words in memory as `repr(C)` lays them out.
Not modelled: of `pin.rs`, that pinned objects are not moved.

## 5. Disagreements between code and property

Recorded while reading; each becomes a proved negation with a concrete witness where it can be modelled.

* SHA-256 `finalize` panics if the message length is 63 modulo 64 (`sha256.rs` 223-280), also through HMAC.
* `Xoshiro256pp::from_splitmix64` and `MIX64_0` repeat one SplitMix64 output four times (`rng.rs` 62-73, 293).
* `cmp_natural` is not transitive once a digit run does not fit `u64` (`str.rs` 21-84). Any such run whose text comes
  before nineteen nines puts its string on a cycle (`cmp_natural_cycle`); other such runs do no harm.
* `Cursor::find_flag` consults the command at the cursor even if it was never entered (`parse.rs` 242-260). The flags that
  are accepted too many are those of the first command that continues the words so far (`Args/PropsGap.lean`).
* `Sig::len()` divides by the wrong node size for signatures of more than 31 elements (`signature.rs` 824).
* `Sig::parse` does not terminate for buffers with a partial last Node64 (`signature.rs` 733-760).
* `Sig::parse` panics instead of returning `DataExceeded` for buffers that are too small.
* `Sig::parse` leaves the nodes after the signature uninitialised if the buffer is larger than necessary, although it is documented to
  initialise all of it; `Sig::<[u64; N]>::try_make`, a safe function, then uses them (`signature.rs` 733-753, 906-928).
* `Cursor::size_hint` overflows after `move_to` past the end, and is six times too large on long signatures (`signature.rs` 1348-1351).
* `Error::ElementMispaired` reports `this_idx - up.offset` as index of the opening element, which is not its index.
* Members of dict entries are only checked when the entry is closed: for `a{v?` the error points to the question mark, although `a{v` already
  cannot be continued to a valid signature (`problem_late`; not a violation of the documentation).
* `FLAG_VARIANT` is documented to be propagated but is not; the alignment-dependent flag is not lifted to a root
  struct consistently.
* `Help::write` lists the children of a command with `map_while`, so duplicated command paths end the list early;
  the help theorems assume distinct paths.
* `OnceRef` is documented to behave like a reference but for three differences, yet its comparisons and hash are derived, and thereby
  those of the address, not of the target (`ptr.rs` 55-72).
* `flag_mut_at` and `command_mut_at` give out `&mut Flag` and `&mut Command`, so that safe code can replace an entry by one with another
  name; the sets are sorted and linked only in `with` (`layout.rs` 252-258, 411-441), and lookups go wrong.
* `Dec::str8` and `Dec::str32` call `Vec::with_capacity` with the length from the data before they look whether the data is there
  (`dvar.rs` 604, 643): four bytes ask for up to 4 GiB. On machines with 32 bits this panics, with little memory it aborts
  (`hostile_panics`, `hostile_starves`), although all operations are documented to need linear space (`dvar.rs` 17-20).
* `map::Write for Vec<u8>` shows the elements of a vector as `MaybeUninit<u8>` (`map.rs` 175-194), so that safe code can de-initialise
  them; and its `commit` adds to the length although indices count from the beginning (`map.rs` 169-173), so that keeping to the contract
  exposes uninitialised memory unless the vector is empty (`map_deinit`, `map_commit_exposes`, `map_twice`).
* `coerce_unsafe!` is declared safe if the code compiles with Polonius, where it is a coercion; without Polonius it is a `transmute`
  (`polonius.rs` 11-27). For coercions that dereference, as from `&Box<T>` to `&T`, both compile, and the second is a pointer to
  the wrong object (`deref_differs`, `box_garbage`).
* `typed_offset_of!` checks the type by assigning a pointer (`mem.rs` 14-17), which coerces: a field of type `[T; N]` passes as `[T]`.
* The DOS stub needs memory it does not ask for (C96). The stack pointer is set to 0x80 in the segment of the program ("64 code + 64 stack"), but only the 64
  bytes of the program are loaded and `minalloc` is 0, which is "the minimum number of additional paragraphs required for program execution". With less than
  four additional paragraphs already the first `push` overwrites memory that was not allocated to the program, `stub_oversteps`. It should be 4.
* Sub-signatures are not as good as parsed ones: those taken (`Sig::at`, `Cursor::sig`) from a signature of 32 codes or more keep its representation, and thereby
  its wrong length (C28). So `variant()` of the encoder panics with them, or reports an overflow, even if they have a single code, while an equal signature that was
  parsed is accepted. Found as C97 (`taken_variant`, `equal_but_different`).
* Looking up a command is not logarithmic as parse.rs 213-214 says: the binary search finds the last command that begins with the words, and `enter` walks back to the first of them one by one, comparing with each. With n commands that all begin with the same word, that word takes at least n comparisons (C102, `word_not_logarithmic`). A binary search for the first match (`partition_point`) would do.
* C106: encoding a D-Bus value into a vector that is not empty does not append it. `Enc` starts at index 0, `Write::map` of vectors counts from the
  beginning of the vector, and `Write::commit` adds to its length (map.rs 168-195, dvar.rs 108-195). So the value takes the place of what was there, and the
  vector ends with uninitialised elements (`encoded_into`, for all values and contents), which safe code can then read.
* `rng.rs` 51 documents that `Xoshiro256pp` implements `Clone` and `Copy`; it derives only `Clone`. Nothing in the model depends on it.
* C107: `toml_lints` (cargo-query.py 16-25) puts `clippy::` before allowed lints of the group `rust` as well, and prints an empty line if nothing is allowed,
  of which meson.build 99-101 makes `-A ''`. The option `polonius` (meson_options.txt 3) is used nowhere, although `--check-cfg=cfg(polonius)` is passed. The
  files that meson.build 42-44 names so that Meson watches them do not exist (`lib/osi/src/Cargo.toml` instead of `lib/osi/Cargo.toml`, and so on).
* C108: `Write::write_fmt` (compat.rs 21-23) passes on to `std::io::Write::write_fmt`, which panics if formatting fails although the writer did not. Without
  this override, `core::fmt::Write` would return the error.
* C109: `finalize` (sha256.rs 223-280) writes the marker of the padding into the buffer before it finds that it cannot go on (63 bytes modulo 64, C01).
  If that panic is caught and the engine is used without a reset, the next `push` processes the buffer with the marker as if it were data, and the next
  `finalize` returns the hash of bytes that are no padded message, without a panic. `reset` repairs the engine completely.
* C110: `advance_string` (token.rs 774-797, 849-878) appends the fourth digit of an escape sequence to the raw text before it reports half a surrogate
  pair, and leaves that state only afterwards. If the report handler panics and the digit is pushed again, the string is reported with a raw text that has
  the digit twice (`digit_twice`, `wrong_text`). All other reports are made before anything is kept.
* A writer that panics while committing is told to commit again by the next commit, even if it had committed before it panicked (`commit_panicked`); `done` is set afterwards only. No disagreement with the documentation, which does not say.
* A stream whose `advance` panics before it discards makes the JSON tokenizer report a token twice (C112, `token_twice`). The tokenizer forgets the token before it calls `advance`;
  in the other order a stream that discards and then panics would make it skip text. This is documented as a limit of the claim, not counted as a violation.
* C113: after a flag whose value is missing, `parse_long` (parse.rs 344-349) reports the error and returns, and the loop of `parse_cursor` calls the iterator again,
  which had just returned `None`. With an iterator that is not fused, later arguments are parsed (`asked_after_end`). `parse` takes any `Iterator`.
* C114: `OnceRef::into_mut()` and `as_mut()` (ptr.rs 471-518) ask the caller for "sufficient exclusiveness guarantees", and so do those of `Ptr`. That is not enough: one that was
  made with `from_ref()` has the provenance of a shared reference, and under both borrow models nothing can ever be written through it, even if there is no other reference
  (`once_from_ref`, `once_from_ref_stacked`). The caller has to know that it was made from a mutable reference or from a raw pointer with such rights.
* `Error::ShortsUnknown` is documented to have the flags "without the leading dash" (`args.rs` 32-37), but has the whole argument (`parse.rs` 480-481). Proved for every such argument: `shorts_with_dash` (C116).
* `Error::FlagUnknown` has the bare name, except if the name is not UTF-8: then it has the whole argument, with dashes and value (`parse.rs` 448-455). The documentation does not say which it is. Proved: `bad_name_whole` (C116).
* `OsStr::to_string_lossy` of the compatibility type and that of the standard library differ on Windows: a lone surrogate is three bytes in the
  encoding, and becomes three replacement characters here, one there (`lossy_surrogate`). Its documentation only refers to `from_utf8_lossy`, with
  which it agrees; hence C119 is proved.
* C120: `dvar::Dec` skips padding without looking at it (dvar.rs 554-566), adds one for the terminator of a string without reading it (617, 656), so that it
  need not be there, and uses the length of an array for `more` only, not when the array is closed (708-724). So data that is not the marshalled form of
  anything is accepted (`not_canonical`, `length_ignored`), and an array can be read as any beginning of it (`elements_ignored`).
* C121: arrays of structures without contents (`a()`, accepted by `Sig::new` and written by `dvar::Enc`) take no bytes but the length, which is zero, so
  the number of their elements cannot be told from the encoding (`hollow_lost`). The D-Bus specification forbids empty structures.
* The documentation of `lib/sys/src/ffi/linux/common/errno.rs`, lines 10-14, gives the range of error codes as 1 to 4096, whereas Linux reserves 1 to 4095. The
  constants all lie within 1 to 4095 (`errno_distinct`), so nothing but the comment is affected.
* Empty structs are not flagged as unsupported by D-Bus (flag is set on the closing element).
* `dvar::Enc::variant_with` panics or reports `DataOverflow` for types of more than 31 codes, since it uses `Sig::len()`
  (`dvar.rs` 315-340).
* `dvar::Dec::array` stores a length where an end offset is needed (`dvar.rs` 679-700).
* `ende.rs`: `Enc::inline` never copies anything and panics in arrays (42-65); `Format::Json` panics (38, 80).
* `io::map::Write for Vec<u8>` maps from the beginning of the vector but commits relative to its length, so that
  writing to a non-empty vector overwrites it and exposes uninitialised bytes (`map.rs` 168-195).
* `io::map::Write::write_iter` writes to the end of maps that are longer than requested (`map.rs` 118).
* `io::map::Write::align_exp2` shifts an `i32`: exponent 31 aligns to 2^64 - 2^31 instead of 2^31, larger exponents panic (`map.rs` 148).
* `read_map_while` panics if it is called with `n >= max` (`stream.rs` 204).
* `io::stream::Write for Vec<u8>` may map less than `min` if `max < min` (`stream.rs` 260-263).
  It reserves the whole maximum, so that a maximum of `usize::MAX`, documented to be the same as none, panics (`vec_map_hint`).
* `tmp` JSON tokenizer (`tmp/fmt/json/token.rs`): U+001F is accepted unescaped (556, 572). After an escape, an unescaped control character has
  the text since the escape repeated (571-576); a row of n of them takes n²/2 bytes of memory (`buffer_quadratic`). `complete()` never ends if white space, a word or a string is left (776-788); it reports only the
  first digit of a number that is left, since the ranges are not updated when data is missing (472-481), and for the same reason reports
  missing digits for `-5`, `1.5` and `1e5`, and panics when it is called again (294-316). Calling `complete()` after `pop()` reported
  missing digits panics as well. Leading zeros are accepted. Bytes above 0x7f outside of strings are reported one by one as not being UTF-8.
* `NativeAddress::to_usize` is documented never to yield 0, but `Pointer<usize, _>::new(0)` does (`pointer.rs` 45-48, 218).
* `tmp` JSON stream: `value()` never updates the state (`stream.rs` 95-101); `[1,2]`, `{}` and `{"a":1}` are rejected, `1 2` and
  `[1 2]` are accepted. The decoder has no `complete()`: a number or word at the end of the input is never reported.
* `pecoff.rs` 29: `PE_MAGIC_OH32P` has the value of `PE_MAGIC_OH32` (0x010b; published: 0x020b). `pecoff.rs` 156-161: the subsystems
  from `EFI_APPLICATION` on are written as hexadecimal digits of the published decimal values (0x0010 for 10 and so on).
* `elf.rs` 226-232: `EM_R32C` and `EM_TRIMEDIA` have the same value, and `EM_TRIMEDIA` to `EM_NDS32` are one smaller
  than in `elf.h` (proved as `elf_wrong`). `EM_ECOG1` (167) is not in that header, so nothing is claimed about it.

* `abi.rs` 208-220: `target` refers to `x86_win` and `x86_64_win`, which do not exist, so that `osi` does not compile for Windows with MSVC
  on x86 and x86_64. 190-206: on big-endian aarch64 and on x32, `target` stands for an ABI with another byte order or other widths.
* `linux/mod.rs` 56-57, 112-114: `native` is documented to use the module `libc` on other architectures, but does not exist there.
* `pin::as_ptr`, `pin::as_mut_ptr` (`pin.rs` 24-39) and `nonnull_from_pin_ref`, `nonnull_from_pin_mut` (`ptr.rs` 102-121) take the pin by
  value and drop the smart pointer: the pointer to the target of a pinned `Box`, or of the last `Rc` or `Arc`, dangles when they return.
* `layout.rs` 68-70: the form `no-` of a flag that collects values is documented to be usable by the collector to clear its list. `parse.rs`
  makes it an error (`FlagUnexpectedToggle`) of which the report of the flag is never told, so that no command line clears a list
  (`lists_only_grow`).

## 6. What the seeded tests show

`tools/mutate.py` edits the model in a scratch copy and reports which theorems no longer build. That a theorem no longer builds does not
by itself show that its statement became false: the proof script may just not fit the edited definition. In most entries of
`seeded/LOG.jsonl` the first thing to break is a lemma, so that the claimed theorems were not reached; the field `evidence` says so for each
entry. Seven entries are known to have broken only a script (`misc-4`, `misc-7`, `misc-31`, `equi-6`, `args-17`, `args-18`, `pin-21`); for the first three the
theorems were tightened, for the others the claim stays true. Entries that survived are marked as such. Errors about a declaration as a whole
are located at its comment; up to `mix-16` the tool named the theorem before it in such cases, so that single names in `theorems_failed` may be
those of the neighbour above. Whether an entry was rejected is not affected.

`tools/automut.py` edits mechanically: a comparison, a constant, an operator or two neighbouring cases of a definition chosen at random. Its
entries have ids `auto…`. Survivors were looked at one by one: either a theorem was tightened (`theorems_tightened`), or the edited program does
the same, or it differs only where no claim speaks; `evidence` says which. Of the 1878 edits tried in ten runs, 624 are not in the log, since
the edited definition itself did not compile (a missing case, a wrong type), so that there was no program to test; the other 1254 are.
