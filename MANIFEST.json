{
 "claims": [
  {
   "property": "C01",
   "status": "partial",
   "theorems": [
    "Verif.Hash.sha256_standard_partial",
    "Verif.Hash.sha256_trace_refines",
    "Verif.Hash.sha256_panics_63",
    "Verif.Hash.sha256_not_standard"
   ],
   "note": "FIPS 180-4 digest for every message < 2^61 bytes except lengths 63 mod 64, where the code panics (negation proved)."
  },
  {
   "property": "C02",
   "status": "proved",
   "theorems": [
    "Verif.Hash.sha256_chunking",
    "Verif.Hash.sha256_trace_refines"
   ],
   "note": "Exact state equality for every sequence of push/push_zero."
  },
  {
   "property": "C03",
   "status": "proved",
   "theorems": [
    "Verif.Hash.sha256_reusable",
    "Verif.Hash.sha256_trace_refines"
   ],
   "note": "Every history of calls refines a reference object."
  },
  {
   "property": "C04",
   "status": "partial",
   "theorems": [
    "Verif.Hash.hmac_rfc2104_partial",
    "Verif.Hash.hmac_trace_refines_partial",
    "Verif.Hash.hmac_panics_63",
    "Verif.Hash.hmac_new_panics_127"
   ],
   "note": "RFC 2104 for every key/message except where SHA-256 panics (lengths 63 mod 64; negation proved)."
  },
  {
   "property": "C05",
   "status": "proved",
   "theorems": [
    "Verif.Hash.hmac_reusable",
    "Verif.Hash.hmac_reusable_any",
    "Verif.Hash.hmac_trace_refines_partial"
   ],
   "note": "For every key on which creation succeeds and every history without panic before; where panics happen is stated by C04 and C73."
  },
  {
   "property": "C06",
   "status": "proved",
   "theorems": [
    "Verif.Hash.to_hex_faithful",
    "Verif.Hash.to_hex_injective"
   ],
   "note": ""
  },
  {
   "property": "C07",
   "status": "proved",
   "theorems": [
    "Verif.Rng.splitmix64_out_eq_iff",
    "Verif.Rng.splitmix64_out_surjective",
    "Verif.Rng.mix64_bijective"
   ],
   "note": "Outputs repeat exactly with period 2^64 and cover every value."
  },
  {
   "property": "C08",
   "status": "proved",
   "theorems": [
    "Verif.Rng.mixg_quality",
    "Verif.Rng.split_gamma_quality"
   ],
   "note": ""
  },
  {
   "property": "C09",
   "status": "proved",
   "theorems": [
    "Verif.Rng.mix64_splitmix64_agree",
    "Verif.Rng.split_advances_two",
    "Verif.Rng.split_child",
    "Verif.Rng.next32_advances"
   ],
   "note": ""
  },
  {
   "property": "C10",
   "status": "proved",
   "theorems": [
    "Verif.Rng.xo_state_nonzero",
    "Verif.Rng.xo_next_injective",
    "Verif.Rng.xo_next_surjective",
    "Verif.Rng.xo_seed_verbatim"
   ],
   "note": ""
  },
  {
   "property": "C11",
   "status": "proved",
   "theorems": [
    "Verif.Rng.jump128_is_2_128_calls",
    "Verif.Rng.jump192_is_2_192_calls",
    "Verif.Rng.jumps_commute"
   ],
   "note": "Polynomial arithmetic over GF(2), evaluated by the kernel."
  },
  {
   "property": "C12",
   "status": "partial",
   "theorems": [
    "Verif.Rng.from_splitmix64_first_partial",
    "Verif.Rng.from_splitmix64_not_successive",
    "Verif.Rng.mix64_0_not_successive",
    "Verif.Rng.mix64_0_nonzero",
    "Verif.Rng.with_seed_repeat"
   ],
   "note": "False of the code: the array expression is evaluated once, so all four words are equal (negation proved for every generator); the first word is as claimed."
  },
  {
   "property": "C13",
   "status": "proved",
   "theorems": [
    "Verif.Str.cmp_natural_eq_iff",
    "Verif.Str.cmp_natural_antisymm",
    "Verif.Str.str_order"
   ],
   "note": ""
  },
  {
   "property": "C14",
   "status": "partial",
   "theorems": [
    "Verif.Str.cmp_natural_trans_partial",
    "Verif.Str.cmp_natural_numeric",
    "Verif.Str.cmp_natural_not_transitive",
    "Verif.Str.str_order",
    "Verif.Str.cmp_natural_sortable_trans",
    "Verif.Str.fits_sortable",
    "Verif.Str.cmp_natural_cycle",
    "Verif.Str.cmp_natural_sortable_iff"
   ],
   "note": "Not transitive in general (negation proved). The boundary is exact: transitive on strings whose runs of numeric characters fit u64 or have a text not before nineteen nines; every other string is on a cycle with two of those. The cycle theorem assumes of Unicode that only the digits are numeric among the characters up to '9'."
  },
  {
   "property": "C15",
   "status": "proved",
   "theorems": [
    "Verif.Str.symbolize_is_symbol",
    "Verif.Str.symbolize_fixes_symbols",
    "Verif.Str.symbolize_idempotent",
    "Verif.Str.symbolize_charwise"
   ],
   "note": ""
  },
  {
   "property": "C16",
   "status": "proved",
   "theorems": [
    "Verif.Ffi.bswap_copy_reverses",
    "Verif.Ffi.bswap_copy_involutive",
    "Verif.Ffi.endian_raw_roundtrip",
    "Verif.Ffi.endian_native_roundtrip",
    "Verif.Ffi.endian_wrapper_roundtrip",
    "Verif.Ffi.bigEndian_memory",
    "Verif.Ffi.littleEndian_memory",
    "Verif.Ffi.endian_compare",
    "Verif.Ffi.endian_eq_iff_bytes",
    "Verif.Ffi.endian_nonzero"
   ],
   "note": "All widths, both hosts."
  },
  {
   "property": "C17",
   "status": "proved",
   "theorems": [
    "Verif.Ffi.tagged_new",
    "Verif.Ffi.tagged_history"
   ],
   "note": ""
  },
  {
   "property": "C18",
   "status": "proved",
   "theorems": [
    "Verif.Args.parse_refines",
    "Verif.Args.compile_perm",
    "Verif.Args.parse_selects",
    "Verif.Args.plain_words",
    "Verif.Args.isUtf8_iff"
   ],
   "note": "Any sorter and searcher with the documented contract, any report behaviour."
  },
  {
   "property": "C19",
   "status": "proved",
   "theorems": [
    "Verif.Args.parse_refines",
    "Verif.Args.every_argument_once",
    "Verif.Args.reports_are_faithful",
    "Verif.Args.reports_in_order"
   ],
   "note": ""
  },
  {
   "property": "C20",
   "status": "partial",
   "theorems": [
    "Verif.Args.flags_on_path_partial",
    "Verif.Args.flags_on_path_complete_partial",
    "Verif.Args.flag_reports_come_from_lookup",
    "Verif.Args.flag_of_unselected_command",
    "Verif.Args.gap_leaks",
    "Verif.Args.gap_otherwise",
    "Verif.Args.lookup_on_path_iff",
    "Verif.Args.gap_reported",
    "Verif.Args.flags_on_path_iff"
   ],
   "note": "Exact: where the words so far are a registered path it holds, hence in every run if there is a command at every node of the tree. Elsewhere the flags of the first command that continues the words are accepted as well, although it was not entered, and no others; so it holds in all runs if and only if the first command behind every gap has no flags (flags_on_path_iff)."
  },
  {
   "property": "C21",
   "status": "proved",
   "theorems": [
    "Verif.Args.parse_refines",
    "Verif.Args.double_dash",
    "Verif.Args.after_double_dash"
   ],
   "note": ""
  },
  {
   "property": "C22",
   "status": "proved",
   "theorems": [
    "Verif.Args.parse_refines",
    "Verif.Args.flag_table",
    "Verif.Args.shape_flag",
    "Verif.Args.shape_flag_value",
    "Verif.Args.shape_terminator"
   ],
   "note": ""
  },
  {
   "property": "C23",
   "status": "proved",
   "theorems": [
    "Verif.Args.ancestors_spec"
   ],
   "note": "Distinct paths."
  },
  {
   "property": "C24",
   "status": "proved",
   "theorems": [
    "Verif.Args.help_writes_help_text",
    "Verif.Args.no_help_without_request",
    "Verif.Args.section_width",
    "Verif.Args.width_in_characters",
    "Verif.Args.children_spec",
    "Verif.Args.help_report_last"
   ],
   "note": "Distinct paths; any writer, including failing ones."
  },
  {
   "property": "C25",
   "status": "proved",
   "theorems": [
    "Verif.Args.bool_holds_last_toggle",
    "Verif.Args.optUnit_holds_last_toggle",
    "Verif.Args.osStr_holds_last",
    "Verif.Args.optOsStr_holds_last",
    "Verif.Args.str_holds_last_valid",
    "Verif.Args.optStr_holds_last_valid",
    "Verif.Args.vecOsStr_collects",
    "Verif.Args.optVecOsStr_collects",
    "Verif.Args.vecStr_collects",
    "Verif.Args.optVecStr_collects",
    "Verif.Args.sharedCell_step",
    "Verif.Args.sharedCell_same",
    "Verif.Args.cmdVecOsStr_collects",
    "Verif.Args.cmdOptVecOsStr_collects",
    "Verif.Args.cmdVecStr_collects",
    "Verif.Args.cmdOptVecStr_collects",
    "Verif.Args.cmdUnit_rejects",
    "Verif.Args.vecError_collects",
    "Verif.Args.isUtf8_iff"
   ],
   "note": "All implementations in report.rs, any error report, including ones that stop."
  },
  {
   "property": "C26",
   "status": "proved",
   "theorems": [
    "Verif.Dbus.accepts_iff",
    "Verif.Dbus.types_distinct"
   ],
   "note": "Up to 2^61-1 bytes; a dict entry outside of an array is a complete type of the grammar used by the code."
  },
  {
   "property": "C27",
   "status": "proved",
   "theorems": [
    "Verif.Dbus.new_returns",
    "Verif.Dbus.size_asked",
    "Verif.Dbus.parse_returns",
    "Verif.Dbus.parse_hangs",
    "Verif.Dbus.parse_small"
   ],
   "note": "For the buffer size the API asks for. For other sizes: a buffer with a partial last node hangs, one too small panics (proved)."
  },
  {
   "property": "C28",
   "status": "partial",
   "theorems": [
    "Verif.Dbus.prints_back",
    "Verif.Dbus.compares",
    "Verif.Dbus.hash_prefix_free",
    "Verif.Dbus.len_partial",
    "Verif.Dbus.len_wrong"
   ],
   "note": "Elements, text, equality, order and hash for every signature; the length only up to 31 elements, it is six times too large beyond (negation proved)."
  },
  {
   "property": "C29",
   "status": "proved",
   "theorems": [
    "Verif.Dbus.prefix_code"
   ],
   "note": ""
  },
  {
   "property": "C30",
   "status": "proved",
   "theorems": [
    "Verif.Dbus.sub_signature",
    "Verif.Dbus.move_down",
    "Verif.Dbus.at_member",
    "Verif.Dbus.at_root",
    "Verif.Dbus.at_close",
    "Verif.Dbus.at_end",
    "Verif.Dbus.every_index",
    "Verif.Dbus.members_adjacent",
    "Verif.Dbus.single_steps"
   ],
   "note": "All positions of all signatures, also of sub-signatures of sub-signatures."
  },
  {
   "property": "C31",
   "status": "partial",
   "theorems": [
    "Verif.Dbus.summary",
    "Verif.Dbus.unsupported_partial",
    "Verif.Dbus.empty_struct_unmarked",
    "Verif.Dbus.misaligned_partial",
    "Verif.Dbus.misaligned_root",
    "Verif.Dbus.root_struct_marked",
    "Verif.Dbus.variant_unmarked",
    "Verif.Dbus.variant_flag",
    "Verif.Dbus.alignment_meaning",
    "Verif.Dbus.fixed_meaning",
    "Verif.Dbus.dynamic_meaning",
    "Verif.Dbus.misaligned_meaning_partial"
   ],
   "note": "Dynamic, handle, maybe and both alignments exactly; the unsupported flag is missing on empty structs, and the alignment-dependent flag is wrong for structures and dict entries at the root (witnesses proved; misaligned_root says what it is there). The *_meaning theorems tie the flags to the marshalled bytes of values."
  },
  {
   "property": "C32",
   "status": "proved",
   "theorems": [
    "Verif.Dbus.code_spec",
    "Verif.Dbus.fromCode_iff",
    "Verif.Dbus.fromId_iff",
    "Verif.Dbus.table_consistent",
    "Verif.Dbus.pair_symm",
    "Verif.Dbus.flags_spec",
    "Verif.Dbus.sizes_spec",
    "Verif.Dbus.set_clear_spec",
    "Verif.Dbus.gvar_spec",
    "Verif.Dbus.node_spec",
    "Verif.Dbus.with_spec",
    "Verif.Dbus.str_spec",
    "Verif.Dbus.all_any_spec"
   ],
   "note": ""
  },
  {
   "property": "C33",
   "status": "partial",
   "theorems": [
    "Verif.Dbus.number_bytes",
    "Verif.Dbus.encoder_refines",
    "Verif.Dbus.committed_value",
    "Verif.Dbus.encodes_partial",
    "Verif.Dbus.encodes_vec_partial",
    "Verif.Dbus.long_variant",
    "Verif.Dbus.long_variants"
   ],
   "note": "Every history on every writer; what is committed always is the marshalled form of a value of the signature. Variants of types with 32 codes or more are never accepted: up to 42 codes the call panics, and longer ones are refused (proved for all of them, on every writer), since Sig::len is wrong; the encoder has no calls for the types y b n i x d h."
  },
  {
   "property": "C34",
   "status": "proved",
   "theorems": [
    "Verif.Dbus.rejected",
    "Verif.Dbus.rejected_erased",
    "Verif.Dbus.answers",
    "Verif.Dbus.encoder_refines"
   ],
   "note": ""
  },
  {
   "property": "C35",
   "status": "partial",
   "theorems": [
    "Verif.Dbus.number_bytes",
    "Verif.Dbus.decodes_partial",
    "Verif.Dbus.round_trip_partial",
    "Verif.Dbus.more_partial",
    "Verif.Dbus.more_wrong"
   ],
   "note": "Every reader, every way to read along the type, encoder to decoder round trip. The decoder has calls for q s g a only. The end of arrays is not reported where they end: more() compares the absolute offset with the length (proved in general and as witness)."
  },
  {
   "property": "C36",
   "status": "proved",
   "theorems": [
    "Verif.Io.read_spec",
    "Verif.Io.slice_read",
    "Verif.Io.write_spec",
    "Verif.Io.fill_spec",
    "Verif.Io.align_spec",
    "Verif.Io.align_panics",
    "Verif.Io.align_31",
    "Verif.Io.padding_spec",
    "Verif.Io.vec_write",
    "Verif.Io.vec_commit",
    "Verif.Io.writeIter_spec",
    "Verif.Io.put_spec",
    "Verif.Io.vec_not_appending",
    "Verif.Io.writeIter_misplaces"
   ],
   "note": "Any implementation of the traits. write_iter needs maps that are not longer than asked for (witness proved otherwise). Writing to a vector that is not empty is broken (witness proved)."
  },
  {
   "property": "C37",
   "status": "proved",
   "theorems": [
    "Verif.Io.map_while_call",
    "Verif.Io.map_while_resumes",
    "Verif.Io.map_while_finishes",
    "Verif.Io.scan_first",
    "Verif.Io.slice_streams",
    "Verif.Io.arrivals_streams",
    "Verif.Io.slice_advance",
    "Verif.Io.stream_map",
    "Verif.Io.stream_write",
    "Verif.Io.stream_remap",
    "Verif.Io.map_while_at_max",
    "Verif.Io.map_while_beyond_max",
    "Verif.Io.vec_map_short",
    "Verif.Io.vec_map_hint"
   ],
   "note": "Stateful predicates; any arrival pattern. Calls starting at the maximum panic (proved), hence start < max is assumed."
  },
  {
   "property": "C38",
   "status": "proved",
   "theorems": [
    "Verif.Json.pieces_push",
    "Verif.Json.chars_push",
    "Verif.Json.pieces_parse",
    "Verif.Json.parse_outcome",
    "Verif.Json.tokens_iff"
   ],
   "note": "Every handler, including ones that stop."
  },
  {
   "property": "C39",
   "status": "proved",
   "theorems": [
    "Verif.Json.push_total",
    "Verif.Json.end_resets",
    "Verif.Json.status_done",
    "Verif.Json.parse_outcome"
   ],
   "note": "Every reachable state, every handler."
  },
  {
   "property": "C40",
   "status": "proved",
   "theorems": [
    "Verif.Json.source_text"
   ],
   "note": ""
  },
  {
   "property": "C41",
   "status": "proved",
   "theorems": [
    "Verif.Json.digit_iff",
    "Verif.Json.number_iff",
    "Verif.Json.number_prefix"
   ],
   "note": ""
  },
  {
   "property": "C42",
   "status": "proved",
   "theorems": [
    "Verif.Json.hex_iff",
    "Verif.Json.string_iff",
    "Verif.Json.char_written"
   ],
   "note": "Both directions: error-free strings are those of the grammar, and the value is that of every spelling."
  },
  {
   "property": "C43",
   "status": "partial",
   "theorems": [
    "Verif.Json.Bytes.control_reported_partial",
    "Verif.Json.Bytes.control_order",
    "Verif.Json.Bytes.control_1f_accepted"
   ],
   "note": "All control characters but U+001F, which is accepted (witness proved)."
  },
  {
   "property": "C44",
   "status": "partial",
   "theorems": [
    "Verif.Json.Bytes.complete_partial",
    "Verif.Json.Bytes.complete_right_iff",
    "Verif.Json.Bytes.complete_cases",
    "Verif.Json.Bytes.complete_never_ends",
    "Verif.Json.Bytes.complete_panics",
    "Verif.Json.Bytes.complete_cuts"
   ],
   "note": "Holds exactly if nothing is left, or one digit (proved as an equivalence). White space, words and strings are reported forever; numbers with a sign, fraction or exponent end in a panic; longer numbers lose all but the first digit (witnesses proved)."
  },
  {
   "property": "C45",
   "status": "proved",
   "theorems": [
    "Verif.Json.Bytes.buffering_irrelevant",
    "Verif.Json.Bytes.pop_next"
   ],
   "note": ""
  },
  {
   "property": "C46",
   "status": "partial",
   "theorems": [
    "Verif.Json.Stream.accepts_partial",
    "Verif.Json.Stream.json_accepted_partial",
    "Verif.Json.Stream.sparse_is_json",
    "Verif.Json.Stream.json_rejected",
    "Verif.Json.Stream.nonjson_accepted",
    "Verif.Json.Stream.not_exact",
    "Verif.Json.Stream.space_ignored"
   ],
   "note": "The accepted language is characterised exactly, as is the set of JSON values that is accepted; it is not JSON, since scalars never change the state of the decoder (witnesses proved in both directions)."
  },
  {
   "property": "C47",
   "status": "proved",
   "theorems": [
    "Verif.Json.Stream.nested",
    "Verif.Json.Stream.accepted_closed",
    "Verif.Json.Stream.closed_accepted",
    "Verif.Json.Stream.after_close",
    "Verif.Json.Stream.rejected_unchanged",
    "Verif.Json.Stream.rejected_ignored",
    "Verif.Json.Stream.error_rejected",
    "Verif.Json.Stream.pop_run"
   ],
   "note": "Every token sequence, including rejected tokens."
  },
  {
   "property": "C48",
   "status": "proved",
   "theorems": [
    "Verif.Bin.sum16_eq",
    "Verif.Bin.sum16_odd",
    "Verif.Bin.sum16_append",
    "Verif.Bin.sum16_setWord",
    "Verif.Bin.checksum",
    "Verif.Bin.change_noticed",
    "Verif.Bin.swap_unnoticed",
    "Verif.Bin.stub_header"
   ],
   "note": "Every byte string and every even position; the checksum is also shown to be the only one."
  },
  {
   "property": "C49",
   "status": "proved",
   "theorems": [
    "Verif.Bin.fields_placed",
    "Verif.Bin.fields_disjoint",
    "Verif.Bin.struct_fields",
    "Verif.Bin.struct_bytes",
    "Verif.Bin.dos_layout",
    "Verif.Bin.dos_import",
    "Verif.Bin.dos_export",
    "Verif.Bin.field_native",
    "Verif.Bin.pe_layout",
    "Verif.Bin.pe_oneToOne",
    "Verif.Bin.elf_layout",
    "Verif.Bin.elf_ident",
    "Verif.Bin.elf_oneToOne",
    "Verif.Bin.stub_code"
   ],
   "note": "Layout rules of repr(C) for every field list; the structures against the published tables, ELF for every alignment of primitive integers; every content."
  },
  {
   "property": "C50",
   "status": "proved",
   "theorems": [
    "Verif.Ffi.container_of_field",
    "Verif.Ffi.field_of_container",
    "Verif.Ffi.field_of_address"
   ],
   "note": ""
  },
  {
   "property": "C51",
   "status": "proved",
   "theorems": [
    "Verif.Rng.xo_full_period",
    "Verif.Rng.xo_visits_everything_once",
    "Verif.Rng.jump128_streams_disjoint",
    "Verif.Rng.streams_disjoint"
   ],
   "note": "Full period via Pratt certificates for the factors of 2^256-1."
  },
  {
   "property": "C52",
   "status": "proved",
   "theorems": [
    "Verif.Str.some_spec"
   ],
   "note": ""
  },
  {
   "property": "C53",
   "status": "partial",
   "theorems": [
    "Verif.Dbus.problem_real",
    "Verif.Dbus.first_problem_partial",
    "Verif.Dbus.first_problem_iff",
    "Verif.Dbus.problem_late",
    "Verif.Dbus.err_empty_iff",
    "Verif.Dbus.err_sequence_iff",
    "Verif.Dbus.err_incomplete_iff",
    "Verif.Dbus.err_invalid_iff",
    "Verif.Dbus.err_unknown_iff",
    "Verif.Dbus.err_unpaired_iff",
    "Verif.Dbus.err_mispaired_iff",
    "Verif.Dbus.err_mispaired_index",
    "Verif.Dbus.err_mispaired_index_is",
    "Verif.Dbus.err_dict_iff"
   ],
   "note": "Members of dict entries are only looked at when the entry is closed, so that the byte pointed to is the first problem if and only if the entries before it begin as they have to (first_problem_iff; witness otherwise). The position of the mispaired element is exact; the other index reported with it (that of the opening element) is wrong in general (witness proved; err_mispaired_index_is says what it is in every case)."
  },
  {
   "property": "C54",
   "status": "partial",
   "theorems": [
    "Verif.Dbus.decoder_refines",
    "Verif.Dbus.dec_rejected",
    "Verif.Dbus.slice_refuses",
    "Verif.Dbus.machine_agrees",
    "Verif.Dbus.machine_safe_partial",
    "Verif.Dbus.length_requested",
    "Verif.Dbus.hostile_panics",
    "Verif.Dbus.hostile_starves"
   ],
   "note": "Data of less than usize::MAX bytes. Without limits of the machine: all of it, and so on machines with objects and free memory of 4 GiB. The decoder allocates as many bytes as a length in the data says before it looks for them: with 32 bits four bytes of data panic it, and with less free memory it does not return (proved)."
  },
  {
   "property": "C55",
   "status": "proved",
   "theorems": [
    "Verif.Json.space_iff",
    "Verif.Json.whitespace_iff",
    "Verif.Json.written_tokens",
    "Verif.Json.tokens_written",
    "Verif.Json.tokens_iff"
   ],
   "note": ""
  },
  {
   "property": "C56",
   "status": "proved",
   "theorems": [
    "Verif.Json.flags_relax"
   ],
   "note": ""
  },
  {
   "property": "C57",
   "status": "proved",
   "theorems": [
    "Verif.Json.Bytes.pop_no_panic",
    "Verif.Json.Bytes.cut_total",
    "Verif.Json.Bytes.cut_once",
    "Verif.Json.Bytes.pop_reports",
    "Verif.Json.Bytes.pop_reports_all",
    "Verif.Json.Bytes.pop_next",
    "Verif.Json.Bytes.sources_prefix",
    "Verif.Json.Bytes.sources_all"
   ],
   "note": "Buffers of at most isize::MAX bytes; the text itself may be longer."
  },
  {
   "property": "C58",
   "status": "proved",
   "theorems": [
    "Verif.Json.Bytes.string_spelled"
   ],
   "note": ""
  },
  {
   "property": "C59",
   "status": "partial",
   "theorems": [
    "Verif.Json.Bytes.string_contents_partial",
    "Verif.Json.Bytes.string_contents_iff",
    "Verif.Json.Bytes.string_contents_repeated"
   ],
   "note": "Holds exactly if no unescaped control character follows an escape (string_contents_iff); else the text before it is repeated (witness proved)."
  },
  {
   "property": "C60",
   "status": "proved",
   "theorems": [
    "Verif.Json.Bytes.number_spelled"
   ],
   "note": ""
  },
  {
   "property": "C61",
   "status": "proved",
   "theorems": [
    "Verif.Ffi.Abi.integer_layout",
    "Verif.Ffi.Abi.integer_offsets",
    "Verif.Ffi.Abi.wrapper_layout",
    "Verif.Ffi.Abi.integer_host_independent",
    "Verif.Ffi.Abi.marker_alignment",
    "Verif.Ffi.Abi.marker_missing",
    "Verif.Ffi.Abi.abi_published",
    "Verif.Ffi.Abi.abi_numbers",
    "Verif.Ffi.Abi.abi_target"
   ],
   "note": "Every nesting; the rules of repr(C), repr(packed) and repr(transparent) are trusted."
  },
  {
   "property": "C62",
   "status": "proved",
   "theorems": [
    "Verif.Ffi.Abi.from_native_holds",
    "Verif.Ffi.Abi.to_native_holds",
    "Verif.Ffi.Abi.raw_roundtrip",
    "Verif.Ffi.Abi.compare_numbers",
    "Verif.Ffi.Abi.integer_container",
    "Verif.Ffi.Abi.integer_take",
    "Verif.Ffi.Abi.default_holds",
    "Verif.Ffi.Abi.default_exists"
   ],
   "note": "Every nesting, every platform, every content of the padding."
  },
  {
   "property": "C63",
   "status": "partial",
   "theorems": [
    "Verif.Ffi.Abi.from_usize_spec",
    "Verif.Ffi.Abi.to_usize_partial",
    "Verif.Ffi.Abi.pointer_compare",
    "Verif.Ffi.Abi.dangling_spec",
    "Verif.Ffi.Abi.to_usize_zero",
    "Verif.Ffi.Abi.foreign_address"
   ],
   "note": "All of it but one part: with an address type that is not NonZero, a pointer can have address 0, although to_usize() is documented never to yield it (witness proved)."
  },
  {
   "property": "C64",
   "status": "proved",
   "theorems": [
    "Verif.Json.Decode.pop_no_panic",
    "Verif.Json.Decode.pop_reports",
    "Verif.Json.Decode.pop_reports_all",
    "Verif.Json.Decode.pop_next",
    "Verif.Json.Decode.buffering_irrelevant",
    "Verif.Json.Decode.nested",
    "Verif.Json.Decode.reads_all"
   ],
   "note": "Buffers of at most isize::MAX bytes; the text itself may be longer."
  },
  {
   "property": "C65",
   "status": "partial",
   "theorems": [
    "Verif.Json.Decode.json_partial",
    "Verif.Json.Decode.value_is_json",
    "Verif.Json.Decode.json_rejected",
    "Verif.Json.Decode.scalar_pending"
   ],
   "note": "Proved to hold exactly for the texts of scalars and of sparse values; `[1,2]` is a JSON text for which an error is reported, and a number or word at the end of the input is never reported (both proved)."
  },
  {
   "property": "C66",
   "status": "proved",
   "theorems": [
    "Verif.Args.targets_hold",
    "Verif.Args.command_line_understood",
    "Verif.Args.fitting_command_line_accepted",
    "Verif.Args.help_of_selected_command"
   ],
   "note": "Every schema with distinct paths and flag names (for the second part); targets of the types that the library provides, shared or not."
  },
  {
   "property": "C67",
   "status": "proved",
   "theorems": [
    "Verif.Rng.xo_equidistributed",
    "Verif.Rng.xo_every_number_drawn",
    "Verif.Rng.splitmix64_every_number_once",
    "Verif.Rng.splitmix64_32_equidistributed"
   ],
   "note": "All reachable generators; counted as cardinalities of sets of positions."
  },
  {
   "property": "C68",
   "status": "proved",
   "theorems": [
    "Verif.Wrap.mown_ownership_irrelevant",
    "Verif.Wrap.mown_as_values",
    "Verif.Wrap.mown_lawful",
    "Verif.Wrap.mown_as_owned",
    "Verif.Wrap.mown_clone",
    "Verif.Wrap.identity_lawful",
    "Verif.Wrap.identity_same_place",
    "Verif.Wrap.ptr_lawful",
    "Verif.Wrap.marker_lawful"
   ],
   "note": "Any operators of the wrapped type, also for pointers with metadata."
  },
  {
   "property": "C69",
   "status": "proved",
   "theorems": [
    "Verif.Wrap.deref_roundtrip",
    "Verif.Wrap.own_no_ub",
    "Verif.Wrap.own_destroyed_once",
    "Verif.Wrap.own_values",
    "Verif.Wrap.own_wrong_kind"
   ],
   "note": "The functions of the standard library on raw pointers are modelled as documented; places are not reused."
  },
  {
   "property": "C70",
   "status": "partial",
   "theorems": [
    "Verif.Bin.Consts.errno_published",
    "Verif.Bin.Consts.errno_distinct",
    "Verif.Bin.Consts.errno_libc",
    "Verif.Bin.Consts.errno_everywhere",
    "Verif.Bin.Consts.elf_published_partial",
    "Verif.Bin.Consts.elf_more",
    "Verif.Bin.Consts.elf_wrong",
    "Verif.Bin.Consts.elf_distinct_partial",
    "Verif.Bin.Consts.pe_published_partial",
    "Verif.Bin.Consts.pe_wrong",
    "Verif.Bin.Consts.flags_distinct"
   ],
   "note": "Error codes: all of it. ELF and PE: all constants for which published values were available, except five machines, the magic number of PE32+ and six subsystems, which are wrong in the code (proved). Published values: C headers for error codes and ELF (three ELF names follow other documents, see SpecConsts); for PE, MS-DOS and the ELF names missing in the header written down from memory, no document was at hand. Constants without an available published value are only transcribed."
  },
  {
   "property": "C71",
   "status": "proved",
   "theorems": [
    "Verif.Text.any_opaque",
    "Verif.Text.debug_only",
    "Verif.Text.display_only",
    "Verif.Text.error_display_only",
    "Verif.Text.error_exposed",
    "Verif.Text.prints_any",
    "Verif.Text.prints_static_any",
    "Verif.Text.prints_debug",
    "Verif.Text.prints_static_debug",
    "Verif.Text.prints_display",
    "Verif.Text.prints_static_display",
    "Verif.Text.prints_error",
    "Verif.Text.prints_static_error",
    "Verif.Text.failure_told",
    "Verif.Text.kinds_told",
    "Verif.Text.box_as_fold"
   ],
   "note": "About the traits that the type implements; the enumeration itself is public."
  },
  {
   "property": "C72",
   "status": "proved",
   "theorems": [
    "Verif.Text.osstr_roundtrip",
    "Verif.Text.osstr_from_utf8",
    "Verif.Text.osstr_to_str",
    "Verif.Text.write_str_complete",
    "Verif.Text.write_str_returns",
    "Verif.Text.write_str_stops"
   ],
   "note": "write_all of the standard library is modelled as documented; write_fmt is C108; to_string_lossy is C119."
  },
  {
   "property": "C73",
   "status": "proved",
   "theorems": [
    "Verif.Hash.hmac_any_engine",
    "Verif.Hash.hmac_new_panics_iff",
    "Verif.Hash.hash_any_engine",
    "Verif.Hash.default_push_zero_is_push"
   ],
   "note": "An engine may panic on messages of its choice, as long as a message it takes can also be pushed in pieces."
  },
  {
   "property": "C74",
   "status": "proved",
   "theorems": [
    "Verif.Ffi.Memory.transmute_copies",
    "Verif.Ffi.Memory.bswap_reverses",
    "Verif.Ffi.Memory.as_bytes_shows",
    "Verif.Ffi.Memory.eq_compares",
    "Verif.Ffi.Memory.as_bytes_mut_sets",
    "Verif.Ffi.Memory.object_models_agree"
   ],
   "note": "Alignments are powers of two. The last theorem says that the models of C16 and C62, where objects have no addresses, are the same functions."
  },
  {
   "property": "C75",
   "status": "partial",
   "theorems": [
    "Verif.Dbus.ende_encodes",
    "Verif.Dbus.ende_decodes",
    "Verif.Dbus.ende_json",
    "Verif.Dbus.inline_idle",
    "Verif.Dbus.inline_copies_nothing"
   ],
   "note": "The D-Bus formats: all of it but inlining. The format Json panics. Inlining never copies anything: it succeeds without effect for every type, or panics (proved)."
  },
  {
   "property": "C76",
   "status": "proved",
   "theorems": [
    "Verif.Cfg.cond_first",
    "Verif.Cfg.cond_else",
    "Verif.Cfg.cond_one"
   ],
   "note": "Conditions are evaluated as the language reference says (Pred.Holds); the recursion limit of macros is not modelled."
  },
  {
   "property": "C77",
   "status": "partial",
   "theorems": [
    "Verif.Cfg.abi_target_is",
    "Verif.Cfg.abi_target_broken_partial",
    "Verif.Cfg.abi_fits_iff",
    "Verif.Cfg.abi_target_fits_partial",
    "Verif.Cfg.abi_target_wrong",
    "Verif.Cfg.abi_target_broken",
    "Verif.Cfg.linux_target_is",
    "Verif.Cfg.linux_target_fits_partial",
    "Verif.Cfg.linux_native_no_fallback",
    "Verif.Cfg.libc_iff",
    "Verif.Cfg.elfn_is",
    "Verif.Cfg.elfn_words",
    "Verif.Cfg.addresses_are"
   ],
   "note": "elfn and native addresses: all of it. target fits exactly on the little-endian platforms with the usual widths; on big-endian aarch64 and on x32 it exists and does not fit, on Windows with MSVC on x86 and x86_64 the crate does not compile, and native never falls back to libc (all proved)."
  },
  {
   "property": "C78",
   "status": "proved",
   "theorems": [
    "Verif.Json.Text.json_iff",
    "Verif.Json.Text.marks_tell",
    "Verif.Json.Text.json_unique",
    "Verif.Json.Text.json_flags",
    "Verif.Json.Text.json_pieces",
    "Verif.Json.Text.json_exists",
    "Verif.Json.Text.json_written",
    "Verif.Json.Text.write_inj",
    "Verif.Json.digit_iff",
    "Verif.Json.hex_iff",
    "Verif.Json.space_iff"
   ],
   "note": "Numbers are values as written: 1.0 and 1.00 are different. Repeated member names are kept."
  },
  {
   "property": "C79",
   "status": "partial",
   "theorems": [
    "Verif.Wrap.pin_ptr",
    "Verif.Wrap.pin_sound_partial",
    "Verif.Wrap.pin_box_dangles",
    "Verif.Wrap.pin_not_sound",
    "Verif.Wrap.pin_rejected",
    "Verif.Wrap.pin_roundtrip",
    "Verif.Wrap.pin_deref_alive"
   ],
   "note": "The functions take the pin by value and drop the smart pointer when they return: for references all of it holds; for a Box the pointer always dangles (proved), for Rc and Arc exactly if it was the last owner (pin_ptr). Pinning itself (objects are not moved) is not modelled: objects keep their place in the model."
  },
  {
   "property": "C80",
   "status": "partial",
   "theorems": [
    "Verif.Dbus.literal_iff",
    "Verif.Dbus.try_make_partial",
    "Verif.Dbus.static_small",
    "Verif.Dbus.static_large"
   ],
   "note": "Literals: all of it. For other buffers it holds exactly if the size is the one the API asks for. In larger ones the rest stays uninitialised, or the call does not return; smaller ones panic (all proved, for every size)."
  },
  {
   "property": "C81",
   "status": "partial",
   "theorems": [
    "Verif.Dbus.iterates",
    "Verif.Dbus.moves_stay",
    "Verif.Dbus.hint_is",
    "Verif.Dbus.hint_exact_partial",
    "Verif.Dbus.hint_wrong"
   ],
   "note": "Elements, fusedness and moves: all of it. The hint is exact on signatures of at most 31 codes and all signatures taken from them, and six times too large on others; after move_to() past the end asking for it overflows (all proved)."
  },
  {
   "property": "C82",
   "status": "partial",
   "theorems": [
    "Verif.Args.reports_fit_mode",
    "Verif.Args.override_or_extend_partial",
    "Verif.Args.negated_values",
    "Verif.Args.lists_only_grow"
   ],
   "note": "All of it but starting over: `no-` with a flag that takes values is an error that its report never sees, and no command line clears a list of the library's types (proved for every schema, binding and command line)."
  },
  {
   "property": "C83",
   "status": "proved",
   "theorems": [
    "Verif.Types.subtyping_preorder",
    "Verif.Types.variance_of_test_types",
    "Verif.Types.sub_and_super",
    "Verif.Types.markers_invariant",
    "Verif.Types.pointers_like_mut",
    "Verif.Types.wrappers_like_inner",
    "Verif.Types.pointers_threads",
    "Verif.Types.others_threads",
    "Verif.Types.markers_are_empty",
    "Verif.Types.pointers_transparent"
   ],
   "note": "About the declarations of these types. The rules of the language for subtyping, Send, Sync and layout are in the specification (Types/SpecTypes.lean) and trusted; trait objects and generic parameters are modelled as arbitrary types."
  },
  {
   "property": "C84",
   "status": "proved",
   "theorems": [
    "Verif.Types.brands_invariant",
    "Verif.Types.brand_stays",
    "Verif.Types.brands_unique",
    "Verif.Types.brands_originate"
   ],
   "note": "Safe programs. Types built from references, raw pointers, arrays, cells and structures around a brand; that a closure only knows its brand to be alive is the rule of the language for `for<'any>`."
  },
  {
   "property": "C85",
   "status": "partial",
   "theorems": [
    "Verif.Wrap.deref_roundtrip",
    "Verif.Wrap.once_reference_partial",
    "Verif.Wrap.once_as_reference",
    "Verif.Wrap.once_not_reference"
   ],
   "note": "Dereferencing holds. The operators are derived from the pointer: they agree with those of references only if no two places hold equal values, or memory is sorted (proved as equivalences)."
  },
  {
   "property": "C86",
   "status": "partial",
   "theorems": [
    "Verif.Args.edited_partial",
    "Verif.Args.edited_in_order_partial",
    "Verif.Args.commands_entered_iff",
    "Verif.Args.flags_found_iff",
    "Verif.Args.all_found_iff",
    "Verif.Args.edit_panics",
    "Verif.Args.edited_flag_lost",
    "Verif.Args.edited_command_lost",
    "Verif.Args.edited_link_kept"
   ],
   "note": "Holds for every history that keeps the names of flags and the paths of commands, and for every history that leaves the schema in order and its links right. It is proved that with the search of the standard library all (differently named) commands and flags are found only if the schema is still in order. Sets are sorted and linked only when they are made: a replaced flag or command with another name may not be found, or a flag be accepted for a command it does not belong to (proved, with the search of the standard library)."
  },
  {
   "property": "C87",
   "status": "partial",
   "theorems": [
    "Verif.Dbus.requests_partial",
    "Verif.Dbus.total_partial",
    "Verif.Dbus.length_requested",
    "Verif.Dbus.hostile_request",
    "Verif.Dbus.decoder_depth",
    "Verif.Dbus.encoder_depth"
   ],
   "note": "The stacks are bounded by signature and data. Requests for strings are bounded by the data as long as none is missing from it; otherwise a request is as large as the length in the data says, up to 4 GiB for four bytes (proved). Time is the subject of C99."
  },
  {
   "property": "C88",
   "status": "proved",
   "theorems": [
    "Verif.Args.visits_links",
    "Verif.Args.visits_walk",
    "Verif.Args.visits_last",
    "Verif.Args.never_twice",
    "Verif.Args.links_linear"
   ],
   "note": "Visits are counted, not the time it takes to compare two paths."
  },
  {
   "property": "C89",
   "status": "partial",
   "theorems": [
    "Verif.Io.stream_history",
    "Verif.Io.stream_panics",
    "Verif.Io.keeping_needed",
    "Verif.Io.map_history_partial",
    "Verif.Io.map_deinit",
    "Verif.Io.map_commit_exposes",
    "Verif.Io.map_twice"
   ],
   "note": "Streams: all of it, if the allocator keeps what is behind the elements when a vector grows (as that of the standard library does, which is not documented; needed, proved). Maps: only for vectors that are empty and are committed to once. Otherwise safe code can leave an element uninitialised, and keeping to the contract of commit exposes uninitialised memory (both proved for every vector that is not empty)."
  },
  {
   "property": "C90",
   "status": "partial",
   "theorems": [
    "Verif.Types.coerce_same_partial",
    "Verif.Types.coerce_compiles",
    "Verif.Types.deref_differs",
    "Verif.Types.load_differs",
    "Verif.Types.box_garbage"
   ],
   "note": "Holds for all coercions that do not look through a pointer. Coercing a reference to an object with Deref, or to another reference, to one to its thin target compiles in both builds but differs: without Polonius it is the address of the object itself (proved for all of them). The coercion rules of the language are trusted; trait objects, closures and structures are left out."
  },
  {
   "property": "C91",
   "status": "partial",
   "theorems": [
    "Verif.Types.offset_checked_partial",
    "Verif.Types.offset_slice"
   ],
   "note": "Holds for types with a size. The check is an assignment of a pointer, and thereby a coercion: a field that is an array is accepted as a slice (proved). The coercion rules of the language are trusted; trait objects (accepted likewise) and lifetimes are left out."
  },
  {
   "property": "C92",
   "status": "proved",
   "theorems": [
    "Verif.Json.Text.number_value",
    "Verif.Json.Text.number_accepted",
    "Verif.Json.Text.plus_ignored",
    "Verif.Json.Text.flags_value"
   ],
   "note": "Values are rational numbers; -0 is 0 (its sign is reported, and is the same with and without extensions)."
  },
  {
   "property": "C93",
   "status": "proved",
   "theorems": [
    "Verif.Json.buffered_same",
    "Verif.Json.life_goes_on",
    "Verif.Json.memory_held",
    "Verif.Json.memory_busy",
    "Verif.Json.memory_idle",
    "Verif.Json.current_suffix",
    "Verif.Json.memory_grows"
   ],
   "note": "Each of the three buffers has at most twice the size of the current token, or 4096 bytes. How String and Vec grow and shrink is modelled after the standard library; the allocator grants what is asked for."
  },
  {
   "property": "C94",
   "status": "proved",
   "theorems": [
    "Verif.Json.Agree.both_report",
    "Verif.Json.Agree.json_both",
    "Verif.Json.Agree.bytes_json",
    "Verif.Json.Agree.same_values"
   ],
   "note": "The text is followed by a comma, colon or bracket in the stream, since the end of the input is known to be handled wrongly (C44). Also for all other texts that have tokens only for the tokenizer for characters (without the flag for plus signs), unless a keyword is directly followed by a negative number, as in null-1: proved to be the only difference."
  },
  {
   "property": "C95",
   "status": "proved",
   "theorems": [
    "Verif.Json.Next.tokenizer_next",
    "Verif.Json.Next.decoder_next",
    "Verif.Json.Next.tokenizer_progress",
    "Verif.Json.Next.decoder_progress"
   ],
   "note": "The stream must report what it was asked for (slices do, proved)."
  },
  {
   "property": "C96",
   "status": "partial",
   "theorems": [
    "Verif.Bin.Dos.stub_runs",
    "Verif.Bin.Dos.stub_ends",
    "Verif.Bin.Dos.stub_stack",
    "Verif.Bin.Dos.stub_confined_partial",
    "Verif.Bin.Dos.stub_oversteps"
   ],
   "note": "Printing and exiting: all of it. Memory: only if the program is given at least four additional paragraphs. Its header asks for none although the stack is behind the program, so that with fewer the first instruction overwrites memory of others (proved for every address it is loaded to). Trusted: the few instructions of the processor and services of DOS that are used; interrupts and services use at most the 62 bytes that are left of the stack."
  },
  {
   "property": "C97",
   "status": "partial",
   "theorems": [
    "Verif.Dbus.any_compare",
    "Verif.Dbus.sub_reparsed",
    "Verif.Dbus.any_cursor",
    "Verif.Dbus.any_summary",
    "Verif.Dbus.any_misaligned",
    "Verif.Dbus.equal_but_different",
    "Verif.Dbus.taken_variant"
   ],
   "note": "Comparing, hashing, cursors and all flags but one: all of it. The reported length of signatures taken from one of 32 codes or more is six times too large, and using one in a variant panics or is refused, however short it is (proved for all of them); the flag for position dependent types differs for structures and dict entries (witness)."
  },
  {
   "property": "C98",
   "status": "partial",
   "theorems": [
    "Verif.Json.Work.metered_same",
    "Verif.Json.Work.history_metered",
    "Verif.Json.Work.life_history",
    "Verif.Json.Work.tests_linear",
    "Verif.Json.Work.rounds_linear",
    "Verif.Json.Work.copies_linear_partial",
    "Verif.Json.Work.copies_square",
    "Verif.Json.Work.buffer_linear_partial",
    "Verif.Json.Work.capacity_bound",
    "Verif.Json.Work.idle_small",
    "Verif.Json.Work.buffer_quadratic",
    "Verif.Json.Work.buffer_no_factor"
   ],
   "note": "Looking at bytes, rounds, and what is kept when idle: all of it. Buffer and copies: linear (factor 3/2) as long as strings have no unescaped control characters; each of those may add the current token once more. After an escape sequence, a row of n control characters takes n\u00b2/2 bytes (proved for every n; no factor bounds it). Counted are calls of predicates, rounds, and bytes appended; the standard library's own work on a finished token (UTF-8 validation) is not."
  },
  {
   "property": "C99",
   "status": "proved",
   "theorems": [
    "Verif.Dbus.signature_time",
    "Verif.Dbus.encoding_same",
    "Verif.Dbus.encoding_time",
    "Verif.Dbus.encoding_linear",
    "Verif.Dbus.decoding_same",
    "Verif.Dbus.decoding_time",
    "Verif.Dbus.decoding_linear",
    "Verif.Dbus.retries_add_up"
   ],
   "note": "Signatures: at most two turns of the parser's loops per byte. Encoding: at most 2 bytes copied per byte committed if all calls are accepted and sub-encoders are committed; otherwise at most the data passed in, and 15 bytes per call. Decoding: at most (1 + refused calls) times the data, sub-decoders being committed; otherwise at most all of the data per call. Since calls start over, retrying while a string arrives byte by byte takes n\u00b2/2 bytes (proved for every n below 2^32). Counted are turns of loops, mappings and bytes copied; comparing signatures in enc_with and dec_with, UTF-8 validation and the growth of vectors are not."
  },
  {
   "property": "C100",
   "status": "proved",
   "theorems": [
    "Verif.Io.stream_moves",
    "Verif.Io.map_moves",
    "Verif.Io.stream_room",
    "Verif.Io.map_room",
    "Verif.Io.writes_moves",
    "Verif.Io.doubling_needed",
    "Verif.Io.growing_same",
    "Verif.Dbus.encoding_moves",
    "Verif.Dbus.encoding_room",
    "Verif.Json.tokenizer_moves",
    "Verif.Json.text_moves",
    "Verif.Json.text_moves_least"
   ],
   "note": "Vectors: at most 2 bytes copied per byte of the furthest end asked for. Encoding: at most 2 per byte of the encoding, if all calls are accepted and everything is committed. Tokenizer: at most 12 per byte of text, and 2 per byte that is cloned. That allocators double vectors when they grow is an assumption (Vec::reserve documents that it avoids frequent reallocations, not how), and needed: with exact growth the cost is quadratic (proved). For the tokenizer the growth policy of String and Vec is modelled after the standard library."
  },
  {
   "property": "C101",
   "status": "proved",
   "theorems": [
    "Verif.Dbus.memory_filled",
    "Verif.Dbus.memory_read",
    "Verif.Dbus.memory_part",
    "Verif.Dbus.memory_tells"
   ],
   "note": "Nodes are laid out as repr(C) demands, in the byte order of the machine. The rules for repr(C), transmute and slices from raw parts are trusted."
  },
  {
   "property": "C102",
   "status": "partial",
   "theorems": [
    "Verif.Args.clog_least",
    "Verif.Args.lookups_counted",
    "Verif.Args.word_comparisons",
    "Verif.Args.word_fast_partial",
    "Verif.Args.backing_up_bounded",
    "Verif.Args.unknown_word_fast",
    "Verif.Args.word_not_logarithmic",
    "Verif.Args.word_no_factor",
    "Verif.Args.flag_comparisons",
    "Verif.Args.flag_fast"
   ],
   "note": "Flags and unknown words: all of it. Known words: the search is logarithmic, but it finds the last of the commands that begin with the words, and then walks back over all of them one by one, so that a word takes at least as many comparisons as there are such commands (exact number proved; no factor bounds it by the logarithm). Counted are comparisons of paths and names; the binary search is that of the standard library."
  },
  {
   "property": "C103",
   "status": "proved",
   "theorems": [
    "Verif.Args.schema_preorder",
    "Verif.Args.has_tree",
    "Verif.Args.order_unique",
    "Verif.Args.subs_follow",
    "Verif.Args.levels_sorted",
    "Verif.Args.flags_sorted",
    "Verif.Args.order_needs_distinct"
   ],
   "note": "Paths have to be distinct for the first three; the order of commands with the same path is left to the sort of the standard library (proved to matter)."
  },
  {
   "property": "C104",
   "status": "proved",
   "theorems": [
    "Verif.Hash.trace_faithful",
    "Verif.Hash.hmac_trace_faithful",
    "Verif.Hash.hmac_new_trace_faithful",
    "Verif.Hash.hash_shows_lengths_only",
    "Verif.Hash.hmac_shows_lengths_only",
    "Verif.Hash.digestT_faithful",
    "Verif.Hash.macT_faithful",
    "Verif.Hash.hash_cost",
    "Verif.Hash.reset_ready",
    "Verif.Hash.hmac_cost",
    "Verif.Hash.hmac_new_cost"
   ],
   "note": "The compression function is one event: it is straight-line code with constant indices, as its model shows. What the compiler makes of the code, and caches and the like, are not modelled; comparing digests (derived equality) is not part of this."
  },
  {
   "property": "C105",
   "status": "proved",
   "theorems": [
    "Verif.Str.natural_counted",
    "Verif.Str.natural_work",
    "Verif.Str.natural_same",
    "Verif.Str.text_pairs",
    "Verif.Str.natural_reads_on",
    "Verif.Str.symbolize_allocs",
    "Verif.Str.hex_allocs"
   ],
   "note": "Counted are tests of a character's class, digits read and pairs compared. How the standard library searches, parses and compares (one character after another up to the first that decides) is trusted. The work is not bounded by the shorter string: both are split up to their first number even if their first characters differ (proved)."
  },
  {
   "property": "C106",
   "status": "partial",
   "theorems": [
    "Verif.Dbus.encodes_vec_partial",
    "Verif.Dbus.encoded_into",
    "Verif.Dbus.encodes_into",
    "Verif.Dbus.second_lost"
   ],
   "note": "Holds exactly if the vector is empty or the value takes no bytes. Otherwise, for every value and every other contents, the value is written over the beginning of the vector, the vector gets longer by its length all the same, and its last elements are uninitialised (proved): maps count from the beginning of a vector, but committing adds to its length."
  },
  {
   "property": "C107",
   "status": "partial",
   "theorems": [
    "Verif.Build.lints_partial",
    "Verif.Build.lints_passed",
    "Verif.Build.lints_right_iff",
    "Verif.Build.lints_missing",
    "Verif.Build.lints_level",
    "Verif.Build.lints_wrong",
    "Verif.Build.versions_right",
    "Verif.Build.options_partial",
    "Verif.Build.options_iff",
    "Verif.Build.polonius_ignored",
    "Verif.Build.stale"
   ],
   "note": "Lints: right if and only if no lint of the compiler itself is allowed and some lint of clippy is (as in the repository today); names need to have no commas and line breaks, and both tables have to be there. Versions: right. Options: all but polonius, which has no effect; and std of osi cannot be chosen apart from that of sys. Changes to the files of packages are not noticed, since the files that are named do not exist (all proved)."
  },
  {
   "property": "C108",
   "status": "partial",
   "theorems": [
    "Verif.Text.write_fmt_same_iff",
    "Verif.Text.write_fmt_partial",
    "Verif.Text.write_fmt_panics",
    "Verif.Text.write_fmt_text",
    "Verif.Text.write_all_calls",
    "Verif.Text.write_fmt_refused"
   ],
   "note": "Holds if and only if formatting does not fail by itself, without the writer having failed. Then write_fmt of the standard library, which is called, panics (since Rust 1.81; the package asks for 1.91), while other sinks return the error. write_fmt of the standard library is modelled as documented; writers that do not return, and panics of the writer, are the same outcome."
  },
  {
   "property": "C109",
   "status": "partial",
   "theorems": [
    "Verif.Hash.reset_after_panics_partial",
    "Verif.Hash.first_panic",
    "Verif.Hash.reset_then_right",
    "Verif.Hash.hmac_reset_after_panics",
    "Verif.Hash.hmac_first_panic",
    "Verif.Hash.wrong_digest",
    "Verif.Hash.other_panics",
    "Verif.Hash.too_much"
   ],
   "note": "With a reset: all of it, for engines and codes. Without: after a panic of finalize for lengths of 63 modulo 64, the next push goes on with the marker of the padding in the middle of the message, and finalize then returns what is no digest, without any panic (proved for every message and everything that is pushed later, with less than 2^60 bytes). A second finalize right after the panic changes nothing, and after too much data (2^61 bytes) there are no digests at all until a reset."
  },
  {
   "property": "C110",
   "status": "partial",
   "theorems": [
    "Verif.Json.never_panics",
    "Verif.Json.as_new",
    "Verif.Json.status_told",
    "Verif.Json.calm_same",
    "Verif.Json.nothing_lost_partial",
    "Verif.Json.digit_twice",
    "Verif.Json.wrong_text"
   ],
   "note": "Safety, status and starting over: all of it. Pushing again: for all texts in which no half of a surrogate pair is reported. The fourth digit of the escape sequence of such a half is kept before it is reported, so that it is in the text of the string twice if pushed again (proved for every such sequence). Panics unwind and are caught by the caller."
  },
  {
   "property": "C111",
   "status": "proved",
   "theorems": [
    "Verif.Dbus.encoder_survives",
    "Verif.Dbus.committed_survives",
    "Verif.Dbus.retried",
    "Verif.Dbus.enc_panicked",
    "Verif.Dbus.variant_panicked",
    "Verif.Dbus.commit_panicked",
    "Verif.Dbus.decoder_survives",
    "Verif.Dbus.dec_panicked",
    "Verif.Dbus.Die.commits_survive",
    "Verif.Dbus.Die.committed_despite",
    "Verif.Dbus.Die.panic_changes_nothing"
   ],
   "note": "Writers map at most what was asked for, as for C33, and signatures of variants are short or far too long, as for C33; the panics of the encoder for those in between leave it as it was as well. Panics of the writer's commit itself: the next commit tells the writer to commit again, also if it did already before it panicked (commit_panicked); over whole histories it is told to once for each commit that panicked and once for the accepted one, always with the whole length (Die.*)."
  },
  {
   "property": "C112",
   "status": "proved",
   "theorems": [
    "Verif.Json.Bytes.flaky_no_fault",
    "Verif.Json.Bytes.flaky_reports",
    "Verif.Json.Bytes.flaky_reports_all",
    "Verif.Json.Bytes.flaky_next",
    "Verif.Json.Bytes.panics_irrelevant",
    "Verif.Json.Bytes.unwound_cases",
    "Verif.Json.Bytes.reported_again",
    "Verif.Json.Bytes.token_twice",
    "Verif.Json.Bytes.complete_retried",
    "Verif.Json.Decode.flaky_no_fault",
    "Verif.Json.Decode.flaky_reports",
    "Verif.Json.Decode.flaky_reports_all",
    "Verif.Json.Decode.flaky_next",
    "Verif.Json.Decode.panics_irrelevant"
   ],
   "note": "A panicking map keeps the stream as it was; a panicking advance has discarded everything it was told to, or nothing. For the decoder only the former. That a token is reported again in the latter case is unavoidable for a tokenizer that cannot know whether its stream has discarded before the panic; token_twice shows that it happens."
  },
  {
   "property": "C113",
   "status": "partial",
   "theorems": [
    "Verif.Args.conversation",
    "Verif.Args.reported_before_next",
    "Verif.Args.watched_same",
    "Verif.Args.listed_same",
    "Verif.Args.listed_asks",
    "Verif.Args.left_behind",
    "Verif.Args.asked_in_full",
    "Verif.Args.ends_once_partial",
    "Verif.Args.asked_after_end"
   ],
   "note": "All of it except the end: after a flag whose value is missing, the iterator is asked again although it has returned None, and what it then yields is parsed (asked_after_end). In all other cases it is not asked again. Iterators and reports that panic or do not return are not part of this."
  },
  {
   "property": "C114",
   "status": "proved",
   "theorems": [
    "Verif.Borrow.container_of_raw",
    "Verif.Borrow.container_of_raw_ref",
    "Verif.Borrow.field_references",
    "Verif.Borrow.container_of_field_stacked",
    "Verif.Borrow.container_of_field_tree",
    "Verif.Borrow.nonnull_rights",
    "Verif.Borrow.once_from_mut",
    "Verif.Borrow.once_from_ref",
    "Verif.Borrow.once_from_ref_stacked",
    "Verif.Borrow.deref_rights",
    "Verif.Borrow.address_of_mut_rights",
    "Verif.Borrow.address_of_ref_rights",
    "Verif.Borrow.address_of_nothing",
    "Verif.Borrow.tagged_keeps",
    "Verif.Borrow.wrapped_rights",
    "Verif.Borrow.address_of_ptr_rights"
   ],
   "note": "The borrow models are those of the papers without protectors, two-phase borrows and interior mutability; references passed to functions are borrowed anew on entry. That into_mut() of a OnceRef made from a shared reference is undefined however exclusive it is, is more than its documentation asks for (see DESIGN.md)."
  },
  {
   "property": "C115",
   "status": "proved",
   "theorems": [
    "Verif.Args.reported_places",
    "Verif.Args.registered_places",
    "Verif.Args.iterators_are_places",
    "Verif.Args.flag_iterator",
    "Verif.Args.search_by_safe",
    "Verif.Args.search_by_finds",
    "Verif.Args.search_registered"
   ],
   "note": "For schemas as compiled; schemas that are changed in place afterwards are C86. The search is that of the standard library."
  },
  {
   "property": "C116",
   "status": "partial",
   "theorems": [
    "Verif.Args.errors_name_iff",
    "Verif.Args.errors_name_partial",
    "Verif.Args.shorts_with_dash",
    "Verif.Args.bad_name_whole"
   ],
   "note": "All errors but two: short flags are always reported with the leading dash, against the documentation of the error, and flags whose names are not UTF-8 with their dashes and value, unlike all other unknown flags (both proved for every such argument, wherever flags are recognised). Errors that targets report about values and parameters are C25."
  },
  {
   "property": "C117",
   "status": "proved",
   "theorems": [
    "Verif.Args.Sharing.refcell_report",
    "Verif.Args.Sharing.refcell_life",
    "Verif.Args.Sharing.refcell_same",
    "Verif.Args.Sharing.cell_report",
    "Verif.Args.Sharing.cell_reads",
    "Verif.Args.Sharing.cell_plain",
    "Verif.Args.Sharing.cell_same"
   ],
   "note": "Cell and RefCell are those of the standard library (trusted as documented), without overflow of the number of guards. A target does not catch panics, and has no access to the cell it is in other than through the report. This replaces the assumption of C25 that shared targets are not accessed meanwhile."
  },
  {
   "property": "C118",
   "status": "proved",
   "theorems": [
    "Verif.Args.parse_counted",
    "Verif.Args.parse_comparisons",
    "Verif.Args.words_quadratic"
   ],
   "note": "Counted are comparisons of paths and names, as for C102; the binary search is that of the standard library. The term for the words cannot be left out: there are n commands whose n words take n (n + 1) / 2 comparisons (words_quadratic), because of the walk back that C102 is about."
  },
  {
   "property": "C119",
   "status": "proved",
   "theorems": [
    "Verif.Text.lossy_spec",
    "Verif.Text.lossy_is_text",
    "Verif.Text.lossy_borrowed_iff",
    "Verif.Text.lossy_at_ascii",
    "Verif.Text.lossy_length",
    "Verif.Text.lossy_again",
    "Verif.Text.lossy_surrogate"
   ],
   "note": "The conversion is String::from_utf8_lossy of the standard library, which is modelled after its implementation (the loop of Utf8Chunks), from memory: no copy was at hand. Valid sequences are the encodings of Unicode scalar values by Lean's own String.utf8EncodeChar. On Windows a lone surrogate becomes three replacement characters (proved), where OsStr of the standard library makes one of it."
  },
  {
   "property": "C120",
   "status": "partial",
   "theorems": [
    "Verif.Dbus.accepted_partial",
    "Verif.Dbus.delivers_iff",
    "Verif.Dbus.cells_are",
    "Verif.Dbus.marshalled_accepted",
    "Verif.Dbus.terminator_ignored",
    "Verif.Dbus.length_ignored",
    "Verif.Dbus.elements_ignored",
    "Verif.Dbus.not_canonical"
   ],
   "note": "What is checked is proved exactly, for every data (delivers_iff): the bytes of numbers, texts and the lengths of texts. Not checked are the padding, the terminators, which need not even be there, and the lengths of arrays; so the property fails for every string and every array (not_canonical, length_ignored), and an array can be read as any beginning of it (elements_ignored). For the types the decoder has calls for: 16-bit numbers, strings, signatures and arrays."
  },
  {
   "property": "C121",
   "status": "partial",
   "theorems": [
    "Verif.Dbus.encodings_tell_partial",
    "Verif.Dbus.sequences_tell_partial",
    "Verif.Dbus.hollow_lost"
   ],
   "note": "For all values without arrays of structures that have no contents, and with lengths that fit. Signatures with empty structures are accepted, against the D-Bus specification, and encoders write arrays of them: these take no bytes, so any two such arrays have the same encoding (hollow_lost, for every such type). For the types the encoder has calls for, and variants with types of up to 31 codes, as for C33."
  },
  {
   "property": "C122",
   "status": "proved",
   "theorems": [
    "Verif.Dbus.yield_bounded",
    "Verif.Dbus.rounds_bounded",
    "Verif.Dbus.yield_reached"
   ],
   "note": "Data of less than usize::MAX bytes, as for C54. The bounds are reached (an empty signature without its terminator)."
  },
  {
   "property": "C123",
   "status": "proved",
   "theorems": [
    "Verif.Args.schema_same",
    "Verif.Args.parse_same",
    "Verif.Args.help_same",
    "Verif.Args.flags_ambiguous",
    "Verif.Args.commands_ambiguous"
   ],
   "note": "Any sorter and searcher with the contract of the standard library. That distinct names are needed is proved for flags and for commands."
  },
  {
   "property": "C124",
   "status": "proved",
   "theorems": [
    "Verif.Str.natural_scan",
    "Verif.Str.natural_plain",
    "Verif.Str.natural_padded",
    "Verif.Str.natural_prefix",
    "Verif.Str.natural_common",
    "Verif.Str.natural_numbers_first"
   ],
   "note": "The Unicode table of numeric characters is a parameter, as for C13."
  },
  {
   "property": "C125",
   "status": "proved",
   "theorems": [
    "Verif.Hash.digest_binds",
    "Verif.Hash.digest_differs",
    "Verif.Hash.mac_binds",
    "Verif.Hash.short_keys",
    "Verif.Hash.long_keys"
   ],
   "note": "For what is hashed at all: messages and long keys of lengths 63 modulo 64 panic (C01, C04). The compressions are those of FIPS 180-4, whose results the code has by C01. That the compression function has no collisions that can be found is not claimed."
  },
  {
   "property": "C126",
   "status": "proved",
   "theorems": [
    "Verif.Json.local_marks",
    "Verif.Json.local_lines",
    "Verif.Json.local_parse",
    "Verif.Json.local_elements",
    "Verif.Json.local_damage"
   ],
   "note": "That the conditions are needed is shown by examples: strings and comments that are open take in what follows, and other characters can continue numbers, words, slashes or white space."
  },
  {
   "property": "C127",
   "status": "proved",
   "theorems": [
    "Verif.Json.Bytes.local_empty",
    "Verif.Json.Bytes.local_streams",
    "Verif.Json.Bytes.local_list",
    "Verif.Json.Bytes.reads_any"
   ],
   "note": "Texts as far as they can be read: a token and the byte behind it have at most isize::MAX bytes, as for C57. Every text that fits a slice can be read (reads_any)."
  },
  {
   "property": "C128",
   "status": "proved",
   "theorems": [
    "Verif.Dbus.oblivious",
    "Verif.Dbus.orders",
    "Verif.Dbus.flipped_unique"
   ],
   "note": "oblivious is about all histories, with errors and panics, of any writer that does not look at the memory it lends, which the trait Write has no way to do between calls of map; orders about values that fit, with the calls of C33."
  },
  {
   "property": "C129",
   "status": "proved",
   "theorems": [
    "Verif.Dbus.enc_retry",
    "Verif.Dbus.enc_waited",
    "Verif.Dbus.dec_retry",
    "Verif.Dbus.slice_ready",
    "Verif.Dbus.dec_waited"
   ],
   "note": "Writers never map more than they were asked for (Exact), as in C33; the signatures of variants are those of C33 (Op.sanes); dec_waited is about values that the decoder has calls for, as in C35. Panics of writers and readers are C111."
  },
  {
   "property": "C130",
   "status": "proved",
   "theorems": [
    "Verif.Args.mixed_line_understood",
    "Verif.Args.order_does_not_matter",
    "Verif.Args.order_does_not_matter_with_errors",
    "Verif.Args.usual_line"
   ],
   "note": "A flag stands after the words of a registered command with which it can be used (Usable, as in C66): elsewhere the name may mean another flag (C20). The first parameter before -- must not look like a further word of a command, no parameter before -- like a flag. That the place of help flags and of words does matter is shown by examples."
  },
  {
   "property": "C131",
   "status": "proved",
   "theorems": [
    "Verif.Args.told_grows",
    "Verif.Args.flag_argument",
    "Verif.Args.flag_and_value",
    "Verif.Args.flag_on_targets"
   ],
   "note": "Stated with what the parser reports (told), not with the classification of C18 to C22. For report objects that do not ask to stop. Parameters do not leave everything else alone: they end the words of the command (example)."
  },
  {
   "property": "C132",
   "status": "proved",
   "theorems": [
    "Verif.Json.Effort.metered_same",
    "Verif.Json.Effort.history_metered",
    "Verif.Json.Effort.life_history",
    "Verif.Json.Effort.calls_linear",
    "Verif.Json.Effort.work_linear",
    "Verif.Json.Effort.stack_exact",
    "Verif.Json.Effort.stack_brackets",
    "Verif.Json.Effort.stack_capacity",
    "Verif.Json.Effort.copies_linear",
    "Verif.Json.Effort.stack_kept",
    "Verif.Json.Effort.stack_unlimited"
   ],
   "note": "Counted is what C98 counts, calls of the tokenizer, and the capacity of the stack. stack_kept and stack_unlimited say that memory of the stack is not given back before the decoder is dropped, and that no depth is refused (no recursion is involved)."
  },
  {
   "property": "C133",
   "status": "proved",
   "theorems": [
    "Verif.Rng.xo_outputs_period",
    "Verif.Rng.xo_outputs_tell",
    "Verif.Rng.xo_seeds_tell",
    "Verif.Rng.splitmix64_two_tell",
    "Verif.Rng.splitmix64_all_differ",
    "Verif.Rng.children_differ"
   ],
   "note": "About the numbers of next64(); next32() is not part of this. How many numbers it takes to see that two Xoshiro256++ differ is not claimed, only that a period is enough (one number is not: example)."
  },
  {
   "property": "C134",
   "status": "proved",
   "theorems": [
    "Verif.Json.Salvage.salvaged_reports",
    "Verif.Json.Salvage.salvaged_all",
    "Verif.Json.Salvage.text_salvaged",
    "Verif.Json.Salvage.items_tell"
   ],
   "note": "What is accepted as a whole is known from C46 (accepts_partial): it is not exactly JSON. Viable is stated with this grammar, without the decoder."
  },
  {
   "property": "C135",
   "status": "partial",
   "theorems": [
    "Verif.Str.sort_unique_partial",
    "Verif.Str.sort_same",
    "Verif.Str.sort_impossible"
   ],
   "note": "For lists of sortable strings (C14: numbers fit u64, or their text does not come before nineteen nines). For every other string there is a list of three in which it is, which has no arrangement in order at all (sort_impossible; assumes of Unicode what C14 does); Rust's sorts may then panic."
  },
  {
   "property": "C136",
   "status": "proved",
   "theorems": [
    "Verif.Str.symbols_same_iff",
    "Verif.Str.symbols_differ",
    "Verif.Str.symbols_all"
   ],
   "note": "The Unicode tables are parameters, as for C15."
  },
  {
   "property": "C137",
   "status": "proved",
   "theorems": [
    "Verif.Dbus.Final.written_final",
    "Verif.Dbus.Final.none_open_final",
    "Verif.Dbus.Final.committed_final",
    "Verif.Dbus.Final.front_final"
   ],
   "note": "Calls after which the program has panicked are not followed further. For any implementation of the writer, also one that maps less or more than it was asked for, or fails at any time."
  },
  {
   "property": "C138",
   "status": "proved",
   "theorems": [
    "Verif.Dbus.Glue.struct_assembled",
    "Verif.Dbus.Glue.array_assembled",
    "Verif.Dbus.Glue.variant_assembled",
    "Verif.Dbus.Glue.member_at_eight"
   ],
   "note": "Values with lengths that fit, with the calls of C33. Dictionary entries have no signatures of their own and cannot be encoded alone. That arrays of 64-bit numbers are not the same everywhere is shown by an example."
  },
  {
   "property": "C139",
   "status": "proved",
   "theorems": [
    "Verif.Dbus.Ahead.answers_stay",
    "Verif.Dbus.Ahead.continuations_agree",
    "Verif.Dbus.Ahead.slices_agree",
    "Verif.Dbus.Ahead.differ_within"
   ],
   "note": "The reader of the longer data never refuses what is there, as slices never do; readers that do are C129. Calls after which the program has panicked are not followed further; C54 says that there are none."
  },
  {
   "property": "C140",
   "status": "proved",
   "theorems": [
    "Verif.Dbus.Finish.no_dead_end",
    "Verif.Dbus.Finish.no_dead_end_vec",
    "Verif.Dbus.Finish.never",
    "Verif.Dbus.Finish.encodable_iff",
    "Verif.Dbus.Finish.dead_end"
   ],
   "note": "Room: 16 bytes for each code of a type for which no value was written yet, and altogether less than 2^32 bytes, so that no array is too long. Variants are opened with signatures in the short representation (C33); their types have calls."
  },
  {
   "property": "C141",
   "status": "proved",
   "theorems": [
    "Verif.Hash.digest_continues",
    "Verif.Hash.secret_prefix_forged",
    "Verif.Hash.collisions_continue"
   ],
   "note": "For what is hashed at all: lengths of 63 modulo 64 panic (C01)."
  },
  {
   "property": "C142",
   "status": "proved",
   "theorems": [
    "Verif.Io.Hist.last_counts",
    "Verif.Io.Hist.commits_only",
    "Verif.Io.Hist.swapped",
    "Verif.Io.Hist.joined",
    "Verif.Io.Hist.overwritten",
    "Verif.Io.Hist.reads_back"
   ],
   "note": "Alignments have exponents below 31 (32 and more panic, 31 is odd: C36) and indices that exist. The iterator is one over given bytes. Swapping, joining and leaving out are for operations that succeed."
  }
 ]
}