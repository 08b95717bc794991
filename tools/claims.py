H="Verif.Hash."
c("C01","partial",[H+"sha256_standard_partial",H+"sha256_trace_refines",H+"sha256_panics_63",H+"sha256_not_standard"],
  "FIPS 180-4 digest for every message < 2^61 bytes except lengths 63 mod 64, where the code panics (negation proved).")
c("C02","proved",[H+"sha256_chunking",H+"sha256_trace_refines"],"Exact state equality for every sequence of push/push_zero.")
c("C03","proved",[H+"sha256_reusable",H+"sha256_trace_refines"],"Every history of calls refines a reference object.")
c("C04","partial",[H+"hmac_rfc2104_partial",H+"hmac_trace_refines_partial",H+"hmac_panics_63",H+"hmac_new_panics_127"],
  "RFC 2104 for every key/message except where SHA-256 panics (lengths 63 mod 64; negation proved).")
c("C05","proved",[H+x for x in "hmac_reusable hmac_reusable_any hmac_trace_refines_partial".split()],"For every key on which creation succeeds and every history without panic before; where panics happen is stated by C04 and C73.")
c("C06","proved",[H+"to_hex_faithful",H+"to_hex_injective"],"")
R="Verif.Rng."
c("C07","proved",[R+"splitmix64_out_eq_iff",R+"splitmix64_out_surjective",R+"mix64_bijective"],"Outputs repeat exactly with period 2^64 and cover every value.")
c("C08","proved",[R+"mixg_quality",R+"split_gamma_quality"],"")
c("C09","proved",[R+"mix64_splitmix64_agree",R+"split_advances_two",R+"split_child",R+"next32_advances"],"")
c("C10","proved",[R+"xo_state_nonzero",R+"xo_next_injective",R+"xo_next_surjective",R+"xo_seed_verbatim"],"")
c("C11","proved",[R+"jump128_is_2_128_calls",R+"jump192_is_2_192_calls",R+"jumps_commute"],"Polynomial arithmetic over GF(2), evaluated by the kernel.")
c("C12","partial",[R+"from_splitmix64_first_partial",R+"from_splitmix64_not_successive",R+"mix64_0_not_successive",R+"mix64_0_nonzero",R+"with_seed_repeat"],
  "False of the code: the array expression is evaluated once, so all four words are equal (negation proved for every generator); the first word is as claimed.")
c("C51","proved",[R+"xo_full_period",R+"xo_visits_everything_once",R+"jump128_streams_disjoint",R+"streams_disjoint"],"Full period via Pratt certificates for the factors of 2^256-1.")

S="Verif.Str."
c("C13","proved",[S+"cmp_natural_eq_iff",S+"cmp_natural_antisymm",S+"str_order"],"")
c("C14","partial",[S+"cmp_natural_trans_partial",S+"cmp_natural_numeric",S+"cmp_natural_not_transitive",S+"str_order",S+"cmp_natural_sortable_trans",S+"fits_sortable",S+"cmp_natural_cycle",S+"cmp_natural_sortable_iff"],
  "Not transitive in general (negation proved). The boundary is exact: transitive on strings whose runs of numeric characters fit u64 or have a text not before nineteen nines; every other string is on a cycle with two of those. The cycle theorem assumes of Unicode that only the digits are numeric among the characters up to '9'.")
c("C15","proved",[S+"symbolize_is_symbol",S+"symbolize_fixes_symbols",S+"symbolize_idempotent",S+"symbolize_charwise"],"")
c("C52","proved",[S+"some_spec"],"")
F="Verif.Ffi."
c("C16","proved",[F+x for x in "bswap_copy_reverses bswap_copy_involutive endian_raw_roundtrip endian_native_roundtrip endian_wrapper_roundtrip bigEndian_memory littleEndian_memory endian_compare endian_eq_iff_bytes endian_nonzero".split()],"All widths, both hosts.")
c("C17","proved",[F+"tagged_new",F+"tagged_history"],"")
c("C50","proved",[F+"container_of_field",F+"field_of_container",F+"field_of_address"],"")

A="Verif.Args."
c("C18","proved",[A+"parse_refines",A+"compile_perm",A+"parse_selects",A+"plain_words",A+"isUtf8_iff"],"Any sorter and searcher with the documented contract, any report behaviour.")
c("C19","proved",[A+"parse_refines",A+"every_argument_once",A+"reports_are_faithful",A+"reports_in_order"],"")
c("C20","partial",[A+"flags_on_path_partial",A+"flags_on_path_complete_partial",A+"flag_reports_come_from_lookup",A+"flag_of_unselected_command"]+[A+x for x in "gap_leaks gap_otherwise lookup_on_path_iff gap_reported flags_on_path_iff".split()],
  "Exact: where the words so far are a registered path it holds, hence in every run if there is a command at every node of the tree. Elsewhere the flags of the first command that continues the words are accepted as well, although it was not entered, and no others; so it holds in all runs if and only if the first command behind every gap has no flags (flags_on_path_iff).")
c("C21","proved",[A+"parse_refines",A+"double_dash",A+"after_double_dash"],"")
c("C22","proved",[A+"parse_refines",A+"flag_table",A+"shape_flag",A+"shape_flag_value",A+"shape_terminator"],"")
c("C23","proved",[A+"ancestors_spec"],"Distinct paths.")
c("C24","proved",[A+"help_writes_help_text",A+"no_help_without_request",A+"section_width",A+"width_in_characters",A+"children_spec",A+"help_report_last"],"Distinct paths; any writer, including failing ones.")
c("C25","proved",[A+x for x in "bool_holds_last_toggle optUnit_holds_last_toggle osStr_holds_last optOsStr_holds_last str_holds_last_valid optStr_holds_last_valid vecOsStr_collects optVecOsStr_collects vecStr_collects optVecStr_collects sharedCell_step sharedCell_same cmdVecOsStr_collects cmdOptVecOsStr_collects cmdVecStr_collects cmdOptVecStr_collects cmdUnit_rejects vecError_collects".split()]+[A+"isUtf8_iff"],"All implementations in report.rs, any error report, including ones that stop.")

D="Verif.Dbus."
c("C26","proved",[D+"accepts_iff",D+"types_distinct"],"Up to 2^61-1 bytes; a dict entry outside of an array is a complete type of the grammar used by the code.")
c("C27","proved",[D+"new_returns",D+"size_asked",D+"parse_returns",D+"parse_hangs",D+"parse_small"],"For the buffer size the API asks for. For other sizes: a buffer with a partial last node hangs, one too small panics (proved).")
c("C28","partial",[D+"prints_back",D+"compares",D+"hash_prefix_free",D+"len_partial",D+"len_wrong"],"Elements, text, equality, order and hash for every signature; the length only up to 31 elements, it is six times too large beyond (negation proved).")
c("C29","proved",[D+"prefix_code"],"")
c("C30","proved",[D+x for x in "sub_signature move_down at_member at_root at_close at_end every_index members_adjacent single_steps".split()],"All positions of all signatures, also of sub-signatures of sub-signatures.")
c("C31","partial",[D+x for x in "summary unsupported_partial empty_struct_unmarked misaligned_partial misaligned_root root_struct_marked variant_unmarked variant_flag alignment_meaning fixed_meaning dynamic_meaning misaligned_meaning_partial".split()],"Dynamic, handle, maybe and both alignments exactly; the unsupported flag is missing on empty structs, and the alignment-dependent flag is wrong for structures and dict entries at the root (witnesses proved; misaligned_root says what it is there). The *_meaning theorems tie the flags to the marshalled bytes of values.")
c("C32","proved",[D+x for x in "code_spec fromCode_iff fromId_iff table_consistent pair_symm flags_spec sizes_spec set_clear_spec gvar_spec node_spec with_spec str_spec all_any_spec".split()],"")
c("C53","partial",[D+x for x in "problem_real first_problem_partial first_problem_iff problem_late err_empty_iff err_sequence_iff err_incomplete_iff err_invalid_iff err_unknown_iff err_unpaired_iff err_mispaired_iff err_mispaired_index err_mispaired_index_is err_dict_iff".split()],"Members of dict entries are only looked at when the entry is closed, so that the byte pointed to is the first problem if and only if the entries before it begin as they have to (first_problem_iff; witness otherwise). The position of the mispaired element is exact; the other index reported with it (that of the opening element) is wrong in general (witness proved; err_mispaired_index_is says what it is in every case).")
c("C33","partial",[D+x for x in "number_bytes encoder_refines committed_value encodes_partial encodes_vec_partial long_variant long_variants".split()],"Every history on every writer; what is committed always is the marshalled form of a value of the signature. Variants of types with 32 codes or more are never accepted: up to 42 codes the call panics, and longer ones are refused (proved for all of them, on every writer), since Sig::len is wrong; the encoder has no calls for the types y b n i x d h.")
c("C34","proved",[D+x for x in "rejected rejected_erased answers encoder_refines".split()],"")
c("C35","partial",[D+x for x in "number_bytes decodes_partial round_trip_partial more_partial more_wrong".split()],"Every reader, every way to read along the type, encoder to decoder round trip. The decoder has calls for q s g a only. The end of arrays is not reported where they end: more() compares the absolute offset with the length (proved in general and as witness).")
c("C54","partial",[D+x for x in "decoder_refines dec_rejected slice_refuses machine_agrees machine_safe_partial length_requested hostile_panics hostile_starves".split()],"Data of less than usize::MAX bytes. Without limits of the machine: all of it, and so on machines with objects and free memory of 4 GiB. The decoder allocates as many bytes as a length in the data says before it looks for them: with 32 bits four bytes of data panic it, and with less free memory it does not return (proved).")

I="Verif.Io."
c("C36","proved",[I+x for x in "read_spec slice_read write_spec fill_spec align_spec align_panics align_31 padding_spec vec_write vec_commit writeIter_spec put_spec vec_not_appending writeIter_misplaces".split()],"Any implementation of the traits. write_iter needs maps that are not longer than asked for (witness proved otherwise). Writing to a vector that is not empty is broken (witness proved).")
c("C37","proved",[I+x for x in "map_while_call map_while_resumes map_while_finishes scan_first slice_streams arrivals_streams slice_advance stream_map stream_write stream_remap map_while_at_max map_while_beyond_max vec_map_short vec_map_hint".split()],"Stateful predicates; any arrival pattern. Calls starting at the maximum panic (proved), hence start < max is assumed.")

J="Verif.Json."
c("C38","proved",[J+x for x in "pieces_push chars_push pieces_parse parse_outcome tokens_iff".split()],"Every handler, including ones that stop.")
c("C39","proved",[J+x for x in "push_total end_resets status_done parse_outcome".split()],"Every reachable state, every handler.")
c("C40","proved",[J+"source_text"],"")
c("C41","proved",[J+"digit_iff",J+"number_iff",J+"number_prefix"],"")
c("C42","proved",[J+"hex_iff",J+"string_iff",J+"char_written"],"Both directions: error-free strings are those of the grammar, and the value is that of every spelling.")
c("C55","proved",[J+"space_iff",J+"whitespace_iff",J+"written_tokens",J+"tokens_written",J+"tokens_iff"],"")
c("C56","proved",[J+"flags_relax"],"")
JB="Verif.Json.Bytes."
c("C43","partial",[JB+x for x in "control_reported_partial control_order control_1f_accepted".split()],"All control characters but U+001F, which is accepted (witness proved).")
c("C44","partial",[JB+x for x in "complete_partial complete_right_iff complete_cases complete_never_ends complete_panics complete_cuts".split()],"Holds exactly if nothing is left, or one digit (proved as an equivalence). White space, words and strings are reported forever; numbers with a sign, fraction or exponent end in a panic; longer numbers lose all but the first digit (witnesses proved).")
c("C45","proved",[JB+"buffering_irrelevant",JB+"pop_next"],"")
c("C57","proved",[JB+x for x in "pop_no_panic cut_total cut_once pop_reports pop_reports_all pop_next sources_prefix sources_all".split()],"Buffers of at most isize::MAX bytes; the text itself may be longer.")
c("C58","proved",[JB+"string_spelled"],"")
c("C59","partial",[JB+"string_contents_partial",JB+"string_contents_iff",JB+"string_contents_repeated"],"Holds exactly if no unescaped control character follows an escape (string_contents_iff); else the text before it is repeated (witness proved).")
c("C60","proved",[JB+"number_spelled"],"")
JS="Verif.Json.Stream."
c("C46","partial",[JS+x for x in "accepts_partial json_accepted_partial sparse_is_json json_rejected nonjson_accepted not_exact space_ignored".split()],"The accepted language is characterised exactly, as is the set of JSON values that is accepted; it is not JSON, since scalars never change the state of the decoder (witnesses proved in both directions).")
c("C47","proved",[JS+x for x in "nested accepted_closed closed_accepted after_close rejected_unchanged rejected_ignored error_rejected pop_run".split()],"Every token sequence, including rejected tokens.")
B="Verif.Bin."
c("C48","proved",[B+x for x in "sum16_eq sum16_odd sum16_append sum16_setWord checksum change_noticed swap_unnoticed stub_header".split()],"Every byte string and every even position; the checksum is also shown to be the only one.")
c("C49","proved",[B+x for x in "fields_placed fields_disjoint struct_fields struct_bytes dos_layout dos_import dos_export field_native pe_layout pe_oneToOne elf_layout elf_ident elf_oneToOne stub_code".split()],"Layout rules of repr(C) for every field list; the structures against the published tables, ELF for every alignment of primitive integers; every content.")
FA="Verif.Ffi.Abi."
c("C61","proved",[FA+x for x in "integer_layout integer_offsets wrapper_layout integer_host_independent marker_alignment marker_missing abi_published abi_numbers abi_target".split()],"Every nesting; the rules of repr(C), repr(packed) and repr(transparent) are trusted.")
c("C62","proved",[FA+x for x in "from_native_holds to_native_holds raw_roundtrip compare_numbers integer_container integer_take default_holds default_exists".split()],"Every nesting, every platform, every content of the padding.")
c("C63","partial",[FA+x for x in "from_usize_spec to_usize_partial pointer_compare dangling_spec to_usize_zero foreign_address".split()],"All of it but one part: with an address type that is not NonZero, a pointer can have address 0, although to_usize() is documented never to yield it (witness proved).")
JD="Verif.Json.Decode."
c("C64","proved",[JD+x for x in "pop_no_panic pop_reports pop_reports_all pop_next buffering_irrelevant nested reads_all".split()],"Buffers of at most isize::MAX bytes; the text itself may be longer.")
c("C65","partial",[JD+x for x in "json_partial value_is_json json_rejected scalar_pending".split()],"Proved to hold exactly for the texts of scalars and of sparse values; `[1,2]` is a JSON text for which an error is reported, and a number or word at the end of the input is never reported (both proved).")
c("C66","proved",["Verif.Args."+x for x in "targets_hold command_line_understood fitting_command_line_accepted help_of_selected_command".split()],"Every schema with distinct paths and flag names (for the second part); targets of the types that the library provides, shared or not.")
c("C67","proved",[R+x for x in "xo_equidistributed xo_every_number_drawn splitmix64_every_number_once splitmix64_32_equidistributed".split()],"All reachable generators; counted as cardinalities of sets of positions.")
W="Verif.Wrap."
c("C68","proved",[W+x for x in "mown_ownership_irrelevant mown_as_values mown_lawful mown_as_owned mown_clone identity_lawful identity_same_place ptr_lawful marker_lawful".split()],"Any operators of the wrapped type, also for pointers with metadata.")
c("C69","proved",[W+x for x in "deref_roundtrip own_no_ub own_destroyed_once own_values own_wrong_kind".split()],"The functions of the standard library on raw pointers are modelled as documented; places are not reused.")
CO="Verif.Bin.Consts."
c("C70","partial",[CO+x for x in "errno_published errno_distinct errno_libc errno_everywhere elf_published_partial elf_more elf_wrong elf_distinct_partial pe_published_partial pe_wrong flags_distinct".split()],"Error codes: all of it. ELF and PE: all constants for which published values were available, except five machines, the magic number of PE32+ and six subsystems, which are wrong in the code (proved). Published values: C headers for error codes and ELF (three ELF names follow other documents, see SpecConsts); for PE, MS-DOS and the ELF names missing in the header written down from memory, no document was at hand. Constants without an available published value are only transcribed.")
T="Verif.Text."
c("C71","proved",[T+x for x in "any_opaque debug_only display_only error_display_only error_exposed prints_any prints_static_any prints_debug prints_static_debug prints_display prints_static_display prints_error prints_static_error failure_told kinds_told box_as_fold".split()],"About the traits that the type implements; the enumeration itself is public.")
c("C72","proved",[T+x for x in "osstr_roundtrip osstr_from_utf8 osstr_to_str write_str_complete write_str_returns write_str_stops".split()],"write_all of the standard library is modelled as documented; write_fmt is C108; to_string_lossy is C119.")
c("C73","proved",[H+x for x in "hmac_any_engine hmac_new_panics_iff hash_any_engine default_push_zero_is_push".split()],"An engine may panic on messages of its choice, as long as a message it takes can also be pushed in pieces.")
c("C74","proved",["Verif.Ffi.Memory."+x for x in "transmute_copies bswap_reverses as_bytes_shows eq_compares as_bytes_mut_sets object_models_agree".split()],"Alignments are powers of two. The last theorem says that the models of C16 and C62, where objects have no addresses, are the same functions.")
c("C75","partial",[D+x for x in "ende_encodes ende_decodes ende_json inline_idle inline_copies_nothing".split()],"The D-Bus formats: all of it but inlining. The format Json panics. Inlining never copies anything: it succeeds without effect for every type, or panics (proved).")
CF="Verif.Cfg."
c("C76","proved",[CF+x for x in "cond_first cond_else cond_one".split()],"Conditions are evaluated as the language reference says (Pred.Holds); the recursion limit of macros is not modelled.")
c("C77","partial",[CF+x for x in "abi_target_is abi_target_broken_partial abi_fits_iff abi_target_fits_partial abi_target_wrong abi_target_broken linux_target_is linux_target_fits_partial linux_native_no_fallback libc_iff elfn_is elfn_words addresses_are".split()],"elfn and native addresses: all of it. target fits exactly on the little-endian platforms with the usual widths; on big-endian aarch64 and on x32 it exists and does not fit, on Windows with MSVC on x86 and x86_64 the crate does not compile, and native never falls back to libc (all proved).")
c("C78","proved",["Verif.Json.Text."+x for x in "json_iff marks_tell json_unique json_flags json_pieces json_exists json_written write_inj".split()]+["Verif.Json."+x for x in "digit_iff hex_iff space_iff".split()],"Numbers are values as written: 1.0 and 1.00 are different. Repeated member names are kept.")
c("C79","partial",[W+x for x in "pin_ptr pin_sound_partial pin_box_dangles pin_not_sound pin_rejected pin_roundtrip pin_deref_alive".split()],"The functions take the pin by value and drop the smart pointer when they return: for references all of it holds; for a Box the pointer always dangles (proved), for Rc and Arc exactly if it was the last owner (pin_ptr). Pinning itself (objects are not moved) is not modelled: objects keep their place in the model.")
c("C80","partial",[D+x for x in "literal_iff try_make_partial static_small static_large".split()],"Literals: all of it. For other buffers it holds exactly if the size is the one the API asks for. In larger ones the rest stays uninitialised, or the call does not return; smaller ones panic (all proved, for every size).")
c("C81","partial",[D+x for x in "iterates moves_stay hint_is hint_exact_partial hint_wrong".split()],"Elements, fusedness and moves: all of it. The hint is exact on signatures of at most 31 codes and all signatures taken from them, and six times too large on others; after move_to() past the end asking for it overflows (all proved).")
c("C82","partial",[A+x for x in "reports_fit_mode override_or_extend_partial negated_values lists_only_grow".split()],"All of it but starting over: `no-` with a flag that takes values is an error that its report never sees, and no command line clears a list of the library's types (proved for every schema, binding and command line).")
TY="Verif.Types."
c("C83","proved",[TY+x for x in "subtyping_preorder variance_of_test_types sub_and_super markers_invariant pointers_like_mut wrappers_like_inner pointers_threads others_threads markers_are_empty pointers_transparent".split()],"About the declarations of these types. The rules of the language for subtyping, Send, Sync and layout are in the specification (Types/SpecTypes.lean) and trusted; trait objects and generic parameters are modelled as arbitrary types.")
c("C84","proved",[TY+x for x in "brands_invariant brand_stays brands_unique brands_originate".split()],"Safe programs. Types built from references, raw pointers, arrays, cells and structures around a brand; that a closure only knows its brand to be alive is the rule of the language for `for<'any>`.")
c("C85","partial",[W+x for x in "deref_roundtrip once_reference_partial once_as_reference once_not_reference".split()],"Dereferencing holds. The operators are derived from the pointer: they agree with those of references only if no two places hold equal values, or memory is sorted (proved as equivalences).")
c("C86","partial",[A+x for x in "edited_partial edited_in_order_partial commands_entered_iff flags_found_iff all_found_iff edit_panics edited_flag_lost edited_command_lost edited_link_kept".split()],"Holds for every history that keeps the names of flags and the paths of commands, and for every history that leaves the schema in order and its links right. It is proved that with the search of the standard library all (differently named) commands and flags are found only if the schema is still in order. Sets are sorted and linked only when they are made: a replaced flag or command with another name may not be found, or a flag be accepted for a command it does not belong to (proved, with the search of the standard library).")
c("C87","partial",[D+x for x in "requests_partial total_partial length_requested hostile_request decoder_depth encoder_depth".split()],"The stacks are bounded by signature and data. Requests for strings are bounded by the data as long as none is missing from it; otherwise a request is as large as the length in the data says, up to 4 GiB for four bytes (proved). Time is the subject of C99.")
c("C88","proved",[A+x for x in "visits_links visits_walk visits_last never_twice links_linear".split()],"Visits are counted, not the time it takes to compare two paths.")
c("C89","partial",[I+x for x in "stream_history stream_panics keeping_needed map_history_partial map_deinit map_commit_exposes map_twice".split()],"Streams: all of it, if the allocator keeps what is behind the elements when a vector grows (as that of the standard library does, which is not documented; needed, proved). Maps: only for vectors that are empty and are committed to once. Otherwise safe code can leave an element uninitialised, and keeping to the contract of commit exposes uninitialised memory (both proved for every vector that is not empty).")
c("C90","partial",[TY+x for x in "coerce_same_partial coerce_compiles deref_differs load_differs box_garbage".split()],"Holds for all coercions that do not look through a pointer. Coercing a reference to an object with Deref, or to another reference, to one to its thin target compiles in both builds but differs: without Polonius it is the address of the object itself (proved for all of them). The coercion rules of the language are trusted; trait objects, closures and structures are left out.")
c("C91","partial",[TY+x for x in "offset_checked_partial offset_slice".split()],"Holds for types with a size. The check is an assignment of a pointer, and thereby a coercion: a field that is an array is accepted as a slice (proved). The coercion rules of the language are trusted; trait objects (accepted likewise) and lifetimes are left out.")
c("C92","proved",["Verif.Json.Text."+x for x in "number_value number_accepted plus_ignored flags_value".split()],"Values are rational numbers; -0 is 0 (its sign is reported, and is the same with and without extensions).")
c("C93","proved",["Verif.Json."+x for x in "buffered_same life_goes_on memory_held memory_busy memory_idle current_suffix memory_grows".split()],"Each of the three buffers has at most twice the size of the current token, or 4096 bytes. How String and Vec grow and shrink is modelled after the standard library; the allocator grants what is asked for.")
c("C94","proved",["Verif.Json.Agree."+x for x in "both_report json_both bytes_json same_values".split()],"The text is followed by a comma, colon or bracket in the stream, since the end of the input is known to be handled wrongly (C44). Also for all other texts that have tokens only for the tokenizer for characters (without the flag for plus signs), unless a keyword is directly followed by a negative number, as in null-1: proved to be the only difference.")
c("C95","proved",["Verif.Json.Next."+x for x in "tokenizer_next decoder_next tokenizer_progress decoder_progress".split()],"The stream must report what it was asked for (slices do, proved).")
c("C96","partial",["Verif.Bin.Dos."+x for x in "stub_runs stub_ends stub_stack stub_confined_partial stub_oversteps".split()],"Printing and exiting: all of it. Memory: only if the program is given at least four additional paragraphs. Its header asks for none although the stack is behind the program, so that with fewer the first instruction overwrites memory of others (proved for every address it is loaded to). Trusted: the few instructions of the processor and services of DOS that are used; interrupts and services use at most the 62 bytes that are left of the stack.")
c("C97","partial",[D+x for x in "any_compare sub_reparsed any_cursor any_summary any_misaligned equal_but_different taken_variant".split()],"Comparing, hashing, cursors and all flags but one: all of it. The reported length of signatures taken from one of 32 codes or more is six times too large, and using one in a variant panics or is refused, however short it is (proved for all of them); the flag for position dependent types differs for structures and dict entries (witness).")
c("C98","partial",["Verif.Json.Work."+x for x in "metered_same history_metered life_history tests_linear rounds_linear copies_linear_partial copies_square buffer_linear_partial capacity_bound idle_small buffer_quadratic buffer_no_factor".split()],"Looking at bytes, rounds, and what is kept when idle: all of it. Buffer and copies: linear (factor 3/2) as long as strings have no unescaped control characters; each of those may add the current token once more. After an escape sequence, a row of n control characters takes n²/2 bytes (proved for every n; no factor bounds it). Counted are calls of predicates, rounds, and bytes appended; the standard library's own work on a finished token (UTF-8 validation) is not.")
c("C99","proved",[D+x for x in "signature_time encoding_same encoding_time encoding_linear decoding_same decoding_time decoding_linear retries_add_up".split()],"Signatures: at most two turns of the parser's loops per byte. Encoding: at most 2 bytes copied per byte committed if all calls are accepted and sub-encoders are committed; otherwise at most the data passed in, and 15 bytes per call. Decoding: at most (1 + refused calls) times the data, sub-decoders being committed; otherwise at most all of the data per call. Since calls start over, retrying while a string arrives byte by byte takes n²/2 bytes (proved for every n below 2^32). Counted are turns of loops, mappings and bytes copied; comparing signatures in enc_with and dec_with, UTF-8 validation and the growth of vectors are not.")
c("C100","proved",[I+x for x in "stream_moves map_moves stream_room map_room writes_moves doubling_needed growing_same".split()]+[D+x for x in "encoding_moves encoding_room".split()]+["Verif.Json."+x for x in "tokenizer_moves text_moves text_moves_least".split()],"Vectors: at most 2 bytes copied per byte of the furthest end asked for. Encoding: at most 2 per byte of the encoding, if all calls are accepted and everything is committed. Tokenizer: at most 12 per byte of text, and 2 per byte that is cloned. That allocators double vectors when they grow is an assumption (Vec::reserve documents that it avoids frequent reallocations, not how), and needed: with exact growth the cost is quadratic (proved). For the tokenizer the growth policy of String and Vec is modelled after the standard library.")
c("C101","proved",[D+x for x in "memory_filled memory_read memory_part memory_tells".split()],"Nodes are laid out as repr(C) demands, in the byte order of the machine. The rules for repr(C), transmute and slices from raw parts are trusted.")
c("C102","partial",[A+x for x in "clog_least lookups_counted word_comparisons word_fast_partial backing_up_bounded unknown_word_fast word_not_logarithmic word_no_factor flag_comparisons flag_fast".split()],"Flags and unknown words: all of it. Known words: the search is logarithmic, but it finds the last of the commands that begin with the words, and then walks back over all of them one by one, so that a word takes at least as many comparisons as there are such commands (exact number proved; no factor bounds it by the logarithm). Counted are comparisons of paths and names; the binary search is that of the standard library.")
c("C103","proved",[A+x for x in "schema_preorder has_tree order_unique subs_follow levels_sorted flags_sorted order_needs_distinct".split()],"Paths have to be distinct for the first three; the order of commands with the same path is left to the sort of the standard library (proved to matter).")
c("C104","proved",[H+x for x in "trace_faithful hmac_trace_faithful hmac_new_trace_faithful hash_shows_lengths_only hmac_shows_lengths_only digestT_faithful macT_faithful hash_cost reset_ready hmac_cost hmac_new_cost".split()],"The compression function is one event: it is straight-line code with constant indices, as its model shows. What the compiler makes of the code, and caches and the like, are not modelled; comparing digests (derived equality) is not part of this.")
c("C105","proved",["Verif.Str."+x for x in "natural_counted natural_work natural_same text_pairs natural_reads_on symbolize_allocs hex_allocs".split()],"Counted are tests of a character's class, digits read and pairs compared. How the standard library searches, parses and compares (one character after another up to the first that decides) is trusted. The work is not bounded by the shorter string: both are split up to their first number even if their first characters differ (proved).")
c("C106","partial",["Verif.Dbus."+x for x in "encodes_vec_partial encoded_into encodes_into second_lost".split()],"Holds exactly if the vector is empty or the value takes no bytes. Otherwise, for every value and every other contents, the value is written over the beginning of the vector, the vector gets longer by its length all the same, and its last elements are uninitialised (proved): maps count from the beginning of a vector, but committing adds to its length.")
c("C107","partial",["Verif.Build."+x for x in "lints_partial lints_passed lints_right_iff lints_missing lints_level lints_wrong versions_right options_partial options_iff polonius_ignored stale".split()],"Lints: right if and only if no lint of the compiler itself is allowed and some lint of clippy is (as in the repository today); names need to have no commas and line breaks, and both tables have to be there. Versions: right. Options: all but polonius, which has no effect; and std of osi cannot be chosen apart from that of sys. Changes to the files of packages are not noticed, since the files that are named do not exist (all proved).")
c("C108","partial",[T+x for x in "write_fmt_same_iff write_fmt_partial write_fmt_panics write_fmt_text write_all_calls write_fmt_refused".split()],"Holds if and only if formatting does not fail by itself, without the writer having failed. Then write_fmt of the standard library, which is called, panics (since Rust 1.81; the package asks for 1.91), while other sinks return the error. write_fmt of the standard library is modelled as documented; writers that do not return, and panics of the writer, are the same outcome.")
c("C109","partial",[H+x for x in "reset_after_panics_partial first_panic reset_then_right hmac_reset_after_panics hmac_first_panic wrong_digest other_panics too_much".split()],"With a reset: all of it, for engines and codes. Without: after a panic of finalize for lengths of 63 modulo 64, the next push goes on with the marker of the padding in the middle of the message, and finalize then returns what is no digest, without any panic (proved for every message and everything that is pushed later, with less than 2^60 bytes). A second finalize right after the panic changes nothing, and after too much data (2^61 bytes) there are no digests at all until a reset.")
c("C110","partial",["Verif.Json."+x for x in "never_panics as_new status_told calm_same nothing_lost_partial digit_twice wrong_text".split()],"Safety, status and starting over: all of it. Pushing again: for all texts in which no half of a surrogate pair is reported. The fourth digit of the escape sequence of such a half is kept before it is reported, so that it is in the text of the string twice if pushed again (proved for every such sequence). Panics unwind and are caught by the caller.")
c("C111","proved",[D+x for x in "encoder_survives committed_survives retried enc_panicked variant_panicked commit_panicked decoder_survives dec_panicked Die.commits_survive Die.committed_despite Die.panic_changes_nothing".split()],"Writers map at most what was asked for, as for C33, and signatures of variants are short or far too long, as for C33; the panics of the encoder for those in between leave it as it was as well. Panics of the writer's commit itself: the next commit tells the writer to commit again, also if it did already before it panicked (commit_panicked); over whole histories it is told to once for each commit that panicked and once for the accepted one, always with the whole length (Die.*).")
c("C112","proved",[JB+x for x in "flaky_no_fault flaky_reports flaky_reports_all flaky_next panics_irrelevant unwound_cases reported_again token_twice complete_retried".split()]+[JD+x for x in "flaky_no_fault flaky_reports flaky_reports_all flaky_next panics_irrelevant".split()],"A panicking map keeps the stream as it was; a panicking advance has discarded everything it was told to, or nothing. For the decoder only the former. That a token is reported again in the latter case is unavoidable for a tokenizer that cannot know whether its stream has discarded before the panic; token_twice shows that it happens.")
c("C113","partial",[A+x for x in "conversation reported_before_next watched_same listed_same listed_asks left_behind asked_in_full ends_once_partial asked_after_end".split()],"All of it except the end: after a flag whose value is missing, the iterator is asked again although it has returned None, and what it then yields is parsed (asked_after_end). In all other cases it is not asked again. Iterators and reports that panic or do not return are not part of this.")
c("C114","proved",["Verif.Borrow."+x for x in "container_of_raw container_of_raw_ref field_references container_of_field_stacked container_of_field_tree nonnull_rights once_from_mut once_from_ref once_from_ref_stacked deref_rights address_of_mut_rights address_of_ref_rights address_of_nothing tagged_keeps wrapped_rights address_of_ptr_rights".split()],"The borrow models are those of the papers without protectors, two-phase borrows and interior mutability; references passed to functions are borrowed anew on entry. That into_mut() of a OnceRef made from a shared reference is undefined however exclusive it is, is more than its documentation asks for (see DESIGN.md).")
c("C115","proved",[A+x for x in "reported_places registered_places iterators_are_places flag_iterator search_by_safe search_by_finds search_registered".split()],"For schemas as compiled; schemas that are changed in place afterwards are C86. The search is that of the standard library.")
c("C116","partial",[A+x for x in "errors_name_iff errors_name_partial shorts_with_dash bad_name_whole".split()],"All errors but two: short flags are always reported with the leading dash, against the documentation of the error, and flags whose names are not UTF-8 with their dashes and value, unlike all other unknown flags (both proved for every such argument, wherever flags are recognised). Errors that targets report about values and parameters are C25.")
c("C117","proved",["Verif.Args.Sharing."+x for x in "refcell_report refcell_life refcell_same cell_report cell_reads cell_plain cell_same".split()],"Cell and RefCell are those of the standard library (trusted as documented), without overflow of the number of guards. A target does not catch panics, and has no access to the cell it is in other than through the report. This replaces the assumption of C25 that shared targets are not accessed meanwhile.")
c("C118","proved",[A+x for x in "parse_counted parse_comparisons words_quadratic".split()],"Counted are comparisons of paths and names, as for C102; the binary search is that of the standard library. The term for the words cannot be left out: there are n commands whose n words take n (n + 1) / 2 comparisons (words_quadratic), because of the walk back that C102 is about.")
c("C119","proved",[T+x for x in "lossy_spec lossy_is_text lossy_borrowed_iff lossy_at_ascii lossy_length lossy_again lossy_surrogate".split()],"The conversion is String::from_utf8_lossy of the standard library, which is modelled after its implementation (the loop of Utf8Chunks), from memory: no copy was at hand. Valid sequences are the encodings of Unicode scalar values by Lean's own String.utf8EncodeChar. On Windows a lone surrogate becomes three replacement characters (proved), where OsStr of the standard library makes one of it.")
c("C120","partial",[D+x for x in "accepted_partial delivers_iff cells_are marshalled_accepted terminator_ignored length_ignored elements_ignored not_canonical".split()],"What is checked is proved exactly, for every data (delivers_iff): the bytes of numbers, texts and the lengths of texts. Not checked are the padding, the terminators, which need not even be there, and the lengths of arrays; so the property fails for every string and every array (not_canonical, length_ignored), and an array can be read as any beginning of it (elements_ignored). For the types the decoder has calls for: 16-bit numbers, strings, signatures and arrays.")
c("C121","partial",[D+x for x in "encodings_tell_partial sequences_tell_partial hollow_lost".split()],"For all values without arrays of structures that have no contents, and with lengths that fit. Signatures with empty structures are accepted, against the D-Bus specification, and encoders write arrays of them: these take no bytes, so any two such arrays have the same encoding (hollow_lost, for every such type). For the types the encoder has calls for, and variants with types of up to 31 codes, as for C33.")
c("C122","proved",[D+x for x in "yield_bounded rounds_bounded yield_reached".split()],"Data of less than usize::MAX bytes, as for C54. The bounds are reached (an empty signature without its terminator).")
c("C123","proved",[A+x for x in "schema_same parse_same help_same flags_ambiguous commands_ambiguous".split()],"Any sorter and searcher with the contract of the standard library. That distinct names are needed is proved for flags and for commands.")
c("C124","proved",["Verif.Str."+x for x in "natural_scan natural_plain natural_padded natural_prefix natural_common natural_numbers_first".split()],"The Unicode table of numeric characters is a parameter, as for C13.")
c("C125","proved",[H+x for x in "digest_binds digest_differs mac_binds short_keys long_keys".split()],"For what is hashed at all: messages and long keys of lengths 63 modulo 64 panic (C01, C04). The compressions are those of FIPS 180-4, whose results the code has by C01. That the compression function has no collisions that can be found is not claimed.")
c("C126","proved",[J+x for x in "local_marks local_lines local_parse local_elements local_damage".split()],"That the conditions are needed is shown by examples: strings and comments that are open take in what follows, and other characters can continue numbers, words, slashes or white space.")
c("C127","proved",[JB+x for x in "local_empty local_streams local_list reads_any".split()],"Texts as far as they can be read: a token and the byte behind it have at most isize::MAX bytes, as for C57. Every text that fits a slice can be read (reads_any).")
c("C128","proved",[D+x for x in "oblivious orders flipped_unique".split()],"oblivious is about all histories, with errors and panics, of any writer that does not look at the memory it lends, which the trait Write has no way to do between calls of map; orders about values that fit, with the calls of C33.")
c("C129","proved",[D+x for x in "enc_retry enc_waited dec_retry slice_ready dec_waited".split()],"Writers never map more than they were asked for (Exact), as in C33; the signatures of variants are those of C33 (Op.sanes); dec_waited is about values that the decoder has calls for, as in C35. Panics of writers and readers are C111.")
c("C130","proved",[A+x for x in "mixed_line_understood order_does_not_matter order_does_not_matter_with_errors usual_line".split()],"A flag stands after the words of a registered command with which it can be used (Usable, as in C66): elsewhere the name may mean another flag (C20). The first parameter before -- must not look like a further word of a command, no parameter before -- like a flag. That the place of help flags and of words does matter is shown by examples.")
c("C131","proved",[A+x for x in "told_grows flag_argument flag_and_value flag_on_targets".split()],"Stated with what the parser reports (told), not with the classification of C18 to C22. For report objects that do not ask to stop. Parameters do not leave everything else alone: they end the words of the command (example).")
c("C132","proved",["Verif.Json.Effort."+x for x in "metered_same history_metered life_history calls_linear work_linear stack_exact stack_brackets stack_capacity copies_linear stack_kept stack_unlimited".split()],"Counted is what C98 counts, calls of the tokenizer, and the capacity of the stack. stack_kept and stack_unlimited say that memory of the stack is not given back before the decoder is dropped, and that no depth is refused (no recursion is involved).")
c("C133","proved",[R+x for x in "xo_outputs_period xo_outputs_tell xo_seeds_tell splitmix64_two_tell splitmix64_all_differ children_differ".split()],"About the numbers of next64(); next32() is not part of this. How many numbers it takes to see that two Xoshiro256++ differ is not claimed, only that a period is enough (one number is not: example).")
c("C134","proved",["Verif.Json.Salvage."+x for x in "salvaged_reports salvaged_all text_salvaged items_tell".split()],"What is accepted as a whole is known from C46 (accepts_partial): it is not exactly JSON. Viable is stated with this grammar, without the decoder.")
c("C135","partial",["Verif.Str."+x for x in "sort_unique_partial sort_same sort_impossible".split()],"For lists of sortable strings (C14: numbers fit u64, or their text does not come before nineteen nines). For every other string there is a list of three in which it is, which has no arrangement in order at all (sort_impossible; assumes of Unicode what C14 does); Rust's sorts may then panic.")
c("C136","proved",["Verif.Str."+x for x in "symbols_same_iff symbols_differ symbols_all".split()],"The Unicode tables are parameters, as for C15.")
c("C137","proved",[D+"Final."+x for x in "written_final none_open_final committed_final front_final".split()],"Calls after which the program has panicked are not followed further. For any implementation of the writer, also one that maps less or more than it was asked for, or fails at any time.")
c("C138","proved",[D+"Glue."+x for x in "struct_assembled array_assembled variant_assembled member_at_eight".split()],"Values with lengths that fit, with the calls of C33. Dictionary entries have no signatures of their own and cannot be encoded alone. That arrays of 64-bit numbers are not the same everywhere is shown by an example.")
c("C139","proved",[D+"Ahead."+x for x in "answers_stay continuations_agree slices_agree differ_within".split()],"The reader of the longer data never refuses what is there, as slices never do; readers that do are C129. Calls after which the program has panicked are not followed further; C54 says that there are none.")
c("C140","proved",[D+"Finish."+x for x in "no_dead_end no_dead_end_vec never encodable_iff dead_end".split()],"Room: 16 bytes for each code of a type for which no value was written yet, and altogether less than 2^32 bytes, so that no array is too long. Variants are opened with signatures in the short representation (C33); their types have calls.")
c("C141","proved",[H+x for x in "digest_continues secret_prefix_forged collisions_continue".split()],"For what is hashed at all: lengths of 63 modulo 64 panic (C01).")
c("C142","proved",[I+"Hist."+x for x in "last_counts commits_only swapped joined overwritten reads_back".split()],"Alignments have exponents below 31 (32 and more panic, 31 is odd: C36) and indices that exist. The iterator is one over given bytes. Swapping, joining and leaving out are for operations that succeed.")
