{
 "claims": [
  {
   "property": "C01",
   "status": "proved",
   "theorems": [
    "Proto.Props.C01_byte_le_write_read",
    "Proto.Props.C01_byte_le_read",
    "Proto.Props.C01_byte_domain"
   ],
   "note": "Full characterisation of little-endian byte reads and writes, and the exact panic domain."
  },
  {
   "property": "C02",
   "status": "proved",
   "theorems": [
    "Proto.Props.C02_byte_be_write_read",
    "Proto.Props.C02_byte_be_lossy",
    "Proto.Props.C02_value_iff",
    "Proto.Props.C02_slice_iff",
    "Proto.Props.C02_full_false"
   ],
   "note": "Exact condition (C02_value_iff, C02_slice_iff). The unconditional round trip is refuted (C02_full_false)."
  },
  {
   "property": "C03",
   "status": "proved",
   "theorems": [
    "Proto.Props.C03_bit_le_read",
    "Proto.Props.C03_bit_le_read_fits",
    "Proto.Props.C03_bit_read_64"
   ],
   "note": "Exact bits read for every offset below the integer width and every size below 64."
  },
  {
   "property": "C04",
   "status": "proved",
   "theorems": [
    "Proto.Props.C04_bit_le_write",
    "Proto.Props.C04_bit_le_write_any",
    "Proto.Props.C04_bit_le_write_read"
   ],
   "note": "Exact bits changed, frame condition, read after write."
  },
  {
   "property": "C05",
   "status": "proved",
   "theorems": [
    "Proto.Props.C05_bit_be_read"
   ],
   "note": "Exact under the placement condition stated in the property."
  },
  {
   "property": "C06",
   "status": "proved",
   "theorems": [
    "Proto.Props.C06_bit_be_write_exact",
    "Proto.Props.C06_bit_be_write",
    "Proto.Props.C06_bit_be_write_read",
    "Proto.Props.C06_slice_iff",
    "Proto.Props.C06_field_iff",
    "Proto.Props.C06_full_false"
   ],
   "note": "Exact bits written (C06_bit_be_write_exact) and exact conditions (C06_slice_iff, C06_field_iff). The unconditional claim is refuted (C06_full_false)."
  },
  {
   "property": "C07",
   "status": "proved",
   "theorems": [
    "Proto.Props.C07_bytes_get",
    "Proto.Props.C07_bytes_set",
    "Proto.Props.C07_bytes_all",
    "Proto.Props.C07_array_len",
    "Proto.Props.C07_array_get",
    "Proto.Props.C07_array_set",
    "Proto.Props.C07_block_disjoint",
    "Proto.Props.C07_array_set_get",
    "Proto.Props.C07_array_set_frame",
    "Proto.Props.C07_array_set_get_be",
    "Proto.Props.C07_array_iter",
    "Proto.Props.C07_array_out_of_range",
    "Proto.Props.C07_array_wrapping_index",
    "Proto.Props.C07_array_sub_byte_items",
    "Proto.Props.C07_array_history"
   ],
   "note": "Get, set, frame, iteration, history, out-of-range panic; wrapping-index and sub-byte-item defects proved."
  },
  {
   "property": "C08",
   "status": "proved",
   "theorems": [
    "Proto.Props.C08_layout",
    "Proto.Props.C08_packed",
    "Proto.Props.C08_disjoint",
    "Proto.Props.C08_wrapping_overflow",
    "Proto.Props.C08_element_type",
    "Proto.Props.C08_width_domain"
   ],
   "note": "Positions, widths, names, types and sizes of every accepted structure; packed at every depth; release-profile wrap-around shown."
  },
  {
   "property": "C09",
   "status": "proved",
   "theorems": [
    "Proto.Props.C09_in_bounds",
    "Proto.Props.C09_no_panic"
   ],
   "note": "Every accessor slices inside the declared size; no raw accessor panics on supported widths, well placed or not."
  },
  {
   "property": "C10",
   "status": "proved",
   "theorems": [
    "Proto.Props.C10_get",
    "Proto.Props.C10_set",
    "Proto.Props.C10_array",
    "Proto.Props.C10_set_get",
    "Proto.Props.C10_disjoint"
   ],
   "note": "Exact bits read and written by any accessor chain (scalar, array item, nested) of a well placed structure; disjointness of all chains."
  },
  {
   "property": "C11",
   "status": "proved",
   "theorems": [
    "Proto.Props.C11_exact_iff_placed",
    "Proto.Props.C11_actual",
    "Proto.Props.C11_array_len",
    "Proto.Props.C11_full_false",
    "Proto.Props.C11_overlap_witness"
   ],
   "note": "Exact condition (C11_exact_iff_placed); the bits really addressed are characterised for all other fields. The unconditional claim is refuted (C11_full_false, C11_overlap_witness)."
  },
  {
   "property": "C12",
   "status": "proved",
   "theorems": [
    "Proto.Props.C12_history",
    "Proto.Props.C12_commute",
    "Proto.Props.C12_new_on_stack"
   ],
   "note": "Any history of raw sets: last write wins, frame, commutation, zero initialisation."
  },
  {
   "property": "C13",
   "status": "proved",
   "theorems": [
    "Proto.Props.C13_signed_view"
   ],
   "note": "From the declaration: signed view of every width 1..64 in both profiles."
  },
  {
   "property": "C14",
   "status": "proved",
   "theorems": [
    "Proto.Props.C14_bool_view"
   ],
   "note": "From the declaration: boolean view of every width."
  },
  {
   "property": "C15",
   "status": "proved",
   "theorems": [
    "Proto.Props.C15_enum_compile",
    "Proto.Props.C15_enum_view",
    "Proto.Props.C15_enum_gap_free",
    "Proto.Props.C15_full_false"
   ],
   "note": "Exact condition (C15_enum_gap_free); the getter is characterised for every enum. The unconditional claim is refuted (C15_full_false)."
  },
  {
   "property": "C16",
   "status": "proved",
   "theorems": [
    "Proto.Props.C16_range_params",
    "Proto.Props.C16_range_extremes",
    "Proto.Props.C16_full_false",
    "Proto.Props.C16_scaled_view",
    "Proto.Props.C16_range_setter",
    "Proto.Props.C16_range_view",
    "Proto.Props.C16_range_iff",
    "Proto.Props.C16_plain_view"
   ],
   "note": "Exact condition over exact rationals (C16_range_iff); setter and getter characterised for all ranges (C16_range_view). The unconditional claim is refuted (C16_full_false)."
  },
  {
   "property": "C17",
   "status": "proved",
   "theorems": [
    "Proto.Props.C17_slot",
    "Proto.Props.C17_confined"
   ],
   "note": "Write through a nested view equals write on a copy of the slot; bits outside the slot unchanged."
  },
  {
   "property": "C18",
   "status": "proved",
   "theorems": [
    "Proto.Props.C18_encode",
    "Proto.Props.C18_roundtrip",
    "Proto.Props.C18_decode",
    "Proto.Props.C18_short"
   ],
   "note": "Exact bytes, round trip with any tail, exact domain of the truncation error."
  },
  {
   "property": "C19",
   "status": "proved",
   "theorems": [
    "Proto.Props.C19_roundtrip",
    "Proto.Props.C19_decode_ok",
    "Proto.Props.C19_truncated",
    "Proto.Props.C19_invalid",
    "Proto.Props.C19_no_panic",
    "Proto.Props.C19_nul"
   ],
   "note": "Round trip; exact set of accepted inputs and of each error; no panic."
  },
  {
   "property": "C20",
   "status": "proved",
   "theorems": [
    "Proto.Props.C20_encode",
    "Proto.Props.C20_roundtrip_iff",
    "Proto.Props.C20_decode",
    "Proto.Props.C20_short_panics",
    "Proto.Props.C20_truncated",
    "Proto.Props.C20_invalid"
   ],
   "note": "Round trip iff the length fits the prefix; exact set of accepted inputs. A body shorter than announced panics (C20_short_panics)."
  },
  {
   "property": "C21",
   "status": "proved",
   "theorems": [
    "Proto.Props.C21_encode",
    "Proto.Props.C21_roundtrip",
    "Proto.Props.C21_decode"
   ],
   "note": "For every inner codec: encoding, round trip, exact behaviour on every input."
  },
  {
   "property": "C22",
   "status": "proved",
   "theorems": [
    "Proto.Props.C22_roundtrip",
    "Proto.Props.C22_decode_wire"
   ],
   "note": "Every schema whose greedy part, if any, comes last; every representable value, both profiles."
  },
  {
   "property": "C23",
   "status": "proved",
   "theorems": [
    "Proto.Props.C23_trailing",
    "Proto.Props.C23_accepted",
    "Proto.Props.C23_stream"
   ],
   "note": "Every self-delimiting schema; heterogeneous streams of messages by induction."
  },
  {
   "property": "C24",
   "status": "proved",
   "theorems": [
    "Proto.Props.C24_local",
    "Proto.Props.C24_left_over"
   ],
   "note": "Every schema and every accepted input."
  },
  {
   "property": "C25",
   "status": "proved",
   "theorems": [
    "Proto.Props.C25_no_panic",
    "Proto.Props.C25_count_fits",
    "Proto.Props.C25_panics_iff",
    "Proto.Props.C25_reached",
    "Proto.Props.C25_varchar_panics",
    "Proto.Props.C25_false_varchar",
    "Proto.Props.C25_false_array",
    "Proto.Props.C25_full_false"
   ],
   "note": "Exact set of inputs that panic, for every schema (C25_panics_iff); schemas that never panic (C25_no_panic). The unconditional claim is refuted (C25_full_false)."
  },
  {
   "property": "C26",
   "status": "proved",
   "theorems": [
    "Proto.Props.C26_prefix",
    "Proto.Props.C26_truncated",
    "Proto.Props.C26_cut"
   ],
   "note": "Every self-delimiting schema; error kind settled when there is no length-prefixed string."
  },
  {
   "property": "C27",
   "status": "proved",
   "theorems": [
    "Proto.Props.C27_reencode",
    "Proto.Props.C27_flag_not_canonical"
   ],
   "note": "Every schema and accepted input; byte-exact without optional fields, refuted with them (C27_flag_not_canonical)."
  },
  {
   "property": "C28",
   "status": "proved",
   "theorems": [
    "Proto.Props.C28_injective",
    "Proto.Props.C28_prefix_free",
    "Proto.Props.C28_decoded",
    "Proto.Props.C28_accepts",
    "Proto.Props.C28_accepts_whole",
    "Proto.Props.C28_grammar",
    "Proto.Props.C28_grammar_whole",
    "Proto.Props.C28_unambiguous",
    "Proto.Props.C28_written"
   ],
   "note": "Injectivity and prefix-freeness; the accepted language equals a grammar by iff (C28_grammar, C28_grammar_whole; inputs below 2^64 bytes, and without overflow checks array sizes that fit), without optional fields the wire forms of representable values (C28_accepts)."
  },
  {
   "property": "C29",
   "status": "proved",
   "theorems": [
    "Proto.Props.C29_message",
    "Proto.Props.C29_wire",
    "Proto.Props.C29_size_of",
    "Proto.Props.C29_appends",
    "Proto.Props.C29_overflow"
   ],
   "note": "For every encoder output: size query equals length appended, same failure."
  },
  {
   "property": "C30",
   "status": "proved",
   "theorems": [
    "Proto.Props.C30_failing",
    "Proto.Props.C30_enough",
    "Proto.Props.C30_any_stream"
   ],
   "note": "For every encoder output: failing stream and arbitrary prefix-delivering streams."
  },
  {
   "property": "C31",
   "status": "proved",
   "theorems": [
    "Proto.Props.C31_builder",
    "Proto.Props.C31_roundtrip",
    "Proto.Props.C31_message"
   ],
   "note": "For every self-delimiting item codec and finite sequence of items."
  },
  {
   "property": "C32",
   "status": "proved",
   "theorems": [
    "Proto.Props.C32_write_item",
    "Proto.Props.C32_failed_write",
    "Proto.Props.C32_false",
    "Proto.Props.C32_write_items_stop",
    "Proto.Props.C32_message_false"
   ],
   "note": "Exact effect of every item write; unchanged iff nothing was emitted (C32_failed_write). The unconditional claim is refuted (C32_false)."
  },
  {
   "property": "C33",
   "status": "proved",
   "theorems": [
    "Proto.Props.C33_any",
    "Proto.Props.C33_decoded"
   ],
   "note": "Decoded lists iterate fully; exact behaviour of iteration on arbitrary lists, including the endless repetition of an error."
  },
  {
   "property": "C34",
   "status": "proved",
   "theorems": [
    "Proto.Props.C34_decode",
    "Proto.Props.C34_overflow_checked",
    "Proto.Props.C34_get",
    "Proto.Props.C34_get_out",
    "Proto.Props.C34_iter",
    "Proto.Props.C34_from_parts",
    "Proto.Props.C34_modify",
    "Proto.Props.C34_decoded"
   ],
   "note": "Exact decoding when the total fits the word, panic otherwise (checked); get, iter, from_parts, in-place modification."
  },
  {
   "property": "C35",
   "status": "proved",
   "theorems": [
    "Proto.Props.C35_agree",
    "Proto.Props.C35_tiles",
    "Proto.Props.C35_nested",
    "Proto.Props.C35_exact",
    "Proto.Props.C35_size"
   ],
   "note": "Agreement with plain decoding in all outcomes; tiling; each range decodes alone to its field; nested offsets; C35_exact and C35_size give size and offsets as functions of the value."
  },
  {
   "property": "C36",
   "status": "proved",
   "theorems": [
    "Proto.Props.C36_key",
    "Proto.Props.C36_path",
    "Proto.Props.C36_unusable",
    "Proto.Props.C36_select",
    "Proto.Props.C36_as"
   ],
   "note": "Every union, discriminant and input; raw value identified with the key structure's bits."
  },
  {
   "property": "C37",
   "status": "proved",
   "theorems": [
    "Proto.Props.C37_set_discriminant",
    "Proto.Props.C37_unusable",
    "Proto.Props.C37_duplicate",
    "Proto.Props.C37_too_large"
   ],
   "note": "Every union, case, key content; needs the case value to fit and to be the first with that value (both needed: C37_duplicate, C37_too_large)."
  },
  {
   "property": "C38",
   "status": "proved",
   "theorems": [
    "Proto.Props.C38_refused",
    "Proto.Props.C38_accepted",
    "Proto.Props.C38_no_content",
    "Proto.Props.C38_iff",
    "Proto.Props.C38_false",
    "Proto.Props.C38_full_false"
   ],
   "note": "Exact set of refused values (C38_iff). The unconditional claim is refuted (C38_full_false)."
  },
  {
   "property": "C39",
   "status": "proved",
   "theorems": [
    "Proto.Props.C39_never",
    "Proto.Props.C39_takes_all"
   ],
   "note": "Every message with a field that takes the rest followed by one that needs a byte; every input."
  },
  {
   "property": "C40",
   "status": "proved",
   "theorems": [
    "Proto.Props.C40_roundtrip",
    "Proto.Props.C40_false",
    "Proto.Props.C40_full_false",
    "Proto.Props.C40_iff",
    "Proto.Props.C40_lazy",
    "Proto.Props.C40_open"
   ],
   "note": "Exact condition for items whose greedy part is last (C40_iff); round trip of the holding message (C40_roundtrip, C40_lazy). The unconditional claim is refuted (C40_full_false). Items with a greedy part before other fields are C39."
  },
  {
   "property": "C41",
   "status": "proved",
   "theorems": [
    "Proto.Props.C41_unsigned",
    "Proto.Props.C41_signed",
    "Proto.Props.C41_domain",
    "Proto.Props.C41_prefix",
    "Proto.Props.C41_widths"
   ],
   "note": "Every width and maximum."
  },
  {
   "property": "C42",
   "status": "proved",
   "theorems": [
    "Proto.Props.C42_accepts",
    "Proto.Props.C42_at_most_one",
    "Proto.Props.C42_rejects",
    "Proto.Props.C42_first_error",
    "Proto.Props.C42_multi_unreachable",
    "Proto.Props.C42_field_no_multi"
   ],
   "note": "Exact acceptance condition of a message declaration, error of every rejected one; the separate error for several greedy fields is unreachable."
  },
  {
   "property": "C43",
   "status": "proved",
   "theorems": [
    "Proto.Props.C43_delimited",
    "Proto.Props.C43_constant",
    "Proto.Props.C43_flags",
    "Proto.Props.C43_union_flags"
   ],
   "note": "Every message of every protocol a loader compiles, every value; flags of all nested messages characterised."
  },
  {
   "property": "C44",
   "status": "proved",
   "theorems": [
    "Proto.Props.C44_scope",
    "Proto.Props.C44_structs",
    "Proto.Props.C44_enums",
    "Proto.Props.C44_unions",
    "Proto.Props.C44_messages",
    "Proto.Props.C44_phases",
    "Proto.Props.C44_field",
    "Proto.Props.C44_undefined",
    "Proto.Props.C44_union_mismatch",
    "Proto.Props.C44_struct_undefined",
    "Proto.Props.C44_struct_refs",
    "Proto.Props.C44_message_refs",
    "Proto.Props.C44_no_recursion"
   ],
   "note": "The scope at every point of a protocol model is exactly its imports and earlier declarations, latest first; no recursion (identities strictly decrease)."
  },
  {
   "property": "C45",
   "status": "proved",
   "theorems": [
    "Proto.Props.C45_always_little",
    "Proto.Props.C45_byte_order",
    "Proto.Props.C45_full_false"
   ],
   "note": "Everything compiled is little-endian at every depth (C45_always_little). That the declared order is honoured is refuted (C45_full_false)."
  },
  {
   "property": "C46",
   "status": "proved",
   "theorems": [
    "Proto.Props.C46_enum",
    "Proto.Props.C46_zero",
    "Proto.Props.C46_lookup",
    "Proto.Props.C46_order"
   ],
   "note": "Every variant list in every order."
  },
  {
   "property": "C47",
   "status": "proved",
   "theorems": [
    "Proto.Props.C47_split",
    "Proto.Props.C47_path",
    "Proto.Props.C47_accepted",
    "Proto.Props.C47_path_iff",
    "Proto.Props.C47_trailing",
    "Proto.Props.C47_rejects",
    "Proto.Props.C47_full_false",
    "Proto.Props.C47_leaf"
   ],
   "note": "Accepted paths and panics characterised exactly (C47_path_iff, C47_accepted, C47_rejects). The unconditional claim is refuted (C47_full_false)."
  },
  {
   "property": "C48",
   "status": "proved",
   "theorems": [
    "Proto.Props.C48_messages",
    "Proto.Props.C48_union_panics",
    "Proto.Props.C48_union_ok",
    "Proto.Props.C48_structs",
    "Proto.Props.C48_structs_release",
    "Proto.Props.C48_unions",
    "Proto.Props.C48_field_panics",
    "Proto.Props.C48_struct_panics",
    "Proto.Props.C48_protocol_panics",
    "Proto.Props.C48_protocol_ok",
    "Proto.Props.C48_release",
    "Proto.Props.C48_loader",
    "Proto.Props.C48_no_unions",
    "Proto.Props.C48_full_false"
   ],
   "note": "Exact set of panicking protocols in both profiles (C48_protocol_panics, C48_struct_panics, C48_union_panics). The unconditional claim is refuted (C48_full_false)."
  },
  {
   "property": "C49",
   "status": "proved",
   "theorems": [
    "Proto.Props.C49_import",
    "Proto.Props.C49_unregistered",
    "Proto.Props.C49_no_solver",
    "Proto.Props.C49_register",
    "Proto.Props.C49_new",
    "Proto.Props.C49_type_path",
    "Proto.Props.C49_named",
    "Proto.Props.C49_import_path",
    "Proto.Props.C49_imports_append"
   ],
   "note": "Exact effect of every import, of registering, and of type path lookups; invariant that types are known under their own name."
  },
  {
   "property": "C50",
   "status": "proved",
   "theorems": [
    "Proto.Props.C50_imports",
    "Proto.Props.C50_models",
    "Proto.Props.C50_loader",
    "Proto.Props.C50_first_failure",
    "Proto.Props.C50_order",
    "Proto.Props.C50_models_isolated"
   ],
   "note": "Equational characterisation of loading, first failure, order of results."
  },
  {
   "property": "C51",
   "status": "proved",
   "theorems": [
    "Proto.Props.C51_field",
    "Proto.Props.C51_size",
    "Proto.Props.C51_exact",
    "Proto.Props.C51_inlined",
    "Proto.Props.C51_size_iff",
    "Proto.Props.C51_full_false",
    "Proto.Props.C51_scalar"
   ],
   "note": "Exact condition (C51_size_iff); exact size on the wire of every structure field. The unconditional claim is refuted (C51_full_false)."
  },
  {
   "property": "C52",
   "status": "proved",
   "theorems": [
    "Proto.C52_decimal",
    "Proto.C52_paths",
    "Proto.C52_structure",
    "Proto.C52_structure_panics",
    "Proto.C52_enum",
    "Proto.C52_union",
    "Proto.C52_message",
    "Proto.C52_message_panics",
    "Proto.C52_from_slice",
    "Proto.C52_write",
    "Proto.C52_offsets",
    "Proto.C52_files",
    "Proto.C52_umbrella",
    "Proto.C52_chain",
    "Proto.C52_compiled",
    "Proto.C52_panics",
    "Proto.C52_compiled_iff",
    "Proto.C52_full_false"
   ],
   "note": "Exact text of every generated file and exact panic condition (C52_compiled_iff); no panic for compiled protocols with ranged widths and nameable fields (C52_compiled). The unconditional claim is refuted (C52_full_false: a zero-bit field and a list named with a non-ASCII first letter)."
  },
  {
   "property": "C64",
   "status": "proved",
   "theorems": [
    "Proto.C64_message_declared",
    "Proto.C64_union_declared",
    "Proto.C64_referenced",
    "Proto.C64_case_referenced",
    "Proto.C64_full_false"
   ],
   "note": "Declarations and mentions characterised exactly for every message and union. The unconditional claim is refuted (C64_full_false)."
  },
  {
   "property": "C65",
   "status": "proved",
   "theorems": [
    "Proto.C65_structure",
    "Proto.C65_structure_panics",
    "Proto.C65_files",
    "Proto.C65_panics_iff",
    "Proto.C65_umbrella",
    "Proto.C65_compiled",
    "Proto.C65_full_false"
   ],
   "note": "Exact text and exact panic condition for every protocol (C65_panics_iff); generation succeeds for compiled protocols with ranged widths. The unconditional claim is refuted (C65_full_false)."
  },
  {
   "property": "C53",
   "status": "proved",
   "theorems": [
    "Proto.C53_lines",
    "Proto.C53_full_false",
    "Proto.C53_readings",
    "Proto.C53_one_reading",
    "Proto.C53_any_line",
    "Proto.C53_clash"
   ],
   "note": "Substitution for all lines without the clash (C53_lines), value of every line from its only greedy reading (C53_readings, C53_one_reading, C53_any_line). The unconditional claim is refuted (C53_full_false: a reference directly followed by a doubled closing brace is not substituted)."
  },
  {
   "property": "C54",
   "status": "proved",
   "theorems": [
    "Proto.C54_fragments",
    "Proto.C54_several",
    "Proto.C54_template"
   ],
   "note": "Every well nested template, both line ends; last fragment of a name wins."
  },
  {
   "property": "C55",
   "status": "proved",
   "theorems": [
    "Proto.C55_invalid_pop",
    "Proto.C55_no_fragment",
    "Proto.C55_crlf_blank",
    "Proto.C55_unknown_function",
    "Proto.C55_invalid_utf8",
    "Proto.C55_compile_total",
    "Proto.C55_render_ok",
    "Proto.C55_missing_fragment",
    "Proto.C55_missing_variable",
    "Proto.C55_functions",
    "Proto.C55_defaults",
    "Proto.C55_capitalize"
   ],
   "note": "Each error proved from arbitrary surrounding template text; render succeeds iff every variable is defined; compilation never panics."
  },
  {
   "property": "C56",
   "status": "proved",
   "theorems": [
    "Proto.C56_history",
    "Proto.C56_render_congr",
    "Proto.C56_render_to_var"
   ],
   "note": "Every history of scope creation, cloning, setting and rendering."
  },
  {
   "property": "C57",
   "status": "proved",
   "theorems": [
    "Proto.C57_one_ok",
    "Proto.C57_first_failure",
    "Proto.C57_one_fails",
    "Proto.C57_nothing_else",
    "Proto.C57_one_iff",
    "Proto.C57_all",
    "Proto.C57_stops",
    "Proto.C57_kinds",
    "Proto.C57_setters",
    "Proto.C57_defaults",
    "Proto.C57_folder_twice",
    "Proto.C57_reports",
    "Proto.C57_folder",
    "Proto.C57_join"
   ],
   "note": "For every generator, file system behaviour, option setting and starting point: exact operations done, on success and on failure."
  },
  {
   "property": "C58",
   "status": "proved",
   "theorems": [
    "Proto.Props.C58_wire"
   ],
   "note": "Every schema and representable value."
  },
  {
   "property": "C59",
   "status": "proved",
   "theorems": [
    "Proto.Props.C59_unsigned",
    "Proto.Props.C59_signed",
    "Proto.Props.C59_enum",
    "Proto.Props.C59_negative_unreachable",
    "Proto.Props.C59_reachable",
    "Proto.Props.C59_cases"
   ],
   "note": "Accepted strings and values characterised exactly; exact set of reachable signed cases (C59_reachable). The unconditional claim is refuted (C59_negative_unreachable)."
  },
  {
   "property": "C60",
   "status": "proved",
   "theorems": [
    "Proto.Props.C60_structures"
   ],
   "note": "Every set of loaded models, checked profile; invariant over the whole loading run."
  },
  {
   "property": "C61",
   "status": "proved",
   "theorems": [
    "Proto.Props.C61_no_panic",
    "Proto.Props.C61_structs"
   ],
   "note": "Every set of loaded models, checked profile; end to end through compiler and decoder."
  },
  {
   "property": "C62",
   "status": "proved",
   "theorems": [
    "Proto.Props.C62_same_outcome",
    "Proto.Props.C62_wraps"
   ],
   "note": "Every loader, solver and state."
  },
  {
   "property": "C63",
   "status": "proved",
   "theorems": [
    "Proto.C63_prints",
    "Proto.C63_one_per_protocol"
   ],
   "note": "Every loader outcome, option setting and file system behaviour."
  },
  {
   "property": "C66",
   "status": "proved",
   "theorems": [
    "Proto.Rs.C66_from_slice",
    "Proto.Rs.C66_offsets",
    "Proto.Rs.C66_compiled",
    "Proto.Rs.C66_links",
    "Proto.Rs.C66_names_needed"
   ],
   "note": "Text equals printed program (C66_from_slice, C66_offsets), run equals specification for every compiled message under the name conditions; each condition shown necessary (C66_names_needed), linking characterised exactly (C66_links). Semantics of the Rust subset in the trusted base."
  },
  {
   "property": "C67",
   "status": "proved",
   "theorems": [
    "Proto.Rs.C67_write",
    "Proto.Rs.C67_roundtrip"
   ],
   "note": "Text equals printed program, run equals specification; end-to-end round trip of the two programs for compiled messages (C67_roundtrip)."
  },
  {
   "property": "C68",
   "status": "proved",
   "theorems": [
    "Proto.Rs.C68_union",
    "Proto.Rs.C68_case",
    "Proto.Rs.C68_compiled",
    "Proto.Rs.C68_value_needed"
   ],
   "note": "Text equals printed programs, runs equal the specification for every union with unambiguous names and fitting case values; the value condition is necessary (C68_value_needed)."
  },
  {
   "property": "C69",
   "status": "proved",
   "theorems": [
    "Proto.Rs.Acc.C69_text",
    "Proto.Rs.Acc.C69_raw",
    "Proto.Rs.Acc.C69_view",
    "Proto.Rs.Acc.C69_enum_rejected",
    "Proto.Rs.Acc.C69_compiled",
    "Proto.Rs.Acc.C69_signed",
    "Proto.Rs.Acc.C69_enum_accepted",
    "Proto.Rs.Acc.C69_rounded",
    "Proto.Rs.Acc.C69_ieee",
    "Proto.Rs.Acc.C69_ieee_reread",
    "Proto.Rs.Acc.C69_ieee_write_read",
    "Proto.Rs.Acc.C69_ieee_read",
    "Proto.Rs.Acc.C69_ieee_offset",
    "Proto.Rs.Acc.C69_special",
    "Proto.Rs.Acc.C69_unsigned",
    "Proto.Rs.Acc.C69_float",
    "Proto.Rs.Acc.C69_bool",
    "Proto.Rs.Acc.C69_range",
    "Proto.Rs.Acc.C69_scaled",
    "Proto.Rs.Acc.C69_enum",
    "Proto.Rs.Acc.C69_part"
   ],
   "note": "Text equals printed programs (C69_text), runs equal the model of the accessors (C69_raw, C69_view), compiled fields are well typed apart from enum views (C69_compiled), the enum condition is necessary (C69_enum_rejected) and not checked (C69_enum_accepted); end to end from the declaration for every kind of scalar field (C69_signed, C69_unsigned, C69_bool, C69_float, C69_range, C69_scaled, C69_enum) and for arrays and nested structures (C69_part). Float views also with the parameters computed in f64 and all operations rounded as Rust does (C69_rounded, C69_ieee, C69_ieee_reread, C69_ieee_write_read; with an offset C69_ieee_read, C69_ieee_offset); the decimal a constant's text denotes is a parameter that rounds to the constant."
  },
  {
   "property": "C70",
   "status": "proved",
   "theorems": [
    "Proto.Rs.Acc.C70_names",
    "Proto.Rs.Acc.C70_declared",
    "Proto.Rs.Acc.C70_accepted"
   ],
   "note": "Exact condition on field names (C70_names), tied to the generated text (C70_declared); collisions are accepted by the compiler (C70_accepted)."
  },
  {
   "property": "C71",
   "status": "proved",
   "theorems": [
    "Proto.Props.Input.C71_meaning",
    "Proto.Props.Input.C71_unique",
    "Proto.Props.Input.C71_refused",
    "Proto.Props.Input.C71_variant_names",
    "Proto.Props.Input.C71_variant_values",
    "Proto.Props.Input.C71_load",
    "Proto.Props.Input.C71_import",
    "Proto.Props.Input.C71_failure",
    "Proto.Props.Input.C71_import_failure"
   ],
   "note": "Exact acceptance and meaning of every document (C71_meaning, C71_unique, C71_refused), of files (C71_load, C71_import, C71_failure), and of enum variants through compilation (C71_variant_values). Documents are JSON5 values after parsing; crate behaviour not fixed by the repository is a parameter."
  },
  {
   "property": "C72",
   "status": "proved",
   "theorems": [
    "Proto.Props.Input.C72_members",
    "Proto.Props.Input.C72_agree",
    "Proto.Props.Input.C72_null"
   ],
   "note": "Twelve kinds of objects, every pair of member lists that agree on the known members (C72_members, C72_agree), null as absent (C72_null)."
  },
  {
   "property": "C73",
   "status": "proved",
   "theorems": [
    "Proto.Props.Input.C73_host",
    "Proto.Props.Input.C73_roundtrip",
    "Proto.Props.Input.C73_exact"
   ],
   "note": "Every writable model (C73_roundtrip, C73_exact)."
  },
  {
   "property": "C74",
   "status": "proved",
   "theorems": [
    "Proto.Sw.C74_read",
    "Proto.Sw.C74_digits",
    "Proto.Sw.C74_write"
   ],
   "note": "Every width, byte order and view of a buffer; compared with the Rust model outcome by outcome."
  },
  {
   "property": "C75",
   "status": "proved",
   "theorems": [
    "Proto.Sw.C75_bytes",
    "Proto.Sw.C75_byte",
    "Proto.Sw.C75_append",
    "Proto.Sw.C75_fresh",
    "Proto.Sw.C75_reuse",
    "Proto.Sw.C75_reuse_last",
    "Proto.Sw.C75_reuse_false",
    "Proto.Sw.C75_shared",
    "Proto.Sw.C75_copied",
    "Proto.Sw.C75_beyond",
    "Proto.Sw.C75_data"
   ],
   "note": "Exact contents after every write (C75_bytes, C75_byte), every sequence of writes at the end (C75_append, C75_fresh), reuse below the old length (C75_reuse); the exception is exact (C75_reuse_last) and the unconditional claim refuted (C75_reuse_false)."
  },
  {
   "property": "C76",
   "status": "proved",
   "theorems": [
    "Proto.Sw.C76_null_exact",
    "Proto.Sw.C76_null_none",
    "Proto.Sw.C76_null",
    "Proto.Sw.C76_null_size",
    "Proto.Sw.C76_null_empty",
    "Proto.Sw.C76_null_missing",
    "Proto.Sw.C76_null_utf8",
    "Proto.Sw.C76_varchar_exact",
    "Proto.Sw.C76_varchar",
    "Proto.Sw.C76_never_utf8",
    "Proto.Sw.C76_write"
   ],
   "note": "Exact outcome for every buffer (C76_null_exact, C76_null_none, C76_varchar_exact); agreement with the Rust library characterised by iff (C76_null, C76_varchar, C76_null_missing). Foundation's open behaviour is a parameter."
  },
  {
   "property": "C77",
   "status": "proved",
   "theorems": [
    "Proto.Sw.C77_read",
    "Proto.Sw.C77_exact",
    "Proto.Sw.C77_write"
   ],
   "note": "Every inner decoder that agrees (C77_read), exact size difference (C77_exact)."
  },
  {
   "property": "C78",
   "status": "proved",
   "theorems": [
    "Proto.Sw.C78_list",
    "Proto.Sw.C78_list_empty",
    "Proto.Sw.C78_list_error",
    "Proto.Sw.C78_array_exact",
    "Proto.Sw.C78_array",
    "Proto.Sw.C78_write"
   ],
   "note": "Every item decoder that agrees; exact outcome for arrays (C78_array_exact)."
  },
  {
   "property": "C79",
   "status": "proved",
   "theorems": [
    "Proto.Sw.C79_aligned",
    "Proto.Sw.C79_unaligned_exact",
    "Proto.Sw.C79_unaligned_last",
    "Proto.Sw.C79_unaligned",
    "Proto.Sw.C79_read",
    "Proto.Sw.C79_bits",
    "Proto.Sw.C79_bits_wide",
    "Proto.Sw.C79_bits_big_offset",
    "Proto.Sw.C79_bits_exact",
    "Proto.Sw.C79_bits_unaligned"
   ],
   "note": "Exact outcome of aligned and unaligned reads; agreement by iff (C79_unaligned)."
  },
  {
   "property": "C80",
   "status": "proved",
   "theorems": [
    "Proto.Sw.C80_aligned",
    "Proto.Sw.C80_unaligned",
    "Proto.Sw.C80_unaligned_lost",
    "Proto.Sw.C80_unaligned_last",
    "Proto.Sw.C80_bits_trap",
    "Proto.Sw.C80_bits",
    "Proto.Sw.C80_bits_unaligned",
    "Proto.Sw.C80_write"
   ],
   "note": "Exact contents after aligned and unaligned writes; trap for 1- and 4-byte integers (C80_bits_trap)."
  },
  {
   "property": "C81",
   "status": "proved",
   "theorems": [
    "Proto.Sw.C81_count",
    "Proto.Sw.C81_get",
    "Proto.Sw.C81_get_packed",
    "Proto.Sw.C81_set",
    "Proto.Sw.C81_set_immutable",
    "Proto.Sw.C81_overflow"
   ],
   "note": "Exact outcome for items of the type's size (C81_get, C81_set) and others (C81_get_packed)."
  },
  {
   "property": "C82",
   "status": "proved",
   "theorems": [
    "Proto.Rs.Head.C82_text",
    "Proto.Rs.Head.C82_bytes",
    "Proto.Rs.Head.C82_from_slice",
    "Proto.Rs.Head.C82_from_slice_bytes",
    "Proto.Rs.Head.C82_write_to",
    "Proto.Rs.Head.C82_write_to_bytes",
    "Proto.Rs.Head.C82_round_trip",
    "Proto.Rs.Head.C82_new_on_stack"
   ],
   "note": "Text equals printed programs (C82_text), runs characterised for every structure and byte string."
  },
  {
   "property": "C83",
   "status": "proved",
   "theorems": [
    "Proto.Sw.C83_closed",
    "Proto.Sw.C83_from",
    "Proto.Sw.C83_through",
    "Proto.Sw.C83_bytes",
    "Proto.Sw.C83_shared",
    "Proto.Sw.C83_parts",
    "Proto.Sw.C83_new",
    "Proto.Sw.C83_byte",
    "Proto.Sw.C83_find",
    "Proto.Sw.C83_find_beyond",
    "Proto.Sw.C83_find_default",
    "Proto.Sw.C83_find_same",
    "Proto.Sw.C83_data",
    "Proto.Sw.C83_copy_default",
    "Proto.Sw.C83_copy"
   ],
   "note": "Exact outcome of every subscript in both builds (C83_closed, C83_from, C83_through), of searching (C83_find, C83_find_default; agreement by iff in C83_find_same) and copying (C83_data, C83_copy, C83_copy_default)."
  },
  {
   "property": "C84",
   "status": "proved",
   "theorems": [
    "Proto.Rs.C84_messages",
    "Proto.Rs.C84_structures",
    "Proto.Rs.C84_unsigned"
   ],
   "note": "Composition of C50, C57, C63, C71, C52, C66, C67 and C69; stated from the outcome of the build script alone (plus the conditions of C66/C67/C69 on the message, value and structure). Checked builds of the compiler."
  },
  {
   "property": "C85",
   "status": "proved",
   "theorems": [
    "Proto.Props.C85_round",
    "Proto.Props.C85_multiplier_params",
    "Proto.Props.C85_range_params",
    "Proto.Props.C85_view",
    "Proto.Props.C85_reread",
    "Proto.Props.C85_write_read",
    "Proto.Props.C85_read",
    "Proto.Props.C85_offset",
    "Proto.Props.C85_power_of_two",
    "Proto.Props.C85_lossy",
    "Proto.Props.C85_order",
    "Proto.Props.C85_special",
    "Proto.Props.C85_infinite",
    "Proto.Props.C85_fixture"
   ],
   "note": "Rounding characterised by nearest-even (C85_round), parameters by iff (C85_multiplier_params, C85_range_params), accessors by what they compute for every buffer (C85_view); error bounds for every value (C85_reread, C85_write_read). Views with an offset: C85_read and C85_offset bound what is read, and how far a number written and read back is off; C85_infinite gives the arithmetic of infinities and NaN."
  },
  {
   "property": "C86",
   "status": "proved",
   "theorems": [
    "Proto.C86_add",
    "Proto.C86_sub",
    "Proto.C86_mul",
    "Proto.C86_shift",
    "Proto.C86_not",
    "Proto.C86_div",
    "Proto.C86_usize"
   ],
   "note": "Each operation of the model equals the operation on BitVec or panics, by iff."
  },
  {
   "property": "C87",
   "status": "proved",
   "theorems": [
    "Proto.Fix.C87_test",
    "Proto.Fix.C87_test_accepts",
    "Proto.Fix.C87_item_accepts",
    "Proto.Fix.C87_item",
    "Proto.Fix.C87_item_unknown",
    "Proto.Fix.C87_set_discriminant",
    "Proto.Fix.C87_run_accepts",
    "Proto.Fix.C87_run",
    "Proto.Fix.C87_run_vars",
    "Proto.Fix.C87_dataset_accepts",
    "Proto.Fix.C87_dataset",
    "Proto.Fix.C87_dataset_runs",
    "Proto.Fix.C87_msg_accepts",
    "Proto.Fix.C87_msg1_accepts",
    "Proto.Fix.C87_structs",
    "Proto.Fix.C87_structs_access",
    "Proto.Fix.C87_basic",
    "Proto.Fix.C87_bits",
    "Proto.Fix.C87_header",
    "Proto.Fix.C87_compiles",
    "Proto.Fix.C87_builds"
   ],
   "note": "Schemas are transcribed to JSON values (C87_compiles, C87_builds hold for every reader that reads the files as them); JSON5 syntax itself is not modelled."
  },
  {
   "property": "C88",
   "status": "proved",
   "theorems": [
    "Proto.Rs.Typ.C88_text",
    "Proto.Rs.Typ.C88_text_names",
    "Proto.Rs.Typ.C88_places",
    "Proto.Rs.Typ.C88_declaration",
    "Proto.Rs.Typ.C88_decoder",
    "Proto.Rs.Typ.C88_encoder",
    "Proto.Rs.Typ.C88_offsets",
    "Proto.Rs.Typ.C88_aliases",
    "Proto.Rs.Typ.C88_union",
    "Proto.Rs.Typ.C88_compiled",
    "Proto.Rs.Typ.C88_compiled_union",
    "Proto.Rs.Typ.C88_full_false",
    "Proto.Rs.Typ.C88_testprog"
   ],
   "note": "Expressions equal the generated text (C88_text, C88_text_names); declaration, decoder, encoder, offsets, aliases and unions characterised by iff (C88_declaration, C88_decoder, C88_encoder, C88_offsets, C88_aliases, C88_union), for compiled protocols in C88_compiled. The unconditional claim is refuted (C88_full_false). Trait implementations and type expressions are in the trusted base."
  },
  {
   "property": "C89",
   "status": "proved",
   "theorems": [
    "Proto.Fix.C89_loads",
    "Proto.Fix.C89_compiles",
    "Proto.Fix.C89_reproducible",
    "Proto.Fix.C89_ties",
    "Proto.Fix.C89_testprog",
    "Proto.Fix.C89_full_false"
   ],
   "note": "Same loading in every order (C89_loads), same compilation (C89_compiles) and same build (C89_reproducible) when values are distinct; exactly then for one enum (C89_ties). The unconditional claim is refuted (C89_full_false). The test program: C89_testprog."
  },
  {
   "property": "C90",
   "status": "proved",
   "theorems": [
    "Proto.Props.C90_history",
    "Proto.Props.C90_view",
    "Proto.Props.C90_change_len"
   ],
   "note": "Refinement of every history of operations to a list of items (C90_history); what a program sees of such an array (C90_view)."
  },
  {
   "property": "C91",
   "status": "proved",
   "theorems": [
    "Proto.Decl.C91_items",
    "Proto.Decl.C91_unique",
    "Proto.Decl.C91_clashes"
   ],
   "note": "Declared names read off the generated text by a scanner (C91_items); uniqueness by iff (C91_unique); an accepted protocol with a clash (C91_clashes)."
  },
  {
   "property": "C92",
   "status": "proved",
   "theorems": [
    "Proto.Decl.C92_structure",
    "Proto.Decl.C92_union",
    "Proto.Decl.C92_message",
    "Proto.Decl.C92_enum"
   ],
   "note": "Declared names read off the generated text; uniqueness by iff for structures, unions, messages and offsets."
  },
  {
   "property": "C93",
   "status": "proved",
   "theorems": [
    "Proto.Decl.C93_calls",
    "Proto.Decl.C93_paths",
    "Proto.Decl.C93_identifiers"
   ],
   "note": "Arguments read off the generated text (C93_calls), paths of all types (C93_paths), identifiers by iff (C93_identifiers)."
  },
  {
   "property": "C94",
   "status": "proved",
   "theorems": [
    "Proto.Decl.C94_shadowed"
   ],
   "note": "What the name resolves to and the path written, for every compiled protocol (C94_shadowed); an example with different sizes."
  },
  {
   "property": "C95",
   "status": "proved",
   "theorems": [
    "Proto.Props.C95_old_reader",
    "Proto.Props.C95_old_reads_new",
    "Proto.Props.C95_refused",
    "Proto.Props.C95_new_reader_fails",
    "Proto.Props.C95_compiles"
   ],
   "note": "Old readers on new data (C95_old_reader, C95_old_reads_new, C95_refused), new readers on old data (C95_new_reader_fails), compilation (C95_compiles)."
  },
  {
   "property": "C96",
   "status": "proved",
   "theorems": [
    "Proto.Props.C96_compiles",
    "Proto.Props.C96_accepted",
    "Proto.Props.C96_fields"
   ],
   "note": "Layout (C96_compiles), acceptance (C96_accepted), accessors on the longer buffer (C96_fields)."
  },
  {
   "property": "C97",
   "status": "proved",
   "theorems": [
    "Proto.Props.C97_decode",
    "Proto.Props.C97_encode",
    "Proto.Props.C97_compiles"
   ],
   "note": "Compilation, decoding and encoding."
  },
  {
   "property": "C98",
   "status": "proved",
   "theorems": [
    "Proto.Props.C98_decode",
    "Proto.Props.C98_encode",
    "Proto.Props.C98_compiles"
   ],
   "note": "Compilation, decoding (equality of results, errors included) and encoding, for every injective renaming."
  },
  {
   "property": "C99",
   "status": "proved",
   "theorems": [
    "Proto.C99_ready",
    "Proto.C99_build",
    "Proto.C99_recovers",
    "Proto.C99_rust",
    "Proto.C99_folder"
   ],
   "note": "Over a disk model (Spec/Disk.lean: entries by path, parents required, a crash leaves any content in the file being written). Paths are compared as strings: the output directory is not empty and does not end in a separator, protocol names are single path components."
  },
  {
   "property": "C100",
   "status": "proved",
   "theorems": [
    "Proto.Props.C100_readers",
    "Proto.Props.C100_safe"
   ],
   "note": "Exact reading of old by new and new by old (C100_readers), and the condition under which no undeclared variant is read (C100_safe)."
  },
  {
   "property": "C101",
   "status": "proved",
   "theorems": [
    "Proto.Props.C101_messages",
    "Proto.Props.C101_structures",
    "Proto.Props.C101_identities"
   ],
   "note": "A simulation of the whole compilation: imports, structures, enums, unions and messages. Renamings keep names without a dot free of dots, as dots separate the path of a discriminant."
  },
  {
   "property": "C102",
   "status": "proved",
   "theorems": [
    "Proto.Props.C102_least",
    "Proto.Props.C102_short",
    "Proto.Props.C102_reached",
    "Proto.Props.C102_empty",
    "Proto.Props.C102_items",
    "Proto.Props.C102_iteration",
    "Proto.Props.C102_announced"
   ],
   "note": "Items that can be empty make the time of decoding independent of the size of the input: a finding, stated by C102_announced. C102_empty and C102_announced assume unions are keyed on an earlier structure (Message.Keyed), as C61 shows for compiled messages."
  },
  {
   "property": "C103",
   "status": "proved",
   "theorems": [
    "Proto.Props.C103_appended",
    "Proto.Props.C103_appended_fails",
    "Proto.Props.C103_unlisted",
    "Proto.Props.C103_messages",
    "Proto.Props.C103_lists",
    "Proto.Props.C103_structures"
   ],
   "note": "Both builds start in a fresh process. That the additions themselves compile is a hypothesis. C103_appended and C103_unlisted are about one file and messages at its end. The counterexample beside the theorems shows why lists of old messages are excluded: they set the embedded mark of the listed message. C103_lists allows them and shows what remains: writing, and decoding of self-delimiting messages."
  },
  {
   "property": "C104",
   "status": "proved",
   "theorems": [
    "Proto.Props.C104_accessors",
    "Proto.Props.C104_wide",
    "Proto.Props.C104_iff",
    "Proto.Props.C104_codec",
    "Proto.Props.C104_same",
    "Proto.Props.C104_release_read",
    "Proto.Props.C104_release_write",
    "Proto.Props.C104_items_checked",
    "Proto.Props.C104_items",
    "Proto.Props.C104_items_release",
    "Proto.Props.C104_parts"
   ],
   "note": "Runtime/Word.lean and Gen/Word.lean are the runtime and the accessors with the width of usize as a parameter. Slices on a target of w bits are shorter than 2^w bytes. Release reads and writes are stated for little-endian fields, the only byte order the compiler assigns."
  },
  {
   "property": "C105",
   "status": "proved",
   "theorems": [
    "Proto.Props.C105_same",
    "Proto.Props.C105_64",
    "Proto.Props.C105_checked",
    "Proto.Props.C105_accepts",
    "Proto.Props.C105_offsets",
    "Proto.Props.C105_offsets_64",
    "Proto.Props.C105_offsets_checked",
    "Proto.Props.C105_offsets_accepts",
    "Proto.Props.C105_forget",
    "Proto.Props.C105_tiles",
    "Proto.Props.C105_write",
    "Proto.Props.C105_roundtrip",
    "Proto.Props.C105_size",
    "Proto.Props.C105_size_large",
    "Proto.Props.C105_discriminant"
   ],
   "note": "Conditions are computed from the compiled message (Spec/Word.lean). C105_checked and C105_accepts are for widths up to 32. Recording offsets is covered under the same conditions (C105_offsets*)."
  },
  {
   "property": "C106",
   "status": "proved",
   "theorems": [
    "Proto.Props.C106_wire",
    "Proto.Props.C106_compiles"
   ],
   "note": "Both builds start in a fresh process. Errors of builds that do not compile are not compared. The counterexample beside the theorems exchanges two structures of which one uses an imported structure with the name of the other."
  },
  {
   "property": "C107",
   "status": "proved",
   "theorems": [
    "Proto.Props.C107_messages",
    "Proto.Props.C107_structures",
    "Proto.Props.C107_without_unions",
    "Proto.Props.C107_limits"
   ],
   "note": "Both builds are assumed to compile: a change of kind or view can be rejected. That cases have the same values and that discriminants are found at the same numbers is assumed of the compiled unions; without unions nothing is assumed of compiled forms. The counterexample beside the theorems makes the only field of a structure a scaled one, which takes a byte less in a message."
  },
  {
   "property": "C108",
   "status": "proved",
   "theorems": [
    "Proto.Props.C108_find",
    "Proto.Props.C108_replace",
    "Proto.Props.C108_again",
    "Proto.Props.C108_stay",
    "Proto.Props.C108_number",
    "Proto.Props.C108_structure"
   ],
   "note": "The two conditions are needed: the examples beside the theorems put bytes after a buffer, which takes them, and change a key, which makes the following bytes something else. The generated offsets have no function that adds up origins; the path is the user's."
  },
  {
   "property": "C109",
   "status": "proved",
   "theorems": [
    "Proto.Props.C109_decoded",
    "Proto.Props.C109_written",
    "Proto.Props.C109_window",
    "Proto.Props.C109_reached",
    "Proto.Props.C109_unlimited"
   ],
   "note": "That some case of a union can be selected depends on the values of its key and is not part of the statement. The declared limit of a string, array or list is only used to choose the width of the prefix, so the size is that of the prefix."
  },
  {
   "property": "C110",
   "status": "proved",
   "theorems": [
    "Proto.Props.C110_pieces",
    "Proto.Props.C110_delivered",
    "Proto.Props.C110_final"
   ],
   "note": "The client is not part of the repository; the statement is about what it can rely on. The bytes are cut anywhere, also inside a field, and pieces may be empty."
  },
  {
   "property": "C111",
   "status": "proved",
   "theorems": [
    "Proto.Props.C111_sent",
    "Proto.Props.C111_limited",
    "Proto.Props.C111_resent"
   ],
   "note": "Sender and receiver are clients, not part of the repository. A stream is anything that delivers a prefix of each write and all of it if the write succeeds (C30)."
  },
  {
   "property": "C112",
   "status": "proved",
   "theorems": [
    "Proto.C112_race",
    "Proto.C112_succeeds",
    "Proto.C112_some",
    "Proto.C112_contents",
    "Proto.C112_files",
    "Proto.C112_same",
    "Proto.C112_real",
    "Proto.C112_rust",
    "Proto.C112_torn"
   ],
   "note": "Over the disk of C99. File operations are atomic, except in C112_torn, which treats the contents of one file. Builds that produce different contents for one path are only said to leave one of the contents when writes are atomic; the example beside C112_torn mixes two."
  },
  {
   "property": "C113",
   "status": "proved",
   "theorems": [
    "Proto.Props.C113_settled",
    "Proto.Props.C113_prefix",
    "Proto.Props.C113_unnoticed",
    "Proto.Props.C113_overclaimed",
    "Proto.Props.C113_sink",
    "Proto.Props.C113_counter",
    "Proto.Props.C113_size",
    "Proto.Props.C113_sent"
   ],
   "note": "The loop of write_all is that of the standard library; the number of calls is not bounded. Outputs that answer a count beyond the length are outside the promise; encoding panics there, as the library does (C113_overclaimed)."
  },
  {
   "property": "C114",
   "status": "proved",
   "theorems": [
    "Proto.Props.C114_write_all",
    "Proto.Props.C114_encode",
    "Proto.Props.C114_builder",
    "Proto.Props.C114_overfull",
    "Proto.Props.C114_rest",
    "Proto.Props.C114_exact",
    "Proto.Props.C114_full_false",
    "Proto.Props.C114_filled"
   ],
   "note": "The trap is in combining two traits of a mutable slice: writing moves the slice behind what was written, and reading it gives what is left. The test program uses growable buffers."
  },
  {
   "property": "C115",
   "status": "proved",
   "theorems": [
    "Proto.Props.C115_linear",
    "Proto.Props.C115_input",
    "Proto.Props.C115_iteration",
    "Proto.Props.C115_announced",
    "Proto.Props.C115_strings",
    "Proto.Props.C115_fields"
   ],
   "note": "Steps are counted by definitions beside those of the decoders (Gen/Work.lean), which follow the results of the decoders themselves; what a step does besides is independent of the input. Which schemas have items that may be empty is decided by the least size of C102."
  },
  {
   "property": "C116",
   "status": "proved",
   "theorems": [
    "Proto.Props.C116_64",
    "Proto.Props.C116_checked",
    "Proto.Props.C116_panics",
    "Proto.Props.C116_structure",
    "Proto.Props.C116_fits",
    "Proto.Props.C116_accepts",
    "Proto.Props.C116_field",
    "Proto.Props.C116_signed",
    "Proto.Props.C116_range",
    "Proto.Props.C116_release_read",
    "Proto.Props.C116_case_unsigned",
    "Proto.Props.C116_negative"
   ],
   "note": "Hosts of at least 32 bits; f64 is exact, as in the 64-bit model. The numbers in the models are arbitrary; reading the files is C121."
  },
  {
   "property": "C117",
   "status": "proved",
   "theorems": [
    "Proto.Props.C117_roundtrip",
    "Proto.Props.C117_stream",
    "Proto.Props.C117_injective",
    "Proto.Props.C117_decoded",
    "Proto.Props.C117_lazy",
    "Proto.Props.C117_no_panic",
    "Proto.Props.C117_work",
    "Proto.Props.C117_total"
   ],
   "note": "The client is modelled: it adds items with write_item to a list in a Vec, and reads with the iterator. That items end on their own is needed (C40)."
  },
  {
   "property": "C118",
   "status": "proved",
   "theorems": [
    "Proto.Props.C118_completable",
    "Proto.Props.C118_curable",
    "Proto.Props.C118_enough",
    "Proto.Props.C118_text"
   ],
   "note": "Inputs of any length are considered, also longer than a machine can hold; the array condition excludes counts whose size overflows."
  },
  {
   "property": "C119",
   "status": "proved",
   "theorems": [
    "Proto.Props.C119_unchecked",
    "Proto.Props.C119_anything",
    "Proto.Props.C119_one_size",
    "Proto.Props.C119_refused",
    "Proto.Props.C119_same",
    "Proto.Props.C119_seen",
    "Proto.Props.C119_before"
   ],
   "note": "Bytes a field does not take are not constrained: C119_before also needs the field to end before the end of the input, since payloads and lists that take the rest see what follows."
  },
  {
   "property": "C120",
   "status": "proved",
   "theorems": [
    "Proto.Props.C120_parts",
    "Proto.Props.C120_most",
    "Proto.Props.C120_number",
    "Proto.Props.C120_joined",
    "Proto.Props.C120_failing"
   ],
   "note": "Calls are calls of write_all; how an output splits them is C113."
  },
  {
   "property": "C121",
   "status": "proved",
   "theorems": [
    "Proto.Props.C121_reads",
    "Proto.Props.C121_exactly",
    "Proto.Props.C121_refused",
    "Proto.Props.C121_files",
    "Proto.Props.C121_builds",
    "Proto.Props.C121_repeated",
    "Proto.Props.C121_written"
   ],
   "note": "Two readers that differ in the width of usize only (Narrower); that serde refuses a number that does not fit usize is part of the trusted behaviour of serde. Every 64-bit reader has such a narrower one (Serde.narrow)."
  },
  {
   "property": "C122",
   "status": "proved",
   "theorems": [
    "Proto.Props.C122_nested",
    "Proto.Props.C122_files",
    "Proto.Props.C122_files_same",
    "Proto.Props.C122_files_differ",
    "Proto.Props.C122_length",
    "Proto.Props.C122_same",
    "Proto.Props.C122_stream",
    "Proto.Props.C122_raised",
    "Proto.Props.C122_compiles"
   ],
   "note": "C122_raised compares messages whose own fields have wider lengths; messages nested in them are the same (C122_nested: wider in them as well; a list holds the bytes of its items, so that values of items are compared as bytes). C122_files compiles both revisions. Values representable in both revisions."
  },
  {
   "property": "C123",
   "status": "proved",
   "theorems": [
    "Proto.Props.C123_release",
    "Proto.Props.C123_debug",
    "Proto.Props.C123_crash",
    "Proto.Props.C123_loader",
    "Proto.Props.C123_report",
    "Proto.Props.C123_debug_crash",
    "Proto.Props.C123_debug_report",
    "Proto.Props.C123_builds"
   ],
   "note": "Descriptions without imports; with imports C44 describes the scopes. The conditions look only at declarations as written."
  },
  {
   "property": "C124",
   "status": "proved",
   "theorems": [
    "Proto.Props.C124_size",
    "Proto.Props.C124_recorded",
    "Proto.Props.C124_fields"
   ],
   "note": "The ranges are those of the generated offset structures; a range itself is a public pair of numbers, hence the case of ranges that end before they begin."
  },
  {
   "property": "C125",
   "status": "proved",
   "theorems": [
    "Proto.Props.C125_single"
   ],
   "note": "Nothing in the repository calls it; it is part of the public interface of the runtime."
  },
  {
   "property": "C126",
   "status": "proved",
   "theorems": [
    "Proto.Props.C126_read",
    "Proto.Props.C126_write",
    "Proto.Props.C126_storage"
   ],
   "note": ""
  }
 ]
}