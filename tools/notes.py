PARTIAL = set()
NOTES = {
 "C01": "Full characterisation of little-endian byte reads and writes, and the exact panic domain.",
 "C02": "Exact condition (C02_value_iff, C02_slice_iff). The unconditional round trip is refuted (C02_full_false).",
 "C03": "Exact bits read for every offset below the integer width and every size below 64.",
 "C04": "Exact bits changed, frame condition, read after write.",
 "C05": "Exact under the placement condition stated in the property.",
 "C06": "Exact bits written (C06_bit_be_write_exact) and exact conditions (C06_slice_iff, C06_field_iff). The unconditional claim is refuted (C06_full_false).",
 "C07": "Get, set, frame, iteration, history, out-of-range panic; wrapping-index and sub-byte-item defects proved.",
 "C08": "Positions, widths, names, types and sizes of every accepted structure; packed at every depth; release-profile wrap-around shown.",
 "C09": "Every accessor slices inside the declared size; no raw accessor panics on supported widths, well placed or not.",
 "C10": "Exact bits read and written by any accessor chain (scalar, array item, nested) of a well placed structure; disjointness of all chains.",
 "C11": "Exact condition (C11_exact_iff_placed); the bits really addressed are characterised for all other fields. The unconditional claim is refuted (C11_full_false, C11_overlap_witness).",
 "C12": "Any history of raw sets: last write wins, frame, commutation, zero initialisation.",
 "C13": "From the declaration: signed view of every width 1..64 in both profiles.",
 "C14": "From the declaration: boolean view of every width.",
 "C15": "Exact condition (C15_enum_gap_free); the getter is characterised for every enum. The unconditional claim is refuted (C15_full_false).",
 "C16": "Exact condition over exact rationals (C16_range_iff); setter and getter characterised for all ranges (C16_range_view). The unconditional claim is refuted (C16_full_false).",
 "C17": "Write through a nested view equals write on a copy of the slot; bits outside the slot unchanged.",
 "C18": "Exact bytes, round trip with any tail, exact domain of the truncation error.",
 "C19": "Round trip; exact set of accepted inputs and of each error; no panic.",
 "C20": "Round trip iff the length fits the prefix; exact set of accepted inputs. A body shorter than announced panics (C20_short_panics).",
 "C21": "For every inner codec: encoding, round trip, exact behaviour on every input.",
 "C29": "For every encoder output: size query equals length appended, same failure.",
 "C30": "For every encoder output: failing stream and arbitrary prefix-delivering streams.",
 "C31": "For every self-delimiting item codec and finite sequence of items.",
 "C32": "Exact effect of every item write; unchanged iff nothing was emitted (C32_failed_write). The unconditional claim is refuted (C32_false).",
 "C33": "Decoded lists iterate fully; exact behaviour of iteration on arbitrary lists, including the endless repetition of an error.",
 "C34": "Exact decoding when the total fits the word, panic otherwise (checked); get, iter, from_parts, in-place modification.",
 "C22": "Every schema whose greedy part, if any, comes last; every representable value, both profiles.",
 "C23": "Every self-delimiting schema; heterogeneous streams of messages by induction.",
 "C24": "Every schema and every accepted input.",
 "C25": "Exact set of inputs that panic, for every schema (C25_panics_iff); schemas that never panic (C25_no_panic). The unconditional claim is refuted (C25_full_false).",
 "C26": "Every self-delimiting schema; error kind settled when there is no length-prefixed string.",
 "C27": "Every schema and accepted input; byte-exact without optional fields, refuted with them (C27_flag_not_canonical).",
 "C28": "Injectivity and prefix-freeness; the accepted language equals a grammar by iff (C28_grammar, C28_grammar_whole; inputs below 2^64 bytes, and without overflow checks array sizes that fit), without optional fields the wire forms of representable values (C28_accepts).",
 "C35": "Agreement with plain decoding in all outcomes; tiling; each range decodes alone to its field; nested offsets; C35_exact and C35_size give size and offsets as functions of the value.",
 "C36": "Every union, discriminant and input; raw value identified with the key structure's bits.",
 "C37": "Every union, case, key content; needs the case value to fit and to be the first with that value (both needed: C37_duplicate, C37_too_large).",
 "C38": "Exact set of refused values (C38_iff). The unconditional claim is refuted (C38_full_false).",
 "C39": "Every message with a field that takes the rest followed by one that needs a byte; every input.",
 "C40": "Exact condition for items whose greedy part is last (C40_iff); round trip of the holding message (C40_roundtrip, C40_lazy). The unconditional claim is refuted (C40_full_false). Items with a greedy part before other fields are C39.",
 "C58": "Every schema and representable value.",
 "C41": "Every width and maximum.",
 "C42": "Exact acceptance condition of a message declaration, error of every rejected one; the separate error for several greedy fields is unreachable.",
 "C43": "Every message of every protocol a loader compiles, every value; flags of all nested messages characterised.",
 "C44": "The scope at every point of a protocol model is exactly its imports and earlier declarations, latest first; no recursion (identities strictly decrease).",
 "C46": "Every variant list in every order.",
 "C47": "Accepted paths and panics characterised exactly (C47_path_iff, C47_accepted, C47_rejects). The unconditional claim is refuted (C47_full_false).",
 "C51": "Exact condition (C51_size_iff); exact size on the wire of every structure field. The unconditional claim is refuted (C51_full_false).",
 "C59": "Accepted strings and values characterised exactly; exact set of reachable signed cases (C59_reachable). The unconditional claim is refuted (C59_negative_unreachable).",
 "C60": "Every set of loaded models, checked profile; invariant over the whole loading run.",
 "C45": "Everything compiled is little-endian at every depth (C45_always_little). That the declared order is honoured is refuted (C45_full_false).",
 "C48": "Exact set of panicking protocols in both profiles (C48_protocol_panics, C48_struct_panics, C48_union_panics). The unconditional claim is refuted (C48_full_false).",
 "C49": "Exact effect of every import, of registering, and of type path lookups; invariant that types are known under their own name.",
 "C50": "Equational characterisation of loading, first failure, order of results.",
 "C61": "Every set of loaded models, checked profile; end to end through compiler and decoder.",
 "C62": "Every loader, solver and state.",
 "C53": "Substitution for all lines without the clash (C53_lines), value of every line from its only greedy reading (C53_readings, C53_one_reading, C53_any_line). The unconditional claim is refuted (C53_full_false: a reference directly followed by a doubled closing brace is not substituted).",
 "C54": "Every well nested template, both line ends; last fragment of a name wins.",
 "C55": "Each error proved from arbitrary surrounding template text; render succeeds iff every variable is defined; compilation never panics.",
 "C56": "Every history of scope creation, cloning, setting and rendering.",
 "C57": "For every generator, file system behaviour, option setting and starting point: exact operations done, on success and on failure.",
 "C63": "Every loader outcome, option setting and file system behaviour.",
 "C52": "Exact text of every generated file and exact panic condition (C52_compiled_iff); no panic for compiled protocols with ranged widths and nameable fields (C52_compiled). The unconditional claim is refuted (C52_full_false: a zero-bit field and a list named with a non-ASCII first letter).",
 "C64": "Declarations and mentions characterised exactly for every message and union. The unconditional claim is refuted (C64_full_false).",
 "C65": "Exact text and exact panic condition for every protocol (C65_panics_iff); generation succeeds for compiled protocols with ranged widths. The unconditional claim is refuted (C65_full_false).",
 "C66": "Text equals printed program (C66_from_slice, C66_offsets), run equals specification for every compiled message under the name conditions; each condition shown necessary (C66_names_needed), linking characterised exactly (C66_links). Semantics of the Rust subset in the trusted base.",
 "C67": "Text equals printed program, run equals specification; end-to-end round trip of the two programs for compiled messages (C67_roundtrip).",
 "C68": "Text equals printed programs, runs equal the specification for every union with unambiguous names and fitting case values; the value condition is necessary (C68_value_needed).",
 "C69": "Text equals printed programs (C69_text), runs equal the model of the accessors (C69_raw, C69_view), compiled fields are well typed apart from enum views (C69_compiled), the enum condition is necessary (C69_enum_rejected) and not checked (C69_enum_accepted); end to end from the declaration for every kind of scalar field (C69_signed, C69_unsigned, C69_bool, C69_float, C69_range, C69_scaled, C69_enum) and for arrays and nested structures (C69_part). Float views also with the parameters computed in f64 and all operations rounded as Rust does (C69_rounded, C69_ieee, C69_ieee_reread, C69_ieee_write_read; with an offset C69_ieee_read, C69_ieee_offset); the decimal a constant's text denotes is a parameter that rounds to the constant.",
 "C70": "Exact condition on field names (C70_names), tied to the generated text (C70_declared); collisions are accepted by the compiler (C70_accepted).",
 "C71": "Exact acceptance and meaning of every document (C71_meaning, C71_unique, C71_refused), of files (C71_load, C71_import, C71_failure), and of enum variants through compilation (C71_variant_values). Documents are JSON5 values after parsing; crate behaviour not fixed by the repository is a parameter.",
 "C72": "Twelve kinds of objects, every pair of member lists that agree on the known members (C72_members, C72_agree), null as absent (C72_null).",
 "C73": "Every writable model (C73_roundtrip, C73_exact).",
 "C74": "Every width, byte order and view of a buffer; compared with the Rust model outcome by outcome.",
 "C75": "Exact contents after every write (C75_bytes, C75_byte), every sequence of writes at the end (C75_append, C75_fresh), reuse below the old length (C75_reuse); the exception is exact (C75_reuse_last) and the unconditional claim refuted (C75_reuse_false).",
 "C76": "Exact outcome for every buffer (C76_null_exact, C76_null_none, C76_varchar_exact); agreement with the Rust library characterised by iff (C76_null, C76_varchar, C76_null_missing). Foundation's open behaviour is a parameter.",
 "C77": "Every inner decoder that agrees (C77_read), exact size difference (C77_exact).",
 "C78": "Every item decoder that agrees; exact outcome for arrays (C78_array_exact).",
 "C79": "Exact outcome of aligned and unaligned reads; agreement by iff (C79_unaligned).",
 "C80": "Exact contents after aligned and unaligned writes; trap for 1- and 4-byte integers (C80_bits_trap).",
 "C81": "Exact outcome for items of the type's size (C81_get, C81_set) and others (C81_get_packed).",
 "C82": "Text equals printed programs (C82_text), runs characterised for every structure and byte string.",
 "C83": "Exact outcome of every subscript in both builds (C83_closed, C83_from, C83_through), of searching (C83_find, C83_find_default; agreement by iff in C83_find_same) and copying (C83_data, C83_copy, C83_copy_default).",
 "C84": "Composition of C50, C57, C63, C71, C52, C66, C67 and C69; stated from the outcome of the build script alone (plus the conditions of C66/C67/C69 on the message, value and structure). Checked builds of the compiler.",
 "C85": "Rounding characterised by nearest-even (C85_round), parameters by iff (C85_multiplier_params, C85_range_params), accessors by what they compute for every buffer (C85_view); error bounds for every value (C85_reread, C85_write_read). Views with an offset: C85_read and C85_offset bound what is read, and how far a number written and read back is off; C85_infinite gives the arithmetic of infinities and NaN.",
 "C86": "Each operation of the model equals the operation on BitVec or panics, by iff.",
 "C87": "Schemas are transcribed to JSON values (C87_compiles, C87_builds hold for every reader that reads the files as them); JSON5 syntax itself is not modelled.",
 "C88": "Expressions equal the generated text (C88_text, C88_text_names); declaration, decoder, encoder, offsets, aliases and unions characterised by iff (C88_declaration, C88_decoder, C88_encoder, C88_offsets, C88_aliases, C88_union), for compiled protocols in C88_compiled. The unconditional claim is refuted (C88_full_false). Trait implementations and type expressions are in the trusted base.",
 "C89": "Same loading in every order (C89_loads), same compilation (C89_compiles) and same build (C89_reproducible) when values are distinct; exactly then for one enum (C89_ties). The unconditional claim is refuted (C89_full_false). The test program: C89_testprog.",
 "C90": "Refinement of every history of operations to a list of items (C90_history); what a program sees of such an array (C90_view).",
 "C91": "Declared names read off the generated text by a scanner (C91_items); uniqueness by iff (C91_unique); an accepted protocol with a clash (C91_clashes).",
 "C92": "Declared names read off the generated text; uniqueness by iff for structures, unions, messages and offsets.",
 "C93": "Arguments read off the generated text (C93_calls), paths of all types (C93_paths), identifiers by iff (C93_identifiers).",
 "C94": "What the name resolves to and the path written, for every compiled protocol (C94_shadowed); an example with different sizes.",
 "C95": "Old readers on new data (C95_old_reader, C95_old_reads_new, C95_refused), new readers on old data (C95_new_reader_fails), compilation (C95_compiles).",
 "C96": "Layout (C96_compiles), acceptance (C96_accepted), accessors on the longer buffer (C96_fields).",
 "C97": "Compilation, decoding and encoding.",
 "C98": "Compilation, decoding (equality of results, errors included) and encoding, for every injective renaming.",
 "C99": "Over a disk model (Spec/Disk.lean: entries by path, parents required, a crash leaves any content in the file being written). Paths are compared as strings: the output directory is not empty and does not end in a separator, protocol names are single path components.",
 "C100": "Exact reading of old by new and new by old (C100_readers), and the condition under which no undeclared variant is read (C100_safe).",
 "C101": "A simulation of the whole compilation: imports, structures, enums, unions and messages. Renamings keep names without a dot free of dots, as dots separate the path of a discriminant.",
 "C102": "Items that can be empty make the time of decoding independent of the size of the input: a finding, stated by C102_announced. C102_empty and C102_announced assume unions are keyed on an earlier structure (Message.Keyed), as C61 shows for compiled messages.",
 "C103": "Both builds start in a fresh process. That the additions themselves compile is a hypothesis. C103_appended and C103_unlisted are about one file and messages at its end. The counterexample beside the theorems shows why lists of old messages are excluded: they set the embedded mark of the listed message. C103_lists allows them and shows what remains: writing, and decoding of self-delimiting messages.",
 "C104": "Runtime/Word.lean and Gen/Word.lean are the runtime and the accessors with the width of usize as a parameter. Slices on a target of w bits are shorter than 2^w bytes. Release reads and writes are stated for little-endian fields, the only byte order the compiler assigns.",
 "C105": "Conditions are computed from the compiled message (Spec/Word.lean). C105_checked and C105_accepts are for widths up to 32. Recording offsets is covered under the same conditions (C105_offsets*).",
 "C106": "Both builds start in a fresh process. Errors of builds that do not compile are not compared. The counterexample beside the theorems exchanges two structures of which one uses an imported structure with the name of the other.",
 "C107": "Both builds are assumed to compile: a change of kind or view can be rejected. That cases have the same values and that discriminants are found at the same numbers is assumed of the compiled unions; without unions nothing is assumed of compiled forms. The counterexample beside the theorems makes the only field of a structure a scaled one, which takes a byte less in a message.",
 "C108": "The two conditions are needed: the examples beside the theorems put bytes after a buffer, which takes them, and change a key, which makes the following bytes something else. The generated offsets have no function that adds up origins; the path is the user's.",
 "C109": "That some case of a union can be selected depends on the values of its key and is not part of the statement. The declared limit of a string, array or list is only used to choose the width of the prefix, so the size is that of the prefix.",
 "C110": "The client is not part of the repository; the statement is about what it can rely on. The bytes are cut anywhere, also inside a field, and pieces may be empty.",
 "C111": "Sender and receiver are clients, not part of the repository. A stream is anything that delivers a prefix of each write and all of it if the write succeeds (C30).",
 "C112": "Over the disk of C99. File operations are atomic, except in C112_torn, which treats the contents of one file. Builds that produce different contents for one path are only said to leave one of the contents when writes are atomic; the example beside C112_torn mixes two.",
 "C113": "The loop of write_all is that of the standard library; the number of calls is not bounded. Outputs that answer a count beyond the length are outside the promise; encoding panics there, as the library does (C113_overclaimed).",
 "C114": "The trap is in combining two traits of a mutable slice: writing moves the slice behind what was written, and reading it gives what is left. The test program uses growable buffers.",
 "C115": "Steps are counted by definitions beside those of the decoders (Gen/Work.lean), which follow the results of the decoders themselves; what a step does besides is independent of the input. Which schemas have items that may be empty is decided by the least size of C102.",
 "C116": "Hosts of at least 32 bits; f64 is exact, as in the 64-bit model. The numbers in the models are arbitrary; reading the files is C121.",
 "C117": "The client is modelled: it adds items with write_item to a list in a Vec, and reads with the iterator. That items end on their own is needed (C40).",
 "C118": "Inputs of any length are considered, also longer than a machine can hold; the array condition excludes counts whose size overflows.",
 "C119": "Bytes a field does not take are not constrained: C119_before also needs the field to end before the end of the input, since payloads and lists that take the rest see what follows.",
 "C122": "C122_raised compares messages whose own fields have wider lengths; messages nested in them are the same (C122_nested: wider in them as well; a list holds the bytes of its items, so that values of items are compared as bytes). C122_files compiles both revisions. Values representable in both revisions.",
 "C123": "Descriptions without imports; with imports C44 describes the scopes. The conditions look only at declarations as written.",
 "C121": "Two readers that differ in the width of usize only (Narrower); that serde refuses a number that does not fit usize is part of the trusted behaviour of serde. Every 64-bit reader has such a narrower one (Serde.narrow).",
 "C120": "Calls are calls of write_all; how an output splits them is C113.",
 "C124": "The ranges are those of the generated offset structures; a range itself is a public pair of numbers, hence the case of ranges that end before they begin.",
 "C125": "Nothing in the repository calls it; it is part of the public interface of the runtime.",
}
