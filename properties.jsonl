{"id": "C01", "title": "Little-endian byte codec: read after write", "statement": "Writing an unsigned value into a byte slice with the little-endian byte codec and reading it back with the same codec returns the value reduced to the number of bits the slice can hold (and to the width of the integer type); the slice keeps its length, and only the bytes covered by the integer change. The stored bytes are the base-256 digits of the value, least significant first.", "quantifier": "every integer width (1, 2, 4, 8 bytes), every slice of at most 8 bytes (or exactly/at least the integer's width), every previous content, every value", "why_tests_cant": "the value space alone is 2^64 per width and the result depends on slice length and previous contents; tests check one 4-byte literal", "anchors": ["runtime/src/codec/bytes.rs: ByteCodec::read, ByteCodec::write, read_unaligned, write_unaligned, ByteCodecLE"]}
{"id": "C02", "title": "Big-endian byte codec: exactly when read after write returns the value", "statement": "Writing an unsigned value with the big-endian byte codec into a slice of at most 8 bytes and reading it back with the same codec returns the value exactly when it is below 256^size of the integer and its low (size - slice length) bytes are zero; otherwise those least significant bytes are lost and the rest is returned. Hence every value that fits the slice survives exactly when the slice is at least as long as the integer, or empty. (The expectation that every value that fits the slice survives is refuted: short slices keep the most significant bytes.)", "quantifier": "every integer width, every slice length up to 8, every previous content, every value", "why_tests_cant": "no test exercises the big-endian byte codec on a slice whose length differs from the integer width; the failing cases are value dependent", "anchors": ["runtime/src/codec/bytes.rs: ByteCodecBE, read_unaligned, write_unaligned"]}
{"id": "C03", "title": "Little-endian bit codec: reading extracts exactly the addressed bits", "statement": "A little-endian bit read at bit offset o of width n returns the integer whose k-th bit (k < n) is bit o+k of the slice, where bit i of a slice is bit i mod 8 (least significant first) of byte i div 8; bits outside the slice or outside the integer type read as zero.", "quantifier": "every integer width, every offset below that width, every bit width below 64, every slice content of length at most 8", "why_tests_cant": "quantifies over all offsets, widths and contents; the two unit tests read all-ones buffers, which cannot distinguish bit positions", "anchors": ["runtime/src/codec/bits.rs: BitCodec::read, read_unaligned, BitCodecLE::read_aligned"]}
{"id": "C04", "title": "Little-endian bit codec: writing changes exactly the addressed bits", "statement": "A little-endian bit write at bit offset o of width n stores bit k of the value in bit o+k of the slice for every k < n that lies inside the slice and the integer type, and leaves every other bit of the slice, and its length, unchanged. Reading the same range back returns the value modulo 2^n when the range fits.", "quantifier": "every integer width, offset, width, previous content and value", "why_tests_cant": "the frame condition (no neighbouring bit is disturbed) ranges over every neighbour content and every value", "anchors": ["runtime/src/codec/bits.rs: BitCodec::write, write_unaligned, BitCodecLE::write_aligned"]}
{"id": "C05", "title": "Big-endian bit codec: reading extracts the addressed bits most-significant-first", "statement": "When the slice is as long as the integer type and the range is right-aligned inside its last byte (o + n mod 8 <= 8), a big-endian bit read at offset o of width n returns the integer formed by bits o..o+n of the slice counted most-significant-first.", "quantifier": "every integer width, offset, width and content satisfying the stated placement", "why_tests_cant": "one literal (0xABF0, offset 0, width 12) is tested", "anchors": ["runtime/src/codec/bits.rs: BitCodecBE::read_aligned"]}
{"id": "C06", "title": "Big-endian bit codec: exactly which bits a write changes", "statement": "A big-endian bit write at offset o of width n into an integer-sized slice sets bits o..o+n of the slice (most-significant-first) to the value OR whatever was left there, after clearing the mirrored range (counted from the other end) instead of the addressed one. It replaces exactly the addressed bits for every value exactly when every bit that is in one of the two ranges but not the other was zero; it does so for every content exactly when the two ranges coincide (2*o+n = bits of the integer). (The expectation that a write replaces exactly the addressed bits is refuted.)", "quantifier": "every integer width, offset, width, previous content and value", "why_tests_cant": "the unit test writes once into an all-zero buffer, the only situation in which the defect is invisible", "anchors": ["runtime/src/codec/bits.rs: BitCodecBE::write_aligned"]}
{"id": "C07", "title": "Array codec behaves as an array of fixed-width integers", "statement": "On a buffer of n*w bytes (w the whole-byte item width) an array codec reports length n; setting item i and reading item j returns the value (modulo 256^w) when i = j and the previous item otherwise; iterating yields exactly the items 0..n-1 in order; an index at or beyond n whose byte position is representable panics. An array of bytes and the slice it converts to have the same length and items in both byte orders, and setting an item sets the byte of the slice.", "quantifier": "every item width, every buffer content, every index pair, every value, every sequence of sets", "why_tests_cant": "unbounded array lengths, all index pairs and all histories of writes", "anchors": ["runtime/src/codec/arrays.rs: ArrayCodec::get_raw, set_raw, len, iter_raw, as_ref, as_mut"]}
{"id": "C08", "title": "Structure layout: fields are packed in declaration order without gap or overlap", "statement": "In every structure the compiler accepts, the first field starts at bit 0, each next field starts at the bit where the previous one ended, the declared bit widths (times array length, or the nested structure's total) are the field widths, the structure's bit size is their sum and its byte size is that sum rounded up to whole bytes.", "quantifier": "every structure declaration, of any number of fields and any nesting depth, that the compiler accepts", "why_tests_cant": "ranges over all schemas", "anchors": ["compiler/src/compiler/structure.rs: Structure::from_model, Field::from_model, Location::from_model"]}
{"id": "C09", "title": "Generated structure accessors stay inside the structure", "statement": "For every structure the compiler accepts, each generated getter and setter slices a byte range that lies inside the structure's declared byte size, so on any buffer at least that long the slicing never panics, and nested structures receive a slice of exactly their own byte size.", "quantifier": "every accepted structure, every field, every buffer length at least the declared size", "why_tests_cant": "ranges over all schemas; a single out-of-range field in one unusual layout is a remote panic", "anchors": ["compiler/src/compiler/structure.rs: Location::from_model", "compiler/src/gen/base/structure.rs: gen_field_getter, gen_field_setter", "compiler/src/gen/rust/structure.field.template"]}
{"id": "C10", "title": "Setting a field then getting it returns the value; other fields are untouched", "statement": "For a structure whose fields are placed so that each one fits the bytes its accessor addresses (sub-byte-width fields do not cross their byte group, whole-byte fields and nested structures and arrays start on a byte boundary), a raw getter returns exactly the field's bits of the buffer, a raw setter changes exactly those bits, so set-then-get returns the value modulo 2^width and no other field changes, at any nesting depth.", "quantifier": "every well placed structure, every leaf field or array item at any depth, every pair of leaves, every buffer content, every value", "why_tests_cant": "quantifies over schemas, contents and values; test fixtures fix four layouts and a handful of literals", "anchors": ["compiler/src/gen/rust/structure.field.template", "compiler/src/gen/base/structure.rs", "runtime/src/codec/bits.rs", "runtime/src/codec/bytes.rs", "runtime/src/codec/arrays.rs"]}
{"id": "C11", "title": "Exactly which fields of an accepted structure support independent access", "statement": "For every structure the compiler accepts and every chain of accessors into it, setting the field replaces exactly its declared bits for every value and content, hence disturbs no other field and reads back, exactly when the field is well placed: it does not straddle its byte group, and if it is whole bytes wide it starts on a byte. For every other field the bits really read and written are given. (The expectation that every accepted structure supports independent access is refuted.)", "quantifier": "every accepted structure and every pair of fields", "why_tests_cant": "the failing layouts are accepted silently by the compiler and absent from the fixtures", "anchors": ["compiler/src/compiler/structure.rs: Location::from_model", "compiler/src/gen/base/structure.rs: gen_field_getter (bit_size % 8 test)"]}
{"id": "C12", "title": "A structure buffer behaves as a record under any history of sets", "statement": "After any finite sequence of raw sets on a well placed structure, reading a field returns the last value written to it (modulo its width), or its initial content if it was never written; sets to different fields commute byte for byte; the buffer length never changes.", "quantifier": "every well placed structure, every initial buffer, every finite sequence of sets", "why_tests_cant": "unbounded histories", "anchors": ["compiler/src/gen/rust/structure.field.template: set_raw_*, get_raw_*"]}
{"id": "C13", "title": "Signed views are two's complement and round-trip", "statement": "For a signed field of any width n from 1 to 64, setting v with -2^(n-1) <= v < 2^(n-1) and getting returns v, and the getter always returns the two's-complement interpretation of the n raw bits, without arithmetic overflow.", "quantifier": "every width 1..64, every representable value, every raw content", "why_tests_cant": "2^64 values per width; tests check a 4-bit field exhaustively and a few literals", "anchors": ["compiler/src/compiler/structure.rs: FieldView::from_model (SignedCast, Transmute)", "compiler/src/gen/rust/structure.field.template: view_signed, view_transmute"]}
{"id": "C14", "title": "Boolean views round-trip", "statement": "For a boolean field of any supported width, set(b) then get returns b; get is true exactly when any bit of the field is set; set stores 1 or 0 in the field's bits and nothing else.", "quantifier": "every width, content and value", "why_tests_cant": "all widths and contents", "anchors": ["compiler/src/gen/rust/structure.field.template: view_transmute.bool"]}
{"id": "C15", "title": "Exactly which enum views never fabricate a variant", "statement": "Setting a variant whose value fits the field and getting it back returns that variant; getting any raw content yields the declared variant with that value, nothing above the largest declared value, and for any other undeclared value reinterprets the bits as the enum (undefined behaviour). Hence the getter yields only declared variants, for every content, exactly when the declared values have no gap within the field's width. (The expectation that no enum view ever fabricates a variant is refuted.)", "quantifier": "every enum, every field width, every raw content", "why_tests_cant": "requires every raw content for every enum; the fixture enum has no gaps", "anchors": ["compiler/src/compiler/enum.rs: Enum::from_model", "compiler/src/gen/rust/structure.field.template: view_enum"]}
{"id": "C16", "title": "Exactly which scaled float views invert each other", "statement": "In exact arithmetic, the view of a multiplier inverts up to one quantisation step; the view of a range lo..hi maps the raw extremes to lo and hi and inverts up to one step on the whole range exactly when lo = 0. For every range the raw values written and read are given: the setter subtracts the minimum after scaling and the getter's maximum is lo+hi. (The expectation that every range view inverts is refuted.)", "quantifier": "every width, every range or multiplier, every value in the range", "why_tests_cant": "a continuum of ranges and values; the only fixture has minimum 0", "anchors": ["compiler/src/compiler/structure.rs: FieldView::from_model (FloatRange, FloatMultiplier)", "compiler/src/gen/rust/structure.field.template: view_float"]}
{"id": "C17", "title": "Nested structure writes are confined to the nested slot", "statement": "Writing any field through a nested structure view of a byte-aligned nested structure changes only bits inside the slot the outer structure assigned to it, and equals writing the same field on a separate copy of the slot.", "quantifier": "every nesting depth, every outer buffer, every inner write", "why_tests_cant": "unbounded nesting and contents", "anchors": ["compiler/src/gen/rust/structure.field.template: struct (get_x, get_x_mut)"]}
{"id": "C18", "title": "Fixed-width values round-trip on the wire in both byte orders", "statement": "Encoding an integer (or the bit pattern of a float) with the little- or big-endian value codec emits exactly its width in bytes, least or most significant first, and decoding those bytes followed by anything returns the same value and that size; fewer bytes than the width yield a truncation error.", "quantifier": "every width, every value, every trailing input, every short input", "why_tests_cant": "all values and all continuations", "anchors": ["runtime/src/message/util/common.rs: ValueLE, ValueBE"]}
{"id": "C19", "title": "Null-terminated strings round-trip", "statement": "Encoding a string that contains no NUL byte and decoding it, followed by any bytes, returns the same string and reports length+1 bytes consumed; decoding any input either returns the valid UTF-8 prefix before the first NUL, or reports a truncation error exactly when there is no NUL, or an encoding error exactly when that prefix is not UTF-8. A string containing NUL does not round-trip.", "quantifier": "every string, every trailing input, every arbitrary input", "why_tests_cant": "all strings and all inputs", "anchors": ["runtime/src/message/util/string.rs: NullTerminatedString"]}
{"id": "C20", "title": "Length-prefixed strings round-trip when the length fits the prefix", "statement": "Encoding a string with a w-byte length prefix and decoding it, followed by any bytes, returns the same string and the number of bytes written, if and only if its byte length is below 256^w; longer strings are written with a truncated prefix without error; a body shorter than announced makes decoding panic.", "quantifier": "every prefix width and order, every string, every trailing input", "why_tests_cant": "all lengths; the silent truncation needs strings longer than the prefix can express", "anchors": ["runtime/src/message/util/string.rs: VarcharString"]}
{"id": "C21", "title": "Optional values round-trip", "statement": "Encoding an absent value emits the single byte 0; encoding a present value emits 1 followed by the value's encoding; decoding, followed by anything the inner codec tolerates, returns the same presence and value with a size one larger than the inner size; empty input is a truncation error; any non-zero flag byte is accepted as present.", "quantifier": "every inner codec, value and trailing input", "why_tests_cant": "parametric in the inner codec", "anchors": ["runtime/src/message/util/common.rs: Optional"]}
{"id": "C22", "title": "Message round-trip", "statement": "For every message whose greedy parts (payloads, lists of a message not used as a list item) come last, encoding a value whose strings, counts and union tags are representable succeeds, and decoding the bytes returns the same value and reports exactly the number of bytes written.", "quantifier": "every message schema (any number of fields, any nesting of structures, messages, optionals, strings, arrays, lists, unions, payload), every representable value", "why_tests_cant": "ranges over all schemas and values; each fixture covers one shape with a few literals", "anchors": ["compiler/src/gen/rust/message.from_slice.template", "compiler/src/gen/rust/message.write.template", "compiler/src/gen/base/message_from_slice.rs: generate_field_type_inline"]}
{"id": "C23", "title": "Self-delimiting messages ignore trailing bytes; streams of messages can be split", "statement": "A message with no greedy part decodes identically whatever bytes follow its encoding, hence a concatenation of encodings of any number of such messages decodes back to the same sequence of values, each reporting its own size.", "quantifier": "every self-delimiting message schema, every finite sequence of values, every trailing input", "why_tests_cant": "unbounded sequences and continuations", "anchors": ["compiler/src/gen/rust/message.from_slice.template", "runtime/src/message/util/*.rs"]}
{"id": "C24", "title": "A decoded size never exceeds the input and decoding is local", "statement": "If decoding succeeds with size n then n is at most the input length, and decoding the first n bytes alone succeeds with the same value and size.", "quantifier": "every message schema, every input", "why_tests_cant": "all inputs, including adversarial ones", "anchors": ["compiler/src/gen/rust/message.from_slice.template", "runtime/src/message/util/*.rs"]}
{"id": "C25", "title": "Exactly which inputs make decoding panic", "statement": "Decoding any byte string (shorter than 2^64 bytes) as any message returns a value or an error unless the input is stuck: some field, reached with the fields before it decoded, is a length-prefixed string whose prefix exceeds the remaining input, or an array whose size computation overflows a machine word, or a union whose key cannot be read, or contains such a part in the nested message, the selected union case, the present optional or the scanned list item reached. Decoding panics exactly on stuck inputs; messages without length-prefixed strings whose array counts have at most 32 bits never panic. (The expectation that no input panics is refuted.)", "quantifier": "every message schema, every input byte string", "why_tests_cant": "the input space is unbounded and adversarial", "anchors": ["runtime/src/message/util/string.rs: VarcharString::from_slice", "runtime/src/message/util/array.rs: Array::from_slice", "compiler/src/gen/rust/message.from_slice.template"]}
{"id": "C26", "title": "Truncated encodings are rejected", "statement": "Decoding a strict prefix of the encoding of a self-delimiting message never succeeds; if the message has no length-prefixed string the result is precisely a truncation error.", "quantifier": "every self-delimiting schema, every representable value, every cut position", "why_tests_cant": "every cut position of every encoding", "anchors": ["compiler/src/gen/rust/message.from_slice.template", "runtime/src/message/util/*.rs"]}
{"id": "C27", "title": "Re-encoding a decoded message", "statement": "If decoding an input succeeds with size n, encoding the decoded value succeeds and emits n bytes that decode to the same value; if the message contains no optional field the bytes are exactly the first n bytes of the input.", "quantifier": "every message schema, every accepted input (not only encoder outputs)", "why_tests_cant": "quantifies over every accepted input, canonical or not", "anchors": ["compiler/src/gen/rust/message.write.template", "compiler/src/gen/rust/message.from_slice.template"]}
{"id": "C28", "title": "Encodings are unambiguous", "statement": "Two representable values of the same message with the same encoding are equal; for self-delimiting messages no encoding is a strict prefix of another; a decoder accepts exactly the inputs that begin with (or, where something takes the rest, are) a form of a value in the documented grammar, returns that value and the length of that form, and the grammar is unambiguous.", "quantifier": "every schema, every pair of values, every input", "why_tests_cant": "all pairs of values", "anchors": ["compiler/src/gen/rust/message.write.template"]}
{"id": "C29", "title": "The size query equals the number of bytes written", "statement": "The size query on a message returns exactly the number of bytes that encoding it into a growable buffer appends, and fails exactly when encoding fails.", "quantifier": "every message schema and value, representable or not", "why_tests_cant": "all schemas and values", "anchors": ["runtime/src/message/util/size.rs: size_of, Counter"]}
{"id": "C30", "title": "A failing output stream receives a prefix and the failure is reported", "statement": "Encoding into a stream that fails after accepting k bytes reports an error whenever k is below the full length, and what the stream received is exactly the first k bytes of the full encoding; with k at least the full length the result is the same as with a growable buffer.", "quantifier": "every schema and value, every failure point k", "why_tests_cant": "every crash point", "anchors": ["runtime/src/message/util/*.rs: write_to", "compiler/src/gen/rust/message.write.template"]}
{"id": "C31", "title": "List builder and list iteration agree", "statement": "Starting from an empty list, any sequence of successful item writes, then encoding, decoding and iterating the list returns exactly the items written, in order, and the reported length is their number, provided the count fits the prefix and items are self-delimiting.", "quantifier": "every item message, every finite sequence of items", "why_tests_cant": "unbounded sequences", "anchors": ["runtime/src/message/util/list_base.rs: write_item, write_items, write_to", "runtime/src/message/util/list.rs: List::from_slice, iter, Iter"]}
{"id": "C32", "title": "Exactly when a failed item write leaves the list unchanged", "statement": "If writing an item to a list fails, the list's count is unchanged and its buffer has grown by exactly the bytes the item emitted before failing; so the list is unchanged, and still encodes exactly the items written so far, exactly when the failing item emitted nothing. (The expectation that a failed write never changes the list is refuted: the stray bytes corrupt later items.)", "quantifier": "every list content, every item whose encoding fails part-way", "why_tests_cant": "needs a failing write in the middle of an item; no test makes a write fail", "anchors": ["runtime/src/message/util/list_base.rs: write_item", "compiler/src/gen/rust/union.template: write_to"]}
{"id": "C33", "title": "Iterating a decoded list", "statement": "Iterating a list that was decoded with its items checked yields exactly as many items as its length, all successful; iterating any list that never meets a malformed item yields exactly its length; once a malformed item is met every further step yields the same error forever.", "quantifier": "every item codec, every list content and length", "why_tests_cant": "all contents; non-termination of the error case cannot be observed by a test", "anchors": ["runtime/src/message/util/list.rs: Iter::next, IterOffsets::next"]}
{"id": "C34", "title": "Arrays of structures", "statement": "When the announced total (prefix plus count times item size) fits the machine word, decoding an array consumes exactly that total and fails with a truncation error exactly when fewer bytes are available (when it does not fit, decoding panics with overflow checks, and without them may accept an array announcing more items than it has bytes); its item i is the i-th block; iteration yields exactly count items equal to the indexed ones; building from parts succeeds exactly when the data length equals count times item size; mutating item i changes no other item.", "quantifier": "every count width, item size, content, index", "why_tests_cant": "all sizes and indices", "anchors": ["runtime/src/message/util/array.rs: Array::from_slice, from_parts, get, get_mut, iter, iter_mut"]}
{"id": "C35", "title": "Decoding with offsets agrees with plain decoding and the offsets tile the message", "statement": "Decoding with offsets succeeds exactly when plain decoding does, with the same value and size; the reported field ranges start at 0, are contiguous in field order and end at the size; decoding a field's bytes alone yields the field's value; nested message offsets are relative to the start of the nested message; size and all offsets are those computed from the decoded value alone.", "quantifier": "every schema, every input", "why_tests_cant": "all schemas and inputs", "anchors": ["compiler/src/gen/rust/message.offsets.template", "runtime/src/message/util/common.rs: FromSliceWithOffsets for Optional"]}
{"id": "C36", "title": "Union decoding selects the case named by the discriminant", "statement": "Decoding a union field selects the first case whose declared value equals the raw discriminant field of the structure it is keyed on, decodes nothing for a case without content, and fails with an invalid-discriminant error carrying that raw value when no case matches.", "quantifier": "every union, every discriminant value, every input", "why_tests_cant": "all discriminant values and inputs", "anchors": ["compiler/src/gen/rust/union.template: from_slice", "compiler/src/gen/rust/union.rs"]}
{"id": "C37", "title": "Setting a union's discriminant makes it decodable as the same case", "statement": "After storing a union value's discriminant into its key structure, encoding succeeds and decoding selects the same case, when the case values are distinct and fit the discriminant field; all other fields of the key structure are unchanged.", "quantifier": "every union, case and key structure content", "why_tests_cant": "all unions, contents", "anchors": ["compiler/src/gen/rust/union.template: set_discriminant, write_to, from_slice"]}
{"id": "C38", "title": "Exactly which union values are refused under a wrong discriminant", "statement": "Encoding a union value whose case value differs from the key structure's discriminant fails with an invalid-discriminant error and emits nothing exactly when the case has content; a case without content is accepted under every discriminant and emits nothing. (The expectation that every mismatched value is refused is refuted.)", "quantifier": "every union, case and key content", "why_tests_cant": "all mismatching pairs", "anchors": ["compiler/src/gen/rust/union.template: write_to"]}
{"id": "C39", "title": "Nothing can follow a greedy field", "statement": "A message in which a payload (or a list of a message not used as a list item) is followed by a field of non-zero fixed size can never be decoded successfully: every input is rejected. (The compiler accepts such messages.)", "quantifier": "every such message, every input", "why_tests_cant": "universally quantified rejection over all inputs", "anchors": ["compiler/src/compiler/message.rs: Message::from_model", "runtime/src/message/util/common.rs: Buffer", "runtime/src/message/util/list.rs: Unsized"]}
{"id": "C40", "title": "Exactly which lists of messages that contain lists or payloads round-trip", "statement": "Building a list of representable items always succeeds. If the items' message has its greedy part (a payload, or a list in a message that is not a list item) last, at any depth, iterating over the list yields exactly the items built exactly when no item whose greedy part is present is followed by an item that encodes to at least one byte; if it has no greedy part, the message holding the list round-trips and iteration yields the items. (The expectation that every list of representable items round-trips is refuted: an inner list reached through a nested message takes the bytes of the items after it.)", "quantifier": "every message schema and value", "why_tests_cant": "depends on the combination of three schema features and two or more items", "anchors": ["compiler/src/compiler/message.rs: Field::from_model (embedded.set), is_embedded", "compiler/src/gen/base/message_from_slice.rs: FieldType::List"]}
{"id": "C41", "title": "Chosen integer types are the smallest sufficient ones", "statement": "The integer type chosen for a field of n bits (1..64) has the smallest width of 8, 16, 32, 64 that is at least n; other widths are rejected for numeric fields. The prefix type chosen for a maximum length is the smallest unsigned type that can represent that maximum.", "quantifier": "every bit width and every maximum length", "why_tests_cant": "all naturals", "anchors": ["compiler/src/compiler/structure.rs: FixedFieldType::from_model, from_max_value, get_byte_size"]}
{"id": "C42", "title": "At most one greedy field, and nothing variable after it", "statement": "Every accepted message has at most one element-dynamic field and no dynamically sized field after it; a message violating this is rejected with the corresponding error.", "quantifier": "every message declaration", "why_tests_cant": "all schemas", "anchors": ["compiler/src/compiler/message.rs: Message::from_model"]}
{"id": "C43", "title": "Size classification is sound", "statement": "A message the compiler classifies as not element-dynamic is self-delimiting; a message classified as not dynamically sized, without optional and union fields at any depth, always encodes to the same number of bytes.", "quantifier": "every accepted message, every value", "why_tests_cant": "all schemas and values", "anchors": ["compiler/src/compiler/message.rs: SizeInfo, Field::from_model, Message::from_model", "compiler/src/compiler/union.rs: Union::from_model"]}
{"id": "C44", "title": "Name resolution is by latest earlier declaration", "statement": "A reference resolves to the most recent earlier declaration (or import) of that name of the right kind, structures before messages; a reference to an undeclared or later-declared name is rejected as undefined; consequently types cannot be recursive.", "quantifier": "every protocol model", "why_tests_cant": "all protocols", "anchors": ["compiler/src/compiler/protocol.rs: Protocol::from_model", "compiler/src/compiler/message.rs: Referenced::lookup", "compiler/src/compiler/structure.rs: Field::from_model"]}
{"id": "C45", "title": "The byte order of compiled protocols", "statement": "Every field of every message and structure of every compiled protocol, at every depth, is little-endian whatever byte order the model declares; so a declaration of little-endian, or none, is honoured and one of big-endian by no field. (The expectation that a big-endian declaration is honoured is refuted.)", "quantifier": "every protocol model", "why_tests_cant": "the fixture declares big-endian but only checks read-after-write, which cannot observe the byte order", "anchors": ["compiler/src/compiler/protocol.rs: Protocol::from_model (endianness: Endianness::Little)"]}
{"id": "C46", "title": "Enums are ordered and bounded", "statement": "A compiled enum lists exactly the declared variants in non-decreasing value order, its bound is the largest declared value, every variant name maps to its value, and an enum without variants is rejected.", "quantifier": "every variant map and every iteration order of it", "why_tests_cant": "all maps and all hash iteration orders", "anchors": ["compiler/src/compiler/enum.rs: Enum::from_model"]}
{"id": "C47", "title": "Exactly which discriminant paths resolve to a leaf field", "statement": "Compiling a union's discriminant path yields a discriminant with a fixed-width field exactly when the path names a known structure and then fields that lead, through nested structures, to a fixed-width field (names after it are ignored); it panics exactly when the path names a known structure and no field; a path that stops on a nested structure is accepted without a leaf and then picks whatever field has that position; everything else is an error. (The expectation that every accepted path leads to a fixed-width field is refuted.)", "quantifier": "every discriminant string and structure set", "why_tests_cant": "all paths", "anchors": ["compiler/src/compiler/union.rs: DiscriminantField::from_model, get_leaf"]}
{"id": "C48", "title": "Exactly when the compiler panics", "statement": "Compiling a protocol model panics exactly when, everything before it being accepted, it meets a structure with a field whose width overflows a shift or whose size or position overflows a machine word (checked build), or a union whose path names a known structure and no field, or whose cases are not empty and whose path stops on a nested structure at a position that holds no plain field. In release builds only such unions panic. (The expectation that the compiler never panics is refuted.)", "quantifier": "every protocol model", "why_tests_cant": "all models", "anchors": ["compiler/src/compiler/structure.rs", "compiler/src/compiler/union.rs", "compiler/src/compiler/protocol.rs"]}
{"id": "C49", "title": "Imports bind the imported type under its own path", "statement": "Importing a type from a registered protocol makes exactly that type available under its name, qualified as base path + separator + name in generated references; importing from an unregistered protocol or an unknown type is rejected; re-registering a protocol replaces it.", "quantifier": "every solver content and import list", "why_tests_cant": "all solver contents", "anchors": ["compiler/src/compiler/protocol.rs: imports", "compiler/src/util.rs: SimpleImportSolver", "compiler/src/compiler/util.rs: TypePathMap"]}
{"id": "C50", "title": "Loading order and failure", "statement": "Compiling a set of loaded models compiles imports in order, each seeing only the imports before it, then the models in order; the first failure aborts with that error; the result lists the models in load order.", "quantifier": "every sequence of imports and models", "why_tests_cant": "unbounded sequences", "anchors": ["compiler/src/interface.rs: Loader::compile"]}
{"id": "C51", "title": "Exactly which structure fields have the structure's size on the wire", "statement": "A message field whose type is a structure occupies exactly the structure's byte size on the wire, for every value, unless the structure has a single inlined field with array length 0 or whose width in bytes differs from its scalar type's (whole bytes other than 1, 2, 4, 8; booleans wider than a byte), in which case it has the scalar type's size. (The expectation that this holds for every structure is refuted.)", "quantifier": "every structure", "why_tests_cant": "all widths", "anchors": ["compiler/src/compiler/message.rs: Field::from_model (single fixed field case)"]}
{"id": "C52", "title": "Exactly when Rust generation panics, and what it writes", "statement": "Generating Rust code for a compiled protocol panics (checked build) exactly when some structure has a field of zero or more than 64 bits or beyond the machine word, or some message has an array or list field whose name does not start with an ASCII character; otherwise it yields seven files whose text is exactly the one the templates describe for the declarations: every template fragment and variable used exists, every field has a raw integer type, and the generated accessor, codec and offset code names exactly the declared fields, types, positions and widths, in order. (The expectation that generation never panics is refuted.)", "quantifier": "every compiled protocol, both build profiles", "why_tests_cant": "all protocols; the template lookups are stringly typed", "anchors": ["compiler/src/gen/base/structure.rs", "compiler/src/gen/rust/*.rs", "compiler/src/gen/rust/*.template", "compiler/src/compiler/structure.rs: get_unsigned_integer_type"]}
{"id": "C64", "title": "Exactly which generated type references agree with the declarations", "statement": "Generated Rust code declares a message with a lifetime parameter exactly when some field is not a plain number, and a union exactly when some case has content, and always mentions both with one as the type of a field or the content of a case; so mentions agree with the declaration exactly for these messages and unions. (The expectation that they always agree is refuted.)", "quantifier": "every message, union, field and case", "why_tests_cant": "all shapes of messages and unions; only the combinations used by the test protocol are compiled by rustc", "anchors": ["compiler/src/gen/rust/util.rs: Generics, get_message_ref_type, get_union_ref_type", "compiler/src/gen/rust/union.rs: gen_union_decl", "compiler/src/gen/rust/message.template", "compiler/src/gen/rust/union.template"]}
{"id": "C65", "title": "What the Swift generator writes, and exactly when it panics", "statement": "For every protocol, Swift generation panics (checked build) exactly when some structure has a field of zero or more than 64 bits or beyond the machine word; otherwise it yields one file that declares every structure in order with its byte size and, for every field, a getter at the declared position, width, byte order and type in Swift, and a setter at the same position in Rust syntax. (The expectation that generation succeeds for every protocol and yields Swift only is refuted.)", "quantifier": "every compiled protocol", "why_tests_cant": "all structures; nothing in the repository runs the Swift generator", "anchors": ["compiler/src/gen/swift/*.rs", "compiler/src/gen/swift/*.template", "compiler/src/gen/base/structure.rs"]}
{"id": "C53", "title": "What template rendering substitutes", "statement": "A template line of literal text, doubled braces and {variable} or {variable:function} references is read as the text with doubled braces halved and each reference replaced by the (transformed) variable value, followed by a newline, when no reference is directly followed by a doubled closing brace; a reference directly followed by doubled closing braces stays as written, without its braces. Every line whatsoever has exactly one greedy reading into text, braces and names, and renders as the values of these. (The expectation that every such line is substituted is refuted.)", "quantifier": "every sequence of such segments, every variable assignment", "why_tests_cant": "all template lines", "anchors": ["compiler/src/gen/template.rs: Template::compile, Token, render_internal"]}
{"id": "C54", "title": "Template fragments are addressed by their nesting path", "statement": "For a well nested template, each fragment's content consists of exactly the lines directly inside it (not those of nested fragments) and it is found under the dot-joined names of the fragments enclosing it.", "quantifier": "every well nested template", "why_tests_cant": "unbounded nesting", "anchors": ["compiler/src/gen/template.rs: compile_with_function_map"]}
{"id": "C55", "title": "Malformed templates and missing names are reported", "statement": "A pop without an open fragment, text outside any fragment, an unknown function, an unknown fragment and an undefined variable each produce their own error; in particular rendering succeeds exactly when the fragment exists and all its variables are defined.", "quantifier": "every template and variable assignment", "why_tests_cant": "all templates", "anchors": ["compiler/src/gen/template.rs: Error, compile_with_function_map, render_internal"]}
{"id": "C56", "title": "Scopes do not leak", "statement": "Setting variables in a scope affects only later renders of that scope (and its clones taken afterwards), never the template or other scopes; the last value set for a key is the one rendered.", "quantifier": "every sequence of variable settings", "why_tests_cant": "unbounded histories", "anchors": ["compiler/src/gen/template.rs: Scope, Template::scope"]}
{"id": "C57", "title": "Generation options select files", "statement": "Generating a protocol writes exactly the non-trivial files whose kind is enabled, in generator order, and the umbrella lists exactly those files; by default message reading and writing code is not written.", "quantifier": "every option setting, every generator output", "why_tests_cant": "all option histories", "anchors": ["compiler/src/interface.rs: Protoc::generate, set_*", "compiler/src/gen/mod.rs: File::write", "compiler/src/gen/rust/mod.rs: generate_umbrella"]}
{"id": "C58", "title": "Wire format of messages", "statement": "Encoding a representable message value succeeds and yields exactly its fields' wire forms one after the other: numbers in the field's byte order and width, NUL-terminated strings followed by a zero byte, length-prefixed strings, arrays and lists as count then data, structures as their bytes, unions as the bare content of the selected case, optional fields as a 0 byte or a 1 byte and the value, payloads as is.", "quantifier": "every message schema, every representable value", "why_tests_cant": "unbounded schema depth and value sizes", "anchors": ["compiler/src/gen/rust/message.write.template", "compiler/src/gen/rust/union.template", "compiler/src/gen/base/message_write.rs", "runtime/src/message/util/*.rs"]}
{"id": "C59", "title": "Values of union cases, and exactly which are reachable", "statement": "The case strings of a union denote values: on an unsigned field a decimal number below 2^64, on a signed field a decimal number with an optional sign, on an enum field the name of a variant; anything else is rejected with its text. The stored value of a signed case is its 64-bit two's complement, which is the value a w-bit key field holds for that number exactly when the number is not negative or w is 64; other negative cases are never selected. (The expectation that every case is selected when the key field holds its number is refuted.)", "quantifier": "every case string, every discriminant field", "why_tests_cant": "all strings and field widths", "anchors": ["compiler/src/compiler/union.rs: UnionField::from_model, DiscriminantField::get_leaf"]}
{"id": "C60", "title": "Structures of compiled protocols are well formed", "statement": "Every structure of every protocol that a loader compiles, declared or imported, has its fields packed without gap or overlap at every depth, only field widths the generator supports, and a size that fits the address space, provided declared booleans have 1..64 bits and no array has length zero.", "quantifier": "every set of loaded models and imports", "why_tests_cant": "unbounded sets of models and import chains", "anchors": ["compiler/src/interface.rs: Loader::compile", "compiler/src/compiler/protocol.rs", "compiler/src/compiler/structure.rs"]}
{"id": "C61", "title": "Decoding a compiled message never panics", "statement": "Whatever models are loaded, decoding any byte string as any message of a compiled protocol returns a value or an error, provided no field is a length-prefixed string, array counts fit, union keys are not optional and discriminants end on a fixed field.", "quantifier": "every set of loaded models, every compiled message, every input", "why_tests_cant": "unbounded schemas and inputs, across compiler and generated code", "anchors": ["compiler/src/interface.rs: Loader::compile", "compiler/src/gen/rust/message.template", "runtime/src/message/**"]}
{"id": "C62", "title": "Overflow checks do not change results", "statement": "If compiling with overflow checks enabled (debug build) does not panic, then compiling the same models with wrapping arithmetic (release build) gives the same result.", "quantifier": "every set of loaded models", "why_tests_cant": "all models; debug and release builds of the compiler are different programs", "anchors": ["compiler/src/compiler/structure.rs", "compiler/src/compiler/protocol.rs", "compiler/src/interface.rs: Loader::compile"]}
{"id": "C63", "title": "The build script announces every protocol", "statement": "The build script helper either panics or prints exactly one environment variable line per loaded protocol, in loading order, named after the protocol in ASCII upper case and giving the umbrella's path (two names differing only in case give the same variable).", "quantifier": "every set of loaded models, option setting and file system behaviour", "why_tests_cant": "all loader and file system outcomes", "anchors": ["compiler/src/build_script.rs: generate_rust", "compiler/src/interface.rs: Protoc::generate"]}
{"id": "C66", "title": "The generated decoders, run as Rust programs, decode as specified", "statement": "The text generated for a message's from_slice and from_slice_with_offsets is a program (statement by statement: slicing, calls, ?, shadowing lets, struct literals) whose run on any byte string returns exactly what the specification of the decoder says: the same value, size and offsets, the same error, or a panic in the same cases. This needs the paths written to lead to the types meant (possible exactly if no two types share a path), union keys that are not optional, and field names that do not collide with each other or with the decoder's variables; the compiler accepts messages breaking each of these, and their decoders are not Rust programs.", "quantifier": "every compiled message with such names, every input shorter than 2^64 bytes", "why_tests_cant": "variable capture and shadowing depend on the schema's names; unbounded schemas and inputs", "anchors": ["compiler/src/gen/rust/message.from_slice.template", "compiler/src/gen/rust/message.offsets.template", "compiler/src/gen/base/message_from_slice.rs", "compiler/src/gen/rust/message_offsets.rs"]}
{"id": "C67", "title": "The generated encoder, run as a Rust program, and decoding what it wrote", "statement": "The text generated for a message's write_to is a program whose run on any struct value passes to the writer exactly the chunks the specification says and ends the same way. For a compiled message whose greedy part comes last, running the generated encoder on a representable value succeeds with the specified wire form, and running the generated decoder on these bytes returns the value and their number.", "quantifier": "every compiled message with distinct field names, every struct value", "why_tests_cant": "unbounded schemas and values; joins the text generator with the wire format", "anchors": ["compiler/src/gen/rust/message.write.template", "compiler/src/gen/base/message_write.rs"]}
{"id": "C68", "title": "The generated code of unions, run as Rust programs", "statement": "The text generated for a union's from_slice, write_to, set_discriminant, as_x and is_x consists of programs (method chains on the key structure, match, if, return) whose runs on any key and input are the specified decoder, encoder, update of the key and case test. This needs the accessors along the discriminant path and the case names to be unambiguous and each case value to fit the discriminant's raw type; a case value that does not fit is accepted by the compiler, and the decoder is not a Rust program.", "quantifier": "every union with such names, every key, input and case", "why_tests_cant": "unbounded unions, nesting of keys and inputs", "anchors": ["compiler/src/gen/rust/union.template", "compiler/src/gen/rust/union.rs"]}
{"id": "C69", "title": "The generated structure accessors, run as Rust programs", "statement": "The text of get_raw_x, set_raw_x, get_x, set_x and of the accessors of arrays and nested structures consists of programs (codec calls, casts, transmutes, comparisons, if) whose runs on any buffer and argument are the specified raw and view accesses. In every compiled structure the integer types, sizes and literals in them agree, except possibly in enum views: there the getter is accepted by the Rust compiler only if the enum has the size of the field's raw integer and its largest value fits, which the schema compiler does not check, and reading a value up to the largest that is not declared is undefined behaviour. The programs of float views compute, with every operation rounded to the field's type, the field's bits times one constant plus another; reading and writing back keeps the field or lowers it by one.", "quantifier": "every structure with unambiguous accessor names, every field, buffer and argument", "why_tests_cant": "unbounded widths, offsets, schemas and buffer contents; joins the text generator with the codecs", "anchors": ["compiler/src/gen/rust/structure.field.template", "compiler/src/gen/base/structure.rs"]}
{"id": "C70", "title": "When accessor names of a structure collide", "statement": "The functions declared in the text of a structure have different names exactly if no two fields have the same name, no field is called raw_x for a scalar field x or x_mut for an array or nested field x, and no array or nested field x and scalar field y satisfy x_mut = raw_y. The schema compiler accepts structures that violate this.", "quantifier": "every structure", "why_tests_cant": "all combinations of field names", "anchors": ["compiler/src/gen/rust/structure.field.template", "compiler/src/compiler/structure.rs"]}
{"id": "C71", "title": "Which documents are accepted as protocol descriptions, and what they mean", "statement": "A JSON5 document is accepted exactly when every required member occurs once with a value of its kind, tags and byte orders have one of the documented spellings, and optional members are absent, null or well formed; the protocol read is then the one described, of two values for one variant name the last counts, and only the order of the variants is open. Members of tagged variants keep their underscore names although the tags are hyphenated. A file is refused as unreadable or as not describing a protocol, exactly in these cases, and then nothing is loaded.", "quantifier": "every document, every behaviour of the JSON5 and serde crates left open by the repository", "why_tests_cant": "documents are unbounded trees; the accepted set is an exact equivalence", "anchors": ["compiler/src/model/protocol.rs", "compiler/src/model/structure.rs", "compiler/src/model/message.rs", "compiler/src/model/union.rs", "compiler/src/interface.rs"]}
{"id": "C72", "title": "Member order, unknown members and null in descriptions", "statement": "What is read from an object depends only on the members its kind knows: reordering members or adding unknown ones changes nothing, at every level, and a member that may be left out can as well be null.", "quantifier": "every kind of object, every set of members", "why_tests_cant": "all permutations and additions", "anchors": ["compiler/src/model/protocol.rs", "compiler/src/model/structure.rs", "compiler/src/model/message.rs", "compiler/src/model/union.rs"]}
{"id": "C73", "title": "Every protocol can be described", "statement": "For every protocol model with numbers up to 2^53 and distinct variant names, the document written from it is accepted and read back as that model (up to the order of enum variants); on a host with narrower words exactly when its numbers fit a word.", "quantifier": "every protocol model", "why_tests_cant": "round trip over unbounded models", "anchors": ["compiler/src/model/protocol.rs", "compiler/src/model/structure.rs", "compiler/src/model/message.rs", "compiler/src/model/union.rs"]}
{"id": "C74", "title": "Swift: integers are read and written as by the Rust library", "statement": "Reading an integer with the Swift library from any part of any buffer gives the same value and size or the same truncation error as the Rust library, and writing one gives the same bytes, for both byte orders and all four widths.", "quantifier": "every integer type, byte order, buffer and position within its data", "why_tests_cant": "all values and positions; two implementations in two languages", "anchors": ["Swift/BP3DProto/message/common.swift", "Swift/BP3DProto/util/bytesutil.swift"]}
{"id": "C75", "title": "Swift: what a buffer contains after writing", "statement": "Bytes written to a DataBuffer overwrite or extend its data from the cursor on and leave the rest; a new buffer shows exactly what was written; slices of a buffer over mutable data share it, over immutable data they write to a copy. The one exception: writing a single byte at the last position of existing data leaves that byte and appends the new one, so a cleared buffer can show stale data (refuted claim C75_reuse_false).", "quantifier": "every heap of data objects, buffer, cursor and sequence of writes", "why_tests_cant": "histories of writes and aliasing are unbounded", "anchors": ["Swift/BP3DProto/util/buffer.swift"]}
{"id": "C76", "title": "Swift: strings against the Rust library", "statement": "A null-terminated string that the Rust library reads is read by the Swift library with the same text and size exactly when it is not empty and stands at the very beginning of the data; elsewhere the reported size is too large by the distance from the beginning, and an empty one at the beginning traps. A length-prefixed string is read alike exactly when it is not empty, and the empty one traps. Neither ever reports invalid UTF-8: such text is replaced. Written strings are the same bytes unless the length does not fit a prefix of 1, 4 or 8 bytes, which traps.", "quantifier": "every buffer and position, debug and release builds, every behaviour Foundation leaves open", "why_tests_cant": "all strings, positions and surrounding data", "anchors": ["Swift/BP3DProto/message/string.swift", "Swift/BP3DProto/util/buffer.swift"]}
{"id": "C77", "title": "Swift: optional values against the Rust library", "statement": "An optional value is read with the same presence and value as by the Rust library, but the size reported for a present value is one byte short, so a reader continuing behind it starts at its last byte. Written optional values are the same bytes.", "quantifier": "every inner type on which the libraries agree, every buffer", "why_tests_cant": "all inner decoders and inputs", "anchors": ["Swift/BP3DProto/message/common.swift"]}
{"id": "C78", "title": "Swift: lists and arrays against the Rust library", "statement": "A list or array that the Rust library reads is read by the Swift library with the same items and size if it is not empty and can be allocated; an empty one traps. Lists rejected by the Rust library are rejected with the same error. Written lists are the same bytes unless the count does not fit a prefix of 1, 4 or 8 bytes, which traps.", "quantifier": "every item type on which the libraries agree, every count and buffer", "why_tests_cant": "unbounded lists and item decoders", "anchors": ["Swift/BP3DProto/message/list.swift"]}
{"id": "C79", "title": "Swift: which fields of structures are read correctly", "statement": "Integers and bit fields whose integer type fills their bytes are read as by the Rust library. Otherwise the byte behind the field is read as part of it: an integer then agrees with the Rust library exactly when the type has no more bytes than the field or that byte is zero, while little-endian bit fields inside their bytes always agree. At the end of the data it is up to Foundation what is read. Bit fields too wide for their integer type trap.", "quantifier": "every buffer, byte order, integer type, bit offset and width", "why_tests_cant": "all field placements and neighbouring bytes", "anchors": ["Swift/BP3DProto/codec/byte.swift", "Swift/BP3DProto/codec/bit.swift", "Swift/BP3DProto/util/buffer.swift"]}
{"id": "C80", "title": "Swift: which fields of structures are written correctly", "statement": "Integers whose type fills their bytes, and bit fields in 2- and 8-byte integers that do, are written as by the Rust library. A bit field in a 1- or 4-byte integer traps whatever is written. If the type does not fill the bytes the value is not stored at all, and instead the bytes from the second behind the field to the eighth of the field are cleared and data ending before is extended.", "quantifier": "every heap, buffer, byte order, integer type, bit offset, width and value", "why_tests_cant": "all field placements and histories of shared data", "anchors": ["Swift/BP3DProto/codec/byte.swift", "Swift/BP3DProto/codec/bit.swift", "Swift/BP3DProto/util/buffer.swift"]}
{"id": "C81", "title": "Swift: array fields", "statement": "The number of items of an array field is that of the Rust library; items as large as their integer type are read and written as by the Rust library, items of other sizes include the first byte of their neighbour, and setting an item of an array over immutable data has no effect.", "quantifier": "every array, item size, index and value", "why_tests_cant": "all item sizes, positions and sharing of data", "anchors": ["Swift/BP3DProto/codec/array.swift"]}
{"id": "C82", "title": "Generated structures: constructors, conversions, decoder and encoder", "statement": "The generated new and From::from make a structure of the bytes given, to_ref and to_mut one of the same bytes, new_on_stack one of as many zero bytes as the structure has, in which every field and array element reads zero; from_slice refuses exactly the slices shorter than the structure and otherwise takes its first bytes; write_to writes exactly those bytes and panics on shorter storage; reading back what was written gives the same bytes.", "quantifier": "every structure, byte string and trailing bytes", "why_tests_cant": "all structures and byte strings; the claim is about the text generated for arbitrary schemas", "anchors": ["compiler/src/gen/rust/structure.template", "compiler/src/gen/rust/structure.rs"]}
{"id": "C83", "title": "Swift: parts of a buffer, searching and copying", "statement": "buffer[a...b], buffer[a...] and buffer[...b] are the bytes from a up to, not including, b and stop the program exactly on the stated positions; parts share the data of the buffer; new buffers show exactly the bytes given; findFirst of a DataBuffer answers with a position in the data, possibly beyond the buffer, where the protocol's own function answers with a position in the buffer, and the two agree exactly when the byte does not occur or the buffer begins with its data; toData copies the bytes and stops the program on an empty buffer; copyTo copies one byte more than asked for.", "quantifier": "every build, heap, buffer, position and byte", "why_tests_cant": "all positions and both builds; shared data", "anchors": ["Swift/BP3DProto/util/buffer.swift"]}
{"id": "C84", "title": "From the build script to what the generated files do", "statement": "When the build script succeeds, each protocol loaded is compiled and its directory contains files with, for each message, a decoder and an encoder, and for each structure, its declaration and accessors; running the decoder is decoding the message, running the encoder on a representable value writes its wire form and the decoder reads that value back; for an unsigned field of a protocol description in a file, the generated getter and setter access exactly the field's bits.", "quantifier": "every loader, file system, output directory, message, value and buffer, for build scripts that enable the files", "why_tests_cant": "joins reading, compiling, generating, writing files and running the generated code for all inputs", "anchors": ["compiler/src/interface.rs", "compiler/src/build_script.rs", "compiler/src/gen/rust/mod.rs", "compiler/src/compiler/protocol.rs"]}
{"id": "C85", "title": "Float views in floating point arithmetic", "statement": "The accessors of float views compute in f32 up to 16 and for 32 bits and in f64 otherwise, every operation rounding to the nearest number, the even one of two. In views without offset of at most 50 bits, except 32, reading a field and writing the result back keeps its value or lowers it by one and changes nothing else; writing a number of the range and reading it back is at most one step and the roundings lower and at most the roundings higher; with a power of two as multiplier both are exact. With an offset, reading yields step times raw value plus offset up to the roundings, and writing a number and reading it back is off by offset times one minus step, up to two steps and the roundings. NaN and negative infinity store zero and infinity stores ones. The order of values is kept. Views of 32 and of more than 53 bits do not tell all fields apart. The 17-bit view of testprog, reading 3 and writing the result back, stores 2.", "quantifier": "every structure, position, width, step from 2^-100 to 2^60, printed form of the constants, buffer and value", "why_tests_cant": "rounding errors of all raw values and steps; a test with a tolerance does not see the lost step", "anchors": ["compiler/src/gen/rust/structure.field.template", "compiler/src/compiler/structure.rs", "compiler/src/gen/base/structure.rs", "testprog/src/views.json5"]}
{"id": "C86", "title": "Integer arithmetic of debug and release builds", "statement": "Where the exact result of an addition, subtraction, multiplication or shift fits the integer type, both builds compute it; where it does not, a build with overflow checks panics and one without computes with machine words, shifts taking the amount modulo the width; division and remainder by zero panic in both.", "quantifier": "every width, operand and build", "why_tests_cant": "all operands at every width", "anchors": ["runtime/src/codec/bits.rs", "compiler/src/compiler/structure.rs"]}
{"id": "C87", "title": "The test program's schemas, for every value", "statement": "The schema files of testprog, loaded as its build script loads them, compile to exactly the expected layouts in both builds; when no file operation fails the build script prints exactly the lines the crate's source refers to; and every message of those schemas is written to exactly the expected bytes, reads back with the expected size and offsets whatever follows, and only such bytes are accepted. Every accessor of their structures reads and replaces exactly the bits of its field on every buffer that holds the structure, and every signed, enumerated or array value reads back.", "quantifier": "every value of the messages, every input, every profile, every order in which tables are enumerated", "why_tests_cant": "the tests of testprog exercise a handful of values", "anchors": ["testprog/build.rs", "testprog/src/test.json5", "testprog/src/unions.json5", "testprog/src/lists.json5", "testprog/tests/test_test.rs"]}
{"id": "C88", "title": "Which messages get Rust code that type-checks", "statement": "The codecs written in the generated decoders, encoders and offset decoders of a message exist and their types agree with the declared fields exactly when: optional fields are messages, arrays of structures, or lists in a message that is itself an item of a list; every message referred to or listed has a field that is not a number; every union has a case with content; arrays are of structures that need no path; and the number library reads and writes booleans if one is used. Unions are accepted exactly when the messages among their cases have a field that is not a number. Optional numbers, strings, payloads and structures are accepted by the protocol compiler, and their Rust code is rejected. Everything in testprog is accepted.", "quantifier": "every compiled protocol and message whose fields have different names", "why_tests_cant": "each combination of field kind, optional flag and referred message decides whether the Rust compiler rejects the generated crate", "anchors": ["runtime/src/message/util/common.rs", "runtime/src/message/util/list.rs", "runtime/src/message/macros.rs", "compiler/src/gen/rust/util.rs", "compiler/src/gen/base/message_from_slice.rs", "compiler/src/compiler/message.rs"]}
{"id": "C89", "title": "Builds are reproducible when enum values are distinct", "statement": "Two runs of a build script on the same files load the same models, or fail with the same error, whatever order the run iterates its hash maps in; if no two variants of an enum have the same value they compile to the same protocols and make the same calls on the file system with the same contents, print the same lines, or panic alike, with any generator. An enum compiles alike in all orders exactly when its values are distinct; two variants with equal values are accepted and the generated file then differs from run to run.", "quantifier": "every sequence of load and import calls, every content of the files, every two iteration orders", "why_tests_cant": "hash order is random per process, so a test sees one order at a time", "anchors": ["compiler/src/model/protocol.rs", "compiler/src/compiler/enum.rs", "compiler/src/interface.rs", "compiler/src/build_script.rs"]}
{"id": "C90", "title": "Arrays built and changed through the generated wrapper types", "statement": "Starting from an empty growable buffer, whatever a program writes with write_item and write_items and changes through get_mut and iter_mut, the wrapper declared for an array field holds the list of items these operations would leave: len is their number and the bytes are theirs; it panics exactly when a structure with too short a storage is written or an item that is not there is changed. get yields each item and panics beyond, iter yields all in order, from_parts accepts exactly the right length, and what is written on the wire decodes to the same array whatever follows.", "quantifier": "every structure of non-zero size, every sequence of operations whose indices do not overflow, both builds", "why_tests_cant": "all histories of operations", "anchors": ["runtime/src/message/macros.rs", "runtime/src/message/util/array.rs", "runtime/src/message/util/list_base.rs", "compiler/src/gen/rust/message.ext.template"]}
{"id": "C91", "title": "Names of the types and constants in the generated Rust", "statement": "Reading the generated files line by line, the types they declare are, in order, each message followed by the aliases of its arrays and lists, the Offsets type of each message, and the structures, enums and unions; the constants are SIZE_ followed by the upper case name of each structure. No type is declared twice exactly when the types of the schema have different names, none of them and no alias is a message's name followed by Offsets, and the aliases differ from each other and from the types; no constant is declared twice exactly when no two structures agree up to case. The compiler accepts schemas that break this: a list called offsets makes the generated crate declare a type twice.", "quantifier": "every protocol whose names are identifiers, both builds", "why_tests_cant": "all combinations of names; a test crate has no clashes", "anchors": ["compiler/src/gen/rust/structure.template", "compiler/src/gen/rust/message.template", "compiler/src/gen/rust/message.offsets.template", "compiler/src/gen/rust/message.ext.template", "compiler/src/gen/rust/mod.rs"]}
{"id": "C92", "title": "Names of methods, fields and variants in the generated Rust", "statement": "The methods of a generated structure are new, new_on_stack, to_ref, to_mut and get_/set_ of each field, with raw_ variants for scalars and _mut variants for the others; they are distinct exactly when the fields have different names, none is raw_ and the name of a scalar field or the name of another field and _mut. The fields of a generated message and of its offsets are those of the schema, plus x_offsets for each field x that is a message; the methods of a union are distinct exactly when no two cases with content, and no two without, agree in small letters; the variants of an enum are those declared.", "quantifier": "every structure, message, union and enum whose names are identifiers", "why_tests_cant": "all combinations of names", "anchors": ["compiler/src/gen/rust/structure.field.template", "compiler/src/gen/rust/message.offsets.template", "compiler/src/gen/rust/union.template", "compiler/src/gen/rust/enum.template"]}
{"id": "C93", "title": "Arrays of imported structures", "statement": "The generated declaration of a message invokes the array macro once for each array, in order, with the path of the item. The path is the bare name unless the schema imports a type of that name, and otherwise the path under which some protocol was imported, two colons and the name. The macro takes an identifier, so the generated code is accepted by it exactly when no array has an imported item.", "quantifier": "every loader, message and item whose names are identifiers", "why_tests_cant": "all combinations of imports and fields; testprog imports only into lists and unions", "anchors": ["compiler/src/util.rs", "compiler/src/compiler/protocol.rs", "runtime/src/message/macros.rs", "compiler/src/gen/rust/message.ext.template"]}
{"id": "C94", "title": "Declared types that have the name of an imported one", "statement": "A schema may declare a structure under the name of a type it imports. In its messages the name then stands for the declared structure, and sizes and layouts are computed with it, but the generated code refers to the imported one by its path.", "quantifier": "every loader, model, structure and import", "why_tests_cant": "all schemas with a shadowed import", "anchors": ["compiler/src/util.rs", "compiler/src/compiler/protocol.rs", "compiler/src/compiler/util.rs"]}
{"id": "C95", "title": "Appending fields to a message", "statement": "A schema whose message has fields appended compiles only if the shorter one does, and then to the same first fields. A reader of the shorter message reads whatever a reader of the longer reads, in particular all that its writers write, with the same values of the fields it knows; what it refuses the longer reader refuses with the same error. The converse fails: given exactly a message written by the old schema the longer reader answers truncated as soon as the first new field is a number, a string, an array, a list or is optional.", "quantifier": "every message, appended fields, byte string and value, both builds", "why_tests_cant": "all pairs of schemas and all data exchanged between them", "anchors": ["compiler/src/compiler/message.rs", "compiler/src/gen/rust/message.from_slice.template", "compiler/src/gen/rust/message.write.template", "runtime/src/message/util/common.rs"]}
{"id": "C96", "title": "Appending fields to a structure", "statement": "The fields of a structure keep their places when others are appended, and the structure does not shrink. A reader of the shorter structure accepts the bytes of the longer and keeps the first of them; reading a field from those is reading it from all, and writing it leaves the appended part as it is.", "quantifier": "every structure and appended fields, every chain of accessors, buffer and value, both builds", "why_tests_cant": "all pairs of layouts and all buffers", "anchors": ["compiler/src/compiler/structure.rs", "compiler/src/gen/rust/structure.template", "compiler/src/gen/rust/structure.field.template"]}
{"id": "C97", "title": "Appending cases to a union", "statement": "A union with cases appended compiles only if the shorter one does, to the same first cases and discriminant. Discriminants of the old cases are decoded and values of the old cases are encoded as before; every other discriminant is refused by old readers with the error that names it.", "quantifier": "every union, appended cases, key, byte string and content", "why_tests_cant": "all pairs of schemas and all keys", "anchors": ["compiler/src/compiler/union.rs", "compiler/src/gen/rust/union.template", "compiler/src/gen/rust/union.rs"]}
{"id": "C98", "title": "Renaming the fields of a message", "statement": "Replacing the names of the fields of a message, with the keys of its unions, different names by different names, leaves the wire as it is: the renamed message compiles, accepts the same bytes with the same values, refuses the same bytes with the same errors, and writes the same bytes.", "quantifier": "every message and injective renaming, byte string and value", "why_tests_cant": "all schemas, renamings and data", "anchors": ["compiler/src/compiler/message.rs", "compiler/src/gen/rust/message.from_slice.template", "compiler/src/gen/rust/message.write.template"]}
{"id": "C99", "title": "Building again after a crash", "statement": "Builds may be interrupted anywhere, between two file operations or in the middle of writing a file, any number of times, whatever they were generating. A later build into the same output directory, by a generator whose files lie directly in the directory of the protocol, ends as on the disk the first build started from: it succeeds when the generator does, reports the same paths, and leaves the same contents in every file it writes; other files stay as they were. For the Rust generator and protocols of different names every enabled, non-empty file holds what was generated for it and the umbrella includes exactly these. A generator placing a file in a folder cannot build twice: making the folder fails.", "quantifier": "every history of interrupted builds, crash point, torn file contents, option setting and protocol list", "why_tests_cant": "all histories and crash points", "anchors": ["compiler/src/interface.rs", "compiler/src/gen/mod.rs", "compiler/src/gen/rust/mod.rs"]}
{"id": "C100", "title": "Adding variants to an enum", "statement": "Variants are added to the enum of a field. What code of the old schema stored is read as the same variant by code of the new one. What code of the new schema stored is read by code of the old one as that value when it is not above the largest variant of the old schema, and as no variant otherwise. Code of the old schema never takes a stored new variant for a variant it does not have exactly when every added value that fits the field is above all values of the old schema.", "quantifier": "every packed structure, enum field, pair of enums of which the second has the variants of the first, buffer and value", "why_tests_cant": "all enums, layouts and buffer contents", "anchors": ["compiler/src/compiler/enum.rs", "compiler/src/compiler/structure.rs", "compiler/src/gen/rust/structure.rs"]}
{"id": "C101", "title": "Names of types are not on the wire", "statement": "Types are renamed consistently throughout all files of a build, different names to different names, and variants are added to enums. If the first revision compiles then so does the second, declaration by declaration. Every message of the second decodes every input exactly as its counterpart does and writes the same bytes for every value; every structure has the same size and the same bits at every path of fields. The same holds when the second is compiled after other protocols in the same process.", "quantifier": "every set of files that compiles, renaming, separator, profile, input and value", "why_tests_cant": "all schemas, renamings and inputs", "anchors": ["compiler/src/compiler/protocol.rs", "compiler/src/compiler/message.rs", "compiler/src/compiler/union.rs", "compiler/src/compiler/structure.rs", "compiler/src/model/protocol.rs"]}
{"id": "C102", "title": "How many bytes decoded messages and list items take at least", "statement": "Every message has a least size, computed from its declaration: fixed fields and structures count their size, strings their terminator or prefix, arrays and lists their count, optional fields one byte, unions their smallest case, payloads nothing. No input is decoded as less, and shorter inputs are rejected; without greedy parts and unions zeros reach it. A decoded list has no more items than fit the bytes taken from the input, and iterating any list yields no more items than fit its bytes, if items have a positive least size. If the least size is zero, and exactly then, an item can be decoded from nothing, and the bytes of the count alone are decoded as a list of any number of items, in that many steps.", "quantifier": "every message, profile, input, list and number of iteration steps", "why_tests_cant": "all inputs; the number of steps is unbounded", "anchors": ["runtime/src/message/util/list.rs", "compiler/src/gen/rust/message.from_slice.template", "compiler/src/gen/rust/union.template"]}
{"id": "C103", "title": "Adding declarations and files leaves the old ones alone", "statement": "Structures, enums, unions, messages, imports and whole files are added anywhere in a build, under names the build did not use. If both builds compile, every old message has a counterpart of the same name in the same file, in the same order, which writes the same bytes for every value; if it is self-delimiting it stays so and decodes every input to the same result with the decoders generated at the end of each build. If nothing that is added has a list of a type the build had, all messages decode every input to the same result. Every old structure has a counterpart of the same name and size with the same bits at every path of fields. A list of an old message that is not self-delimiting among the additions does change how that message is decoded. Messages appended to a file, under any names, compile only if the file does without them, to the same declarations in front of the new ones; what is reported of the file without them is reported with them; the messages decoded as list items are those that were and those the appended ones have lists of. So a decoder changes only if its message, or one inside of it, has a list and becomes an item; then what was written and read before may be refused.", "quantifier": "every pair of builds of which the second is the first with additions, profile, input and value", "why_tests_cant": "all schemas, additions and inputs; identities and list-item marks are global state threaded through the whole compilation", "anchors": ["compiler/src/compiler/protocol.rs", "compiler/src/compiler/message.rs", "compiler/src/interface.rs", "compiler/src/util.rs", "compiler/src/gen/rust/message.from_slice.template"]}
{"id": "C104", "title": "Structure fields on 16-bit and 32-bit targets", "statement": "On a target whose usize has 16, 32 or 64 bits, reading or writing a structure field that is a whole number of bytes, an array item or narrower than a machine word gives, on every buffer and in both build profiles, what it gives on a 64-bit target. With overflow checks every other field panics on every buffer, so on a large enough buffer exactly these fields can be accessed. Without overflow checks any other field is read through (width mod word) bits only, and writing it clears every bit of its bytes from the word's width on, neighbours included. An array item inside the array is reached at every width; an index outside panics in checked builds exactly as on 64 bits, and in release builds reaches the item at the wrapped position.", "quantifier": "every structure, accessor, buffer, value, index, profile and word width", "why_tests_cant": "tests run on one target; the mask of a bit field depends on the word width, the field width and the profile", "anchors": ["runtime/src/codec/bits.rs:30-106", "runtime/src/codec/arrays.rs:44-80", "runtime/src/message/util/array.rs:73-110", "compiler/src/gen/base/structure.rs"]}
{"id": "C105", "title": "Messages on 16-bit and 32-bit targets", "statement": "A message whose counts, string lengths and discriminants fit in a machine word, and none of whose arrays can announce more bytes than a word counts, is decoded on a narrower target exactly as on a 64-bit one: every input, both profiles, errors included. Without the condition on arrays, checked builds either agree or panic on an input the 64-bit decoder does not accept. In both profiles everything a 64-bit decoder accepts is accepted and decoded the same, so what a 64-bit target writes is read back. The same holds of decoding with offsets, and at every width recording offsets changes nothing else and the ranges tile the decoded bytes. Writing and size queries are the same. A 32-bit release build can accept an array that announces more items than it holds, and a string whose announced length exceeds the input.", "quantifier": "every message schema, input, value, profile and word width", "why_tests_cant": "tests run on one target; the differences need counts near the word limit", "anchors": ["runtime/src/message/util/array.rs:112-132", "runtime/src/message/util/list.rs", "runtime/src/message/util/string.rs:56-80", "runtime/src/message/util/size.rs", "runtime/src/util/scalar.rs:30-60", "compiler/src/gen/rust/union.template"]}
{"id": "C106", "title": "The order of declarations and files does not matter", "statement": "In a build, neighbouring declarations of a file are exchanged, any number of times: structures or messages that do not mention each other, enums, unions or imports of different names; and neighbouring files, if imported ones have different names and do not import from each other. If the build compiled it still does, and the other way round. There are the same files, messages, structures and enums under the same names; every message decodes every input to the same result and writes the same bytes for every value, every structure has the same size and the same bits at every path of fields. Exchanging declarations of which one mentions the other can change the size of a structure without an error.", "quantifier": "every build, every sequence of exchanges, profile, input and value", "why_tests_cant": "all schemas, orders and inputs; identities and list-item marks are global state threaded through the whole compilation in the order of declarations", "anchors": ["compiler/src/compiler/protocol.rs", "compiler/src/compiler/structure.rs", "compiler/src/compiler/message.rs", "compiler/src/compiler/union.rs", "compiler/src/interface.rs", "compiler/src/util.rs"]}
{"id": "C107", "title": "What of a description reaches the wire", "statement": "Two builds both compile, and their declarations agree in names of types, order of declarations, bits and array lengths of structure fields, kinds, names and options of message fields, widths (1, 2, 4 or 8 bytes) of limits, contents of union cases, structures of discriminants and values of cases. They may differ in everything else: kind, view and name of structure fields (except that the only field of a structure stays a plain number of the same size or stays not one, and array items keep the size of their number), enum variants, names of union cases, limits of the same width, declared byte order. Then every message decodes every input to the same result and writes the same bytes for every value, and every structure has the same size and the same bits at every path of field numbers. If only limits within their width, the byte order and explicit non-optional marks differ, compiling gives the very same result, also when it fails.", "quantifier": "every pair of builds, profile, input and value", "why_tests_cant": "all pairs of schemas and inputs; which parts of a description matter for compatibility with deployed peers is nowhere stated in the code", "anchors": ["compiler/src/compiler/structure.rs", "compiler/src/compiler/message.rs", "compiler/src/compiler/union.rs", "compiler/src/compiler/protocol.rs", "compiler/src/interface.rs"]}
{"id": "C108", "title": "Replacing a field of an encoded message in place", "statement": "A message decodes with offsets. Following the reported offsets to any field, through referenced messages and present optional ones (whose offsets count from one byte after the beginning of the field), gives a range of bytes that decodes, alone and after the fields before it, to that field's value. If the range begins before the end of the input, replacing it by bytes, of any length, that decode as the field there makes the whole decode to the same value with only that field changed, and with the size changed by the difference; unions keyed by the field must read the same key. Bytes of the same number leave the size and every field's range as they were. A number written over a number field, whatever the number, and bytes of the right size over a structure are cases.", "quantifier": "every schema, input, path, replacement and profile", "why_tests_cant": "all inputs, all paths and all replacements; offsets nest and are relative to different origins", "anchors": ["compiler/src/gen/base/message_from_slice.rs", "compiler/src/gen/rust/message.from_slice.template", "compiler/src/gen/rust/message.offsets.template", "runtime/src/message/util/common.rs"]}
{"id": "C109", "title": "How long an encoded message is at most", "statement": "A message in which every string has a length prefix, without payloads, and whose lists are decoded item by item has a greatest size that follows from its declaration: counted strings, arrays and lists contribute what their prefix can announce (1, 2, 4 or 8 bytes wide), not what the declared limit says, optional fields a byte more, unions their greatest case. No input is decoded to more bytes, no representable value is written as more, and whether and as what an input is decoded depends only on that many first bytes. Without unions the size is reached by some value (arrays provided that prefix times item size is below 2^64), and a message of another kind has representable values of any size.", "quantifier": "every schema, input, representable value and profile", "why_tests_cant": "all inputs and values; sizes up to 2^64 cannot be tried", "anchors": ["compiler/src/gen/base/message_from_slice.rs", "compiler/src/compiler/message.rs: FieldType::from_model (max_len)", "runtime/src/message/util/list.rs", "runtime/src/message/util/string.rs"]}
{"id": "C110", "title": "Receiving a stream of messages in pieces", "statement": "A client appends what arrives to what it could not decode and decodes messages while that works. For a self-delimiting message that is never empty, the values it gets and the bytes it is left with depend only on the bytes received and not on how they were cut into pieces, also if they are no messages. Of a stream of valid messages it has at any time got exactly those that arrived whole, in order, and is left with the received part of the one after them. An error other than Truncated stays whatever arrives later, and if no string is length prefixed what is left of a valid stream always gives Truncated, so that the client can tell waiting from failing. With a length-prefixed string decoding an incomplete message panics.", "quantifier": "every message, stream, number and place of cuts, and moment", "why_tests_cant": "all schedules of arrival over all streams", "anchors": ["runtime/src/message/interface.rs", "runtime/src/message/util/string.rs", "runtime/src/message/util/list.rs", "compiler/src/gen/rust/message.from_slice.template"]}
{"id": "C111", "title": "What arrives of the messages of a sender that fails", "statement": "A client writes valid self-delimiting messages to a stream until a write fails, at any byte. The receiver, however the bytes are cut, gets exactly the values whose writes succeeded, in order, and at most the one whose write failed besides; that one only if the stream delivered all of its bytes and still failed. On a stream that accepts k bytes and then fails it gets exactly those whose writes succeeded. If the sender continues on new connections with the values whose writes did not succeed, over all connections all values that were sent are received in order, nothing else is, and there is at most one repetition for each connection.", "quantifier": "every message, sequence of values, stream, failing byte, number of connections and cutting of the bytes", "why_tests_cant": "all crash points and schedules", "anchors": ["runtime/src/message/interface.rs", "runtime/src/message/util/list.rs", "runtime/src/message/util/string.rs", "compiler/src/gen/rust/message.write.template", "compiler/src/gen/rust/message.from_slice.template"]}
{"id": "C112", "title": "Builds running at the same time in one output directory", "statement": "Any number of builds run at the same time in one output directory, their file operations mixed in any order. A build fails only if another one makes the directory of a protocol between its check that it is missing and its own attempt to make it; it reports an I/O error and does nothing more, and such a schedule exists for every build that has to make a directory. A build whose directories are there already, or are needed by no other build, succeeds. Whatever the schedule, not all builds fail. At every moment every path is as before, a directory of one of the protocols, or a file with contents one of the builds produces; the files of a build that succeeded are all there. Builds of the same protocols leave, once all have ended, exactly what one of them leaves alone. This also holds for files written in several steps, as long as the writers write the same contents.", "quantifier": "every number of builds, generator of files without folders, set of protocols and options, starting disk that a build accepts, and schedule of file operations", "why_tests_cant": "all schedules", "anchors": ["compiler/src/interface.rs", "compiler/src/gen/mod.rs", "compiler/src/build_script.rs"]}
{"id": "C113", "title": "Encoding to any output, call by call", "statement": "Encoding to any implementation of the standard output trait, which takes as many bytes per call as it likes, may be interrupted, and may fail at any call: the receiver gets a prefix of the full encoding, and either all of it together with the encoder's own result, or an I/O error is reported. Short counts and interruptions alone are never noticed. Encoding comes to an end unless a call is interrupted for ever. The size query, which counts in such an implementation, answers the number of bytes encoding appends. A receiver of a stream of valid self-delimiting messages gets those whose writes succeeded, and at most the one that failed besides.", "quantifier": "every output that keeps the promise of its documentation, every sequence of answers, every value and sequence of values", "why_tests_cant": "all schedules and failing calls", "anchors": ["runtime/src/message/interface.rs: WriteTo", "runtime/src/message/util/size.rs", "runtime/src/message/util/common.rs", "runtime/src/message/util/string.rs", "runtime/src/message/util/list_base.rs"]}
{"id": "C114", "title": "Lists and arrays built in storage of fixed size", "statement": "Writing items to a list or array whose storage is a mutable slice counts them and puts them at the front of the slice; the first one that does not fit is an I/O error, those before it stay counted and the slice holds the beginning of that item. What such a list is afterwards, and encodes as, is its count followed by the part of the slice that was not written; this is the encoding of the items exactly when that part happens to hold the same bytes. (The expectation that it encodes the items written is refuted.) What was written, together with the count, is the list built in a growable buffer. Encoding a message into a slice writes all of it or reports an I/O error and fills the slice with its beginning.", "quantifier": "every item type, sequence of items and storage", "why_tests_cant": "every storage size, unbounded sequences", "anchors": ["runtime/src/message/util/list_base.rs: write_item, write_items, write_to, to_ref", "runtime/src/message/util/list.rs", "runtime/src/message/util/array.rs"]}
{"id": "C115", "title": "How much decoding does", "statement": "Count a step for every decoder call, every turn of the loop that looks for the end of a list, and every byte compared with zero or checked to be text. If the items of all lists take a byte or more, decoding a message takes at most a number of steps fixed by its declaration, and a fixed number for each byte it takes (each byte of the input if it fails): the time is proportional to the length of the input, whatever the input announces. Iterating a list up to its end or first failure takes a time proportional to its data, whatever number of items it announces. When items can be empty neither holds: the prefix of a list alone makes decoding do as many steps as items it announces, up to 2^64.", "quantifier": "every schema, input and profile", "why_tests_cant": "all inputs, including those made by an attacker", "anchors": ["runtime/src/message/util/list.rs", "runtime/src/message/util/string.rs", "runtime/src/message/util/common.rs", "compiler/src/gen/base/message_from_slice.rs", "compiler/src/gen/rust/message.from_slice.template", "compiler/src/gen/rust/union.template"]}
{"id": "C116", "title": "The compiler on a host whose words are narrower than 64 bits", "statement": "A compiler built with overflow checks and running on a narrower host generates, from every set of files it accepts and in which no union case has a minus sign, exactly what every 64-bit host generates; if the case numbers also fit it reports the same errors or panics. Files whose signed fields and ranges are within a word, whose cases fit and whose structures have a size that is a number of the host are compiled the same in every profile. Above that, a release build silently generates wrong accessors: sizes and positions modulo the word, and for a signed field wider than a word a bound taken modulo the word, so that values above the bound are read as negative. A case with a minus sign has a different number on each host.", "quantifier": "every set of files, host width and profile", "why_tests_cant": "the test machines are 64-bit", "anchors": ["compiler/src/compiler/structure.rs", "compiler/src/compiler/union.rs", "compiler/src/compiler/protocol.rs", "compiler/src/interface.rs"]}
{"id": "C117", "title": "Nested data, all the way down", "statement": "A client that builds nested lists item by item, encodes the message, decodes it and iterates every list it meets gets back what it meant, at every depth, if the items of its lists end on their own; the same in front of other data if the message does. Two different things are never encoded alike. If the decoders of all messages scan their lists, every list in a decoded message can be iterated to the end, at every depth; otherwise decoding may succeed although items are missing. Reading everything never panics in schemas without the decoders that panic, and together with decoding takes a time proportional to the length of the input.", "quantifier": "every schema, nesting depth, history of additions and input", "why_tests_cant": "unbounded nesting and lengths", "anchors": ["runtime/src/message/util/list.rs", "compiler/src/gen/base/message_from_slice.rs", "compiler/src/gen/rust/message.from_slice.template", "compiler/src/gen/rust/message.write.template"]}
{"id": "C118", "title": "What the error of a short input means", "statement": "In a self-delimiting message without unions and without strings that end with a zero, whose arrays have sizes that are machine words, decoding fails with Truncated exactly when some continuation of the input is decoded, and then some continuation is exactly a message; every other error stays. An input of at least the greatest size of a message (of any kind that has one) is never Truncated, so that a client needs no longer buffer. A string that ends with a zero is reported as Truncated although what is there is the beginning of no text, and so is a message whose union key has no case when a field before the union is missing: a client waits for what cannot come.", "quantifier": "every schema, input and continuation", "why_tests_cant": "all continuations of all inputs", "anchors": ["runtime/src/message/util/list.rs", "runtime/src/message/util/string.rs", "runtime/src/message/util/common.rs", "compiler/src/gen/base/message_from_slice.rs", "compiler/src/gen/rust/message.from_slice.template", "compiler/src/gen/rust/union.template"]}
{"id": "C119", "title": "What changed bytes do to a message", "statement": "In a message without strings and unions, at any depth, whose arrays have sizes that are machine words, nothing is ever refused for what it is: every input is decoded or Truncated, an input as long as the longest message is always decoded, and a message of one size decodes exactly the inputs that are not shorter. A string that ends with a zero is enough for refusals: every text that is not UTF-8 is refused wherever the field is reached. Two inputs decoded to the same value take the same number of bytes and differ only in bytes that are zero in neither (the flags of optional fields); without optional fields every change of the bytes taken gives an error, another value or another size. Fields that end before the first changed byte, and before the end of the input, keep their values and the places reported for them.", "quantifier": "every schema, every input and every change of it", "why_tests_cant": "all pairs of inputs of all schemas", "anchors": ["runtime/src/message/util/list.rs", "runtime/src/message/util/array.rs", "runtime/src/message/util/string.rs", "runtime/src/message/util/common.rs", "compiler/src/gen/base/message_from_slice.rs", "compiler/src/gen/rust/message.from_slice.template", "compiler/src/gen/rust/message.offsets.template"]}
{"id": "C120", "title": "The pieces in which a message is handed to an output", "statement": "Encoding a message calls the output once per number, structure and payload, twice per string, array and list however long they are, and once more per optional field; unions add the calls of their case. If the value is refused the calls made are those of the fields before. So the number of calls is limited by a number that depends on the schema only, and without optional fields and unions it is the same for all values. The pieces joined are the wire form; an output that fails at its k-th call has been given exactly the first k-1 pieces, and the failure is reported.", "quantifier": "every schema, every value and every k", "why_tests_cant": "all values of all schemas, strings and lists of any length", "anchors": ["runtime/src/message/interface.rs", "runtime/src/message/util/list_base.rs", "runtime/src/message/util/string.rs", "runtime/src/message/util/common.rs", "compiler/src/gen/base/message_write.rs", "compiler/src/gen/rust/message.write.template", "compiler/src/gen/rust/union.template"]}
{"id": "C121", "title": "Descriptions read on a host whose words are narrower than 64 bits", "statement": "A host with narrower words reads from a file what a wider one reads, or refuses the file; numbers are never cut off. It refuses exactly the files with a number of bits, an array length, a list or string bound or an enum value that is not a number of the host, if no object in the file names a member twice; a variant that is overwritten by a later one of the same name is read as well. What a narrow host builds from files with overflow checks, a 64-bit host builds from the same files in both profiles, unless a union case has a minus sign.", "quantifier": "every document, set of files, build script and host width", "why_tests_cant": "the test machines are 64-bit", "anchors": ["compiler/src/model/structure.rs", "compiler/src/model/message.rs", "compiler/src/model/protocol.rs", "compiler/src/interface.rs"]}
{"id": "C122", "title": "Which messages two revisions of a schema exchange", "statement": "A reader of one revision reads, to the end, the value that a writer of another revision wrote exactly if both write the same bytes for it (without optional fields; with them, only if both write it at the same length), also in front of other data if the reader's message ends on its own. Raising limits of strings and lists always compiles if the lower limits do, and exactly the limits that pass 2^8, 2^16 or 2^32 change the wire: then every message in which one of these fields has a value is lost in both directions, and exactly those. The same holds of limits in messages that are fields of the message, at any depth; of a list of messages only the length of the list itself counts. A whole file with raised limits compiles if it did before, to the same declarations and the same messages in the same order but for wider lengths; it compiles to exactly the same if and only if no limit passes 2^8, 2^16 or 2^32, and limits changed between these, up or down, do not even change an error. The loss need not be an error: the reader may return other data or panic.", "quantifier": "every pair of schemas, value and continuation", "why_tests_cant": "two versions of the generated code are never in one test", "anchors": ["compiler/src/compiler/message.rs", "compiler/src/gen/base/message_from_slice.rs", "runtime/src/message/util/string.rs", "runtime/src/message/util/list.rs"]}
{"id": "C123", "title": "Exactly which descriptions compile", "statement": "A description without imports compiles exactly if, as written: enums have variants; fields of structures name an earlier structure or have a width from 1 to 64 and a view that fits it, and arrays of numbers take whole bytes; the discriminant of a union is a path from a declared structure to a scalar, its cases are variants or numbers the scalar's view can have and their contents declared structures; fields of messages name a structure or an earlier message, unions follow the structure that decides them, and nothing of variable size follows a list of messages, a payload or a message with one. Of several declarations with one name the last one counts. In debug builds no structure may moreover have 2^64 bits or a view with a shift that is too far. Nothing else matters: not what is compiled before or after it, nor sizes in release builds. A release build crashes instead of reporting an error exactly if enums and structures are in order and the first union that is not names a structure and no field in it, or has cases and a path ending with a structure that has no scalar at the position of the last name. A debug build also crashes exactly if enums and some structures are in order up to one in which, after fields in order, a field has such a shift, or a fitting view and a width or an end that passes 2^64. Every other description is reported as an error. Of several descriptions loaded together the first that is not in order decides, imported ones before the others.", "quantifier": "every description without imports, and every list of them", "why_tests_cant": "the tests compile a handful of descriptions, none of which is rejected", "anchors": ["compiler/src/compiler/protocol.rs", "compiler/src/compiler/structure.rs", "compiler/src/compiler/union.rs", "compiler/src/compiler/message.rs"]}
{"id": "C124", "title": "The sizes of the ranges a decoder records", "statement": "For every range recorded while decoding with offsets, at every depth of nested and optional messages, size() answers the number of bytes between its ends, at most the size of the message, and never panics. The sizes of a message's fields are the numbers of bytes encoding their values and add up to the size of the message. A range made up by a program that ends before it begins panics with overflow checks and otherwise answers the difference modulo the machine word.", "quantifier": "every schema, every input, every recorded range, both builds", "why_tests_cant": "all inputs and nesting depths", "anchors": ["runtime/src/message/interface.rs: FieldOffset::size", "compiler/src/gen/rust/message.offsets.template"]}
{"id": "C125", "title": "A pair of optional values as one optional pair", "statement": "to_single of a pair of optional values holds both values, in order, exactly when both are there, and nothing exactly when one of them is missing.", "quantifier": "every pair, every type", "why_tests_cant": "all types", "anchors": ["runtime/src/util/mod.rs: MultiOptionExt::to_single"]}
{"id": "C126", "title": "The size a structure reports", "statement": "size() of a generated structure does not depend on its storage. It is the number of bytes decoding takes, which fails exactly when there are fewer; the number of bytes encoding writes, the first ones of the storage, which panics without writing exactly when the storage has fewer; and the length of the storage made for it.", "quantifier": "every structure, every storage", "why_tests_cant": "all structures and lengths of storage", "anchors": ["runtime/src/util/mod.rs: Size, FixedSize", "compiler/src/gen/rust/structure.template"]}
