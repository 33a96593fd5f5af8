{"id": "C01", "title": "Binary round-trip of dynamic messages", "statement": "Encoding a DynamicMessage and decoding the bytes with the same descriptor yields a message with the same content: every field, extension and unknown field that the original reports as present is present with the same value, and nothing else is.", "quantifier": "every schema, every message holding valid values for it whose nesting fits the decoder's recursion limit, every map iteration order", "why_tests_cant": "the set of schemas and messages is infinite and recursive; tests sample a few fixed protos", "anchors": ["prost-reflect/src/dynamic/message.rs: DynamicMessage::encode_raw, merge_field, Value::encode_field, Value::merge_field", "prost-reflect/src/dynamic/unknown.rs"]}
{"id": "C02", "title": "encoded_len is exact", "statement": "encoded_len() of a message equals the number of bytes that encoding it writes, so encode never under- or over-runs a buffer sized with it and length prefixes of nested messages, packed lists and map entries are right.", "quantifier": "every schema and every message holding valid values", "why_tests_cant": "the length computation is a second recursive traversal; agreement has to hold at every varint width boundary and every nesting", "anchors": ["prost-reflect/src/dynamic/message.rs: encoded_len, packed_list_encoded_len", "prost-reflect/src/dynamic/unknown.rs: encoded_len"]}
{"id": "C03", "title": "Unknown fields survive decode and re-encode", "statement": "Any sequence of well-formed fields whose numbers the descriptor does not know is kept on decode, reported by unknown_fields in number order (wire order within a number), and written back with the same numbers, wire types and payloads.", "quantifier": "every list of unknown fields of any wire type, nested groups included", "why_tests_cant": "arbitrary nesting and sizes; tests use a handful of byte strings", "anchors": ["prost-reflect/src/dynamic/unknown.rs: UnknownField::encode, decode_value, UnknownFieldSet", "prost-reflect/src/dynamic/fields.rs: add_unknown"]}
{"id": "C04", "title": "Packed and unpacked encodings are interchangeable on decode", "statement": "For a repeated packable field the decoder accepts packed chunks, unpacked elements and any interleaving of the two, regardless of how the field is declared, and always produces the concatenation of the elements in wire order.", "quantifier": "every packable kind, every list of values, every way to split it into packed and unpacked chunks", "why_tests_cant": "exponentially many splits of unbounded lists", "anchors": ["prost-reflect/src/dynamic/message.rs: Value::merge_field (LengthDelimited && is_packable branch)"]}
{"id": "C05", "title": "Merging is decoding of concatenated bytes", "statement": "Decoding the concatenation of two byte strings gives the same result as decoding the first and merging the second into it; splitting the input at a field boundary never changes the result.", "quantifier": "every schema, every message state, all pairs of byte strings of which the first decodes", "why_tests_cant": "quantifies over all byte strings", "anchors": ["prost-reflect/src/dynamic/message.rs: merge_field", "prost-reflect/src/dynamic/mod.rs: DynamicMessage::decode"]}
{"id": "C06", "title": "Decoding arbitrary bytes is total and type-safe", "statement": "Decoding any byte string with any well-formed descriptor either returns an error or a message in which every stored value is valid for its field; it never reaches one of the panicking branches.", "quantifier": "every well-formed schema, every byte string, every starting message whose values are valid", "why_tests_cant": "adversarial input space; fuzzing can only sample", "anchors": ["prost-reflect/src/dynamic/message.rs: merge_field panics", "prost-reflect/src/dynamic/fields.rs: add_unknown panic", "prost-reflect/src/dynamic/mod.rs: MapKey::default_value panic"]}
{"id": "C07", "title": "Accepted values can always be encoded", "statement": "A message all of whose values passed the validity check of try_set_field (at every nesting level) is encoded without reaching the 'mismatch between DynamicMessage value and type' panic, and so is its length.", "quantifier": "every schema and every message built from accepted values", "why_tests_cant": "needs agreement of two case tables (is_valid and encode_field) on every kind/value pair at every depth", "anchors": ["prost-reflect/src/dynamic/mod.rs: Value::is_valid*", "prost-reflect/src/dynamic/message.rs: Value::encode_field, encoded_len"]}
{"id": "C08", "title": "Recursion limit", "statement": "Decoding input whose message or group nesting exceeds the limit of 100 returns an error instead of recursing further; nesting up to the limit is accepted.", "quantifier": "every nesting depth, messages and groups, known and unknown fields", "why_tests_cant": "depth is unbounded and the accounting is spread over several call sites", "anchors": ["prost-reflect/src/dynamic/message.rs: merge_field", "prost-reflect/src/dynamic/unknown.rs: decode_value"]}
{"id": "C09", "title": "Scalar wire codecs are inverse", "statement": "For each of the fifteen scalar kinds and for enums, every value of its Rust type is recovered from its wire encoding, including negative int32, zig-zag extremes and all float bit patterns.", "quantifier": "all 2^32 / 2^64 values of each kind", "why_tests_cant": "2^64 cases per kind", "anchors": ["prost-reflect/src/dynamic/message.rs: Value::encode_field scalars, Value::merge_field scalars, from_sint32, from_sint64"]}
{"id": "C10", "title": "Merge semantics per field shape", "statement": "When a field occurs several times on the wire, a scalar keeps the last value, a message field is the recursive merge of the occurrences, a repeated field accumulates all elements in order, and a map keeps the last value of each key.", "quantifier": "every number of occurrences and every value", "why_tests_cant": "unbounded occurrence sequences", "anchors": ["prost-reflect/src/dynamic/message.rs: Value::merge_field"]}
{"id": "C11", "title": "Field accessors behave like an abstract map", "statement": "Any sequence of set, clear, get_mut, take and get/has on a message behaves like the same sequence on a finite map from field numbers to values: get after set returns the value, other fields (outside the same oneof) are untouched, clear/take remove, has reports presence with the proto rules.", "quantifier": "every finite history of API calls on every message", "why_tests_cant": "histories are unbounded", "anchors": ["prost-reflect/src/dynamic/fields.rs: get, get_mut, set, clear, take, has", "prost-reflect/src/dynamic/mod.rs: DynamicMessage accessors"]}
{"id": "C12", "title": "At most one member of a oneof is set", "statement": "After any history of calls (set, get_mut, clear, take, decode/merge of any bytes) starting from an empty message, at most one member of each oneof holds a value, namely the last one written and not removed since.", "quantifier": "every history, every schema, every oneof", "why_tests_cant": "unbounded histories mixing API and wire input", "anchors": ["prost-reflect/src/dynamic/fields.rs: clear_oneof_fields, set, get_mut", "prost-reflect/src/dynamic/message.rs: merge_field"]}
{"id": "C13", "title": "Rejected writes change nothing", "statement": "try_set_field succeeds exactly when the value is valid for the field; when it fails it reports the field and returns the value, and every observation of the message is as before.", "quantifier": "every message, field and value", "why_tests_cant": "all (value, kind, cardinality) combinations at all nesting depths", "anchors": ["prost-reflect/src/dynamic/mod.rs: try_set_field, is_valid_for_field"]}
{"id": "C14", "title": "Iteration yields exactly the present fields", "statement": "fields(), extensions() and unknown_fields() together enumerate every present entry exactly once: fields() yields exactly the declared fields with has_field true in ascending number order, extensions() exactly the present extensions, unknown_fields() exactly the unknown ones; what encode writes is that enumeration.", "quantifier": "every message reachable by API calls and decoding", "why_tests_cant": "needs the invariant over all histories that the stored numbers partition into the three classes", "anchors": ["prost-reflect/src/dynamic/fields.rs: iter, iter_fields, iter_extensions, iter_unknown"]}
{"id": "C15", "title": "Draining a message empties it", "statement": "take_fields(), take_extensions() and take_unknown_fields(), fully consumed, return exactly what the corresponding iterators would have yielded; afterwards every observer of that class reports an empty message, the other classes are unchanged, and later writes work as on a fresh message. In addition a fully drained message should equal a freshly created one.", "quantifier": "every message and every later history", "why_tests_cant": "the internal leftovers only show in some later histories and in equality", "anchors": ["prost-reflect/src/dynamic/fields.rs: take_fields, take_extensions, take_unknown, ValueOrUnknown::Taken", "prost-reflect/src/dynamic/mod.rs: PartialEq"]}
{"id": "C16", "title": "Presence and defaults", "statement": "An absent field reads as its declared default, which is always a valid value for the field; a field with explicit presence is present iff set; a field without presence is present iff its value differs from the default, and setting it to the default makes it absent on the wire.", "quantifier": "every field descriptor and every value", "why_tests_cant": "all kinds x cardinalities x presence rules x values", "anchors": ["prost-reflect/src/dynamic/fields.rs: FieldDescriptorLike::has, default_value", "prost-reflect/src/descriptor/api.rs: Kind::default_value, FieldDescriptor::default_value"]}
{"id": "C17", "title": "Value and MapKey conversions are inverse", "statement": "Converting a map key to a value and back gives the same key; a value converts to a map key exactly when it is of one of the six key types; validity for a key kind agrees with validity of the converted value.", "quantifier": "every map key and every value", "why_tests_cant": "infinite value domain", "anchors": ["prost-reflect/src/dynamic/mod.rs: From<MapKey> for Value, Value::into_map_key, MapKey::is_valid, Value::is_valid"]}
{"id": "C18", "title": "Names are unique and look-ups are exact", "statement": "In a pool every fully-qualified name denotes at most one definition. Looking up the full name of any message, enum, service or extension of the pool, preceded by a dot, returns that very descriptor; so does the name without the dot unless the name itself starts with one; all other names return none.", "quantifier": "every history of successful and failed additions of files", "why_tests_cant": "unbounded sets of files with arbitrary nesting and package prefixes", "anchors": ["prost-reflect/src/descriptor/build/names.rs: add_name", "prost-reflect/src/descriptor/api.rs: get_message_by_name, get_enum_by_name, get_service_by_name, get_extension_by_name"]}
{"id": "C19", "title": "A failed addition leaves the pool unchanged", "statement": "When adding files fails, the pool is observably the same as before the call: same files, messages, enums, services, extensions, names and extensions-per-message.", "quantifier": "every pool and every rejected set of files", "why_tests_cant": "must hold for every failing point inside the three build passes", "anchors": ["prost-reflect/src/descriptor/build/mod.rs: DescriptorPoolOffsets::rollback, build_files", "prost-reflect/src/descriptor/api.rs: add_file_descriptor_protos"]}
{"id": "C20", "title": "A successful addition only extends the pool", "statement": "Descriptors obtained before an addition keep their identity: after a successful addition every earlier file, message, enum, service and extension is found at the same index with the same contents, and every earlier name still resolves to it.", "quantifier": "every pool and every accepted set of files", "why_tests_cant": "unbounded pools; indices must never shift", "anchors": ["prost-reflect/src/descriptor/build/mod.rs: build_files_deduped", "prost-reflect/src/descriptor/build/names.rs"]}
{"id": "C21", "title": "Adding a known file again is a no-op", "statement": "Adding a file whose name the pool already knows changes nothing and succeeds, whatever the file contains; a batch containing such files behaves as the batch without them; adding an accepted batch again is a no-op; two new files of the same name in one batch are an error.", "quantifier": "every pool and every batch of files", "why_tests_cant": "interaction of de-duplication with batches of arbitrary size", "anchors": ["prost-reflect/src/descriptor/build/mod.rs: build_files"]}
{"id": "C22", "title": "Type names resolve to the innermost visible scope", "statement": "A type name is resolved by trying the enclosing scopes from the innermost outwards. For a simple name the first scope that has a visible definition of the right kind decides; for a dotted name the first scope in which its first component is defined as something with members decides, and the rest is looked up there only. A leading dot means fully qualified. The result does not depend on any definition outside those candidates.", "quantifier": "every scope, every dotted name, every name table", "why_tests_cant": "arbitrarily deep scopes and shadowing patterns", "anchors": ["prost-reflect/src/descriptor/build/mod.rs: resolve_name, resolve_relative_name, candidate_parents"]}
{"id": "C23", "title": "Types are visible exactly through imports and public imports", "statement": "A file may refer to types of itself, of the files it imports, and of files reachable from those through chains of public imports of any length, and of no other file.", "quantifier": "every import graph", "why_tests_cant": "chains of any length, cyclic graphs", "anchors": ["prost-reflect/src/descriptor/build/resolve.rs: visit_file, resolve_public_dependencies", "prost-reflect/src/descriptor/build/mod.rs: ResolveNameResult::new"]}
{"id": "C24", "title": "Adding files always terminates with a result", "statement": "Adding any set of file descriptors returns Ok or an error; it does not panic, overflow the stack or loop, whatever the (possibly malformed) descriptors contain.", "quantifier": "every pool and every list of file descriptor protos", "why_tests_cant": "adversarial inputs; panics hide in rarely combined error paths", "anchors": ["prost-reflect/src/descriptor/build/names.rs: visit_file", "prost-reflect/src/descriptor/error.rs: Label::new", "prost-reflect/src/descriptor/build/resolve.rs: resolve_public_dependencies, unescape_c_escape_string"]}
{"id": "C25", "title": "Field numbers are valid and unique", "statement": "In every message of a pool the field numbers are pairwise distinct, lie in 1..=536870911 outside 19000..=19999, and hit no reserved range and no extension range of the message; every extension number lies in an extension range of its extendee.", "quantifier": "every accepted set of files", "why_tests_cant": "all ranges and numbers; boundary conventions of half-open ranges", "anchors": ["prost-reflect/src/descriptor/build/resolve.rs: check_field_number, visit_field, visit_extension"]}
{"id": "C26", "title": "Enum look-up by number", "statement": "get_value(n) returns a value whose number is n whenever the enum declares one and none otherwise; values() enumerates every declared value exactly once in ascending number order; without allow_alias numbers are distinct; numbers in reserved ranges are rejected.", "quantifier": "every enum declaration order, every number", "why_tests_cant": "sorted insertion and binary search over unbounded lists with duplicates", "anchors": ["prost-reflect/src/descriptor/build/resolve.rs: visit_enum_value, check_enum_number", "prost-reflect/src/descriptor/api.rs: EnumDescriptor::get_value, values"]}
{"id": "C27", "title": "Field look-ups agree", "statement": "For every field f of a message, looking it up by number, by name and by JSON name returns f, no two fields share a number, a name or a JSON name, and fields() enumerates each once in ascending number order.", "quantifier": "every message of every accepted set of files", "why_tests_cant": "three indexes built incrementally must stay consistent", "anchors": ["prost-reflect/src/descriptor/build/resolve.rs: visit_field", "prost-reflect/src/descriptor/api.rs: get_field, get_field_by_name, get_field_by_json_name, fields"]}
{"id": "C28", "title": "Pool clones are isolated", "statement": "Adding files to a pool never changes what any other clone of the pool, or any descriptor obtained from it, reports; in particular changes to a copy of the global pool do not affect the global pool and vice versa.", "quantifier": "every interleaving of clone, add and drop on any number of handles", "why_tests_cant": "unbounded histories over shared reference-counted state", "anchors": ["prost-reflect/src/descriptor/mod.rs: DescriptorPool{inner: Arc}", "prost-reflect/src/descriptor/build/mod.rs: Arc::make_mut, Arc::get_mut", "prost-reflect/src/descriptor/global.rs"]}
{"id": "C29", "title": "Option bytes are preserved", "statement": "The options of a descriptor are kept as the exact bytes given, so unknown or extension options survive, and setting several interpreted options appends without disturbing those present. An option takes exactly the value written for it, also as an element of a list or an entry of a map; options that are resolved already are left as they are.", "quantifier": "every sequence of option fields", "why_tests_cant": "arbitrary bytes and option sequences", "anchors": ["prost-reflect/src/descriptor/types.rs: Options<T>"]}
{"id": "C30", "title": "Repeated packable proto3 fields are packed by default", "statement": "A repeated field of a packable kind in a proto3 file is packed unless its options explicitly say packed=false; in a proto2 file it is packed only if its options say packed=true.", "quantifier": "every field declaration with any combination of options", "why_tests_cant": "interaction with unrelated options", "anchors": ["prost-reflect/src/descriptor/build/resolve.rs: visit_field is_packed"]}
{"id": "C31", "title": "Map entry messages have key and value", "statement": "If is_map_entry() returns true for a message then it has a field 1 named as key of a legal key kind and a field 2 as value, as documented, so reading and decoding map fields cannot panic.", "quantifier": "every accepted set of files", "why_tests_cant": "adversarial descriptors", "anchors": ["prost-reflect/src/descriptor/api.rs: is_map_entry, map_entry_key_field, map_entry_value_field"]}
{"id": "C32", "title": "Extension numbers identify extensions", "statement": "Within a pool, no two extensions of the same message share a number, so get_extension(number) and decoding identify a unique extension.", "quantifier": "every accepted set of files", "why_tests_cant": "needs a check across files", "anchors": ["prost-reflect/src/descriptor/build/resolve.rs: visit_extension", "prost-reflect/src/descriptor/api.rs: get_extension"]}
{"id": "C33", "title": "String escaping round-trips in the text format", "statement": "Printing any byte string as a text-format literal and lexing it back yields the same bytes and consumes exactly the literal.", "quantifier": "all byte strings (and any following text)", "why_tests_cant": "infinite; octal escapes followed by digits, quotes and control bytes interact", "anchors": ["prost-reflect/src/dynamic/mod.rs: fmt_string", "prost-reflect/src/dynamic/text_format/parse/lex.rs: string"]}
{"id": "C34", "title": "Text format round-trip", "statement": "Parsing the text printed for a message with the same descriptor yields the same present fields and extensions with the same values (unknown fields excluded), in compact and pretty mode.", "quantifier": "every schema and message", "why_tests_cant": "recursive value space; separators, brackets and padding must never be ambiguous", "anchors": ["prost-reflect/src/dynamic/text_format/format.rs", "prost-reflect/src/dynamic/text_format/parse/mod.rs"]}
{"id": "C35", "title": "Escaped bytes defaults", "statement": "The C-escape decoder used for default values of bytes fields inverts the escaping protoc applies and returns an error for malformed input without panicking.", "quantifier": "all strings", "why_tests_cant": "infinite input; overflow and slicing edge cases", "anchors": ["prost-reflect/src/descriptor/build/resolve.rs: unescape_c_escape_string"]}
{"id": "C36", "title": "Text-format integers are range-checked", "statement": "An integer literal (decimal, octal, hex, optionally negated) parses into a field of a given integer kind exactly when its mathematical value is representable, and then to that value; otherwise it is rejected, never wrapped.", "quantifier": "every literal and every integer kind", "why_tests_cant": "unbounded digit strings", "anchors": ["prost-reflect/src/dynamic/text_format/parse/mod.rs: parse_i32, parse_i64, parse_u32, parse_u64"]}
{"id": "C37", "title": "Text format rejects double assignment", "statement": "Parsing text that sets a non-repeated field twice, or two members of a oneof, fails, so the parsed message never silently drops a value that was written.", "quantifier": "every schema and every sequence of field assignments", "why_tests_cant": "unbounded sequences", "anchors": ["prost-reflect/src/dynamic/text_format/parse/mod.rs: parse_field_value"]}
{"id": "C38", "title": "Field masks round-trip through JSON or are rejected", "statement": "If a FieldMask serializes to JSON, deserializing the string gives the same paths; masks that would not survive are rejected with an error.", "quantifier": "every list of paths", "why_tests_cant": "infinite strings; underscores at the ends, empty paths, commas", "anchors": ["prost-reflect/src/dynamic/serde/case.rs", "prost-reflect/src/dynamic/serde/ser/wkt.rs: serialize_field_mask", "prost-reflect/src/dynamic/serde/de/wkt.rs: GoogleProtobufFieldMaskVisitor"]}
{"id": "C39", "title": "Strict RFC 3339 validation", "statement": "A timestamp string passes validation exactly when it has the form YYYY-MM-DDTHH:MM:SS[.digits](Z|(+|-)HH:MM) with upper-case T and Z.", "quantifier": "all byte strings", "why_tests_cant": "infinite", "anchors": ["prost-reflect/src/dynamic/serde/de/wkt.rs: validate_strict_rfc3339"]}
{"id": "C40", "title": "Timestamp and duration ranges", "statement": "Durations and timestamps outside the documented protobuf range are rejected in both directions of JSON conversion and all others accepted, so serialize and deserialize accept the same set.", "quantifier": "all 64/32-bit seconds and nanos", "why_tests_cant": "2^96 pairs; i64::MIN absolute value", "anchors": ["prost-reflect/src/dynamic/serde/mod.rs: check_duration, check_timestamp"]}
{"id": "C41", "title": "JSON integers are range-checked", "statement": "A JSON number or string is accepted for an integer field exactly when its mathematical value is an integer representable in the field's type, and then yields that value.", "quantifier": "all JSON numbers (i64, u64, double) and decimal strings", "why_tests_cant": "2^64 doubles; boundary rounding of limits converted to double", "anchors": ["prost-reflect/src/dynamic/serde/de/kind.rs: Int32Visitor, Uint32Visitor, Int64Visitor, Uint64Visitor"]}
{"id": "C42", "title": "Bytes round-trip through base64", "statement": "Bytes serialized to JSON deserialize to the same bytes; standard and URL-safe alphabets, padded or not, are all accepted.", "quantifier": "all byte strings", "why_tests_cant": "infinite", "anchors": ["prost-reflect/src/dynamic/serde/ser/mod.rs: Base64Display", "prost-reflect/src/dynamic/serde/de/kind.rs: BytesVisitor"]}
{"id": "C43", "title": "JSON round-trip", "statement": "Serializing a message to JSON and deserializing it with the same descriptor yields the same present fields and extensions with the same values (unknown fields excluded), for every combination of serialization options.", "quantifier": "every schema, message and option set", "why_tests_cant": "recursive value space times option combinations", "anchors": ["prost-reflect/src/dynamic/serde/ser/mod.rs", "prost-reflect/src/dynamic/serde/de/mod.rs", "prost-reflect/src/dynamic/serde/de/kind.rs"]}
{"id": "C44", "title": "Type URLs", "statement": "The message name extracted from an Any type URL is the part after the last slash; URLs without a slash are rejected.", "quantifier": "all strings", "why_tests_cant": "infinite", "anchors": ["prost-reflect/src/dynamic/mod.rs: get_type_url_message_name"]}
{"id": "C45", "title": "JSON field names", "statement": "The default JSON name of a field contains no underscore, is obtained by removing each underscore and upper-casing the following character, and is unchanged when the name has none.", "quantifier": "all identifiers", "why_tests_cant": "infinite", "anchors": ["prost-reflect/src/descriptor/build/mod.rs: to_json_name"]}
{"id": "C46", "title": "Writes are checked against the field's type", "statement": "set_field / try_set_field accept a value only if it conforms to the declared type at every level: in particular a message value is accepted only if it is of the field's message type.", "quantifier": "every field and value", "why_tests_cant": "all pairs of message types", "anchors": ["prost-reflect/src/dynamic/mod.rs: Value::is_valid, is_valid_for_field"]}
{"id": "C47", "title": "Descriptor paths", "statement": "The path() of every message, enum, field, oneof, service, method, extension and enum value of a pool locates, in the FileDescriptorProto of its file, the declaration it was built from.", "quantifier": "every accepted set of files with arbitrary nesting", "why_tests_cant": "unbounded nesting; index bookkeeping across three visitors", "anchors": ["prost-reflect/src/descriptor/build/visit.rs", "prost-reflect/src/descriptor/mod.rs: find_message_proto, find_enum_proto"]}
{"id": "C48", "title": "String and default parsing for enum and numeric defaults", "statement": "A declared default value is stored exactly when it denotes a value of the field's type (an enum default names a value of that enum), and invalid ones are rejected.", "quantifier": "every kind and every default string", "why_tests_cant": "infinite strings", "anchors": ["prost-reflect/src/descriptor/build/resolve.rs: parse_field_default_value, parse_simple_value"]}
{"id": "C49", "title": "Wire type mismatches are rejected", "statement": "Decoding a known field whose key carries a wire type that the field's declared type does not allow (the type's own wire type, or length-delimited for a packable repeated field) fails with an error and never silently stores a value.", "quantifier": "every schema, field, wire type and payload", "why_tests_cant": "all field shapes, all wire types and unbounded payloads", "anchors": ["prost-reflect/src/dynamic/message.rs: Value::merge_field"]}
{"id": "C50", "title": "Whatever decodes can be re-encoded and decoded again", "statement": "If some bytes decode, then encoding the result and decoding that again succeeds and yields a message with the same content.", "quantifier": "every schema and every byte string", "why_tests_cant": "unbounded inputs and nesting depth; depends on the recursion limit at both ends", "anchors": ["prost-reflect/src/dynamic/message.rs: merge_field, encode_raw", "prost-reflect/src/dynamic/unknown.rs"]}
{"id": "C51", "title": "Files that are not imported do not influence name resolution", "statement": "Whether a type reference in a file resolves, and to what, depends only on the declarations in that file and in the files visible to it (its imports and their public imports, transitively). Adding an unrelated file to the pool first never turns an acceptable file into a rejected one or changes the target of a reference.", "quantifier": "every pool, every file, every unrelated file, every order of addition", "why_tests_cant": "quantifies over everything else the pool could contain", "anchors": ["prost-reflect/src/descriptor/build/resolve.rs: resolve_name", "prost-reflect/src/descriptor/build/names.rs"]}
{"id": "C52", "title": "Text parsing is total and type-safe", "statement": "Parsing or merging any text, whatever it contains, either fails with an error or produces a message that conforms to its descriptor; it never panics, overflows the stack or loops.", "quantifier": "every well-formed schema, every starting message and every text", "why_tests_cant": "unbounded input space with nested messages, extensions, Any expansions and all literal forms", "anchors": ["prost-reflect/src/dynamic/text_format/parse/mod.rs: Parser", "prost-reflect/src/dynamic/text_format/parse/lex.rs: Token"]}
{"id": "C53", "title": "Numbers on the wire are read as the field type prescribes", "statement": "Any varint of up to ten bytes, minimal or not, decodes for an int32, uint32 or enum field to its low 32 bits, for a bool field to whether it is non-zero, for sint fields to the zigzag value, and leaves all other fields as they were.", "quantifier": "every message, every singular varint field, every varint", "why_tests_cant": "2^64 numbers in all lengths for nine kinds", "anchors": ["prost-reflect/src/dynamic/message.rs: merge_value, merge_field"]}
{"id": "C54", "title": "Presence follows the declaration", "statement": "supports_presence is false for repeated fields; a singular field supports presence exactly if it is a message, a oneof member, proto3 optional or declared in a proto2 file.", "quantifier": "every field of every pool reached by adding files", "why_tests_cant": "all histories and all combinations of label, kind, syntax, oneof and options", "anchors": ["prost-reflect/src/descriptor/build/resolve.rs: visit_field", "prost-reflect/src/descriptor/api.rs: FieldDescriptor::supports_presence"]}
{"id": "C55", "title": "String literals in text format", "statement": "Text that begins with a quote is a string literal exactly when it goes on with plain characters and escapes up to the same quote. Characters other than backslash, the quote, NUL and line feed stand for their UTF-8 bytes. Escapes are the C escapes of one character, one to three octal digits up to 377, x or X with one or two hexadecimal digits, u with four and U with eight hexadecimal digits for a character; each stands for the byte or character with that number. Adjacent literals are joined; a literal that contains NUL or a line feed, or is not closed by the quote that opened it, is rejected.", "quantifier": "every literal and following text", "why_tests_cant": "unbounded literals", "anchors": ["prost-reflect/src/dynamic/text_format/parse/lex.rs: string", "prost-reflect/src/dynamic/text_format/parse/mod.rs: parse_bytes"]}
{"id": "C56", "title": "Boolean literals in text format", "statement": "A boolean field takes exactly true, True, t, false, False, f and unsigned integer literals of value 0 or 1; everything else is rejected.", "quantifier": "every identifier and integer literal", "why_tests_cant": "infinitely many literals must be rejected", "anchors": ["prost-reflect/src/dynamic/text_format/parse/mod.rs: parse_bool"]}
{"id": "C57", "title": "Enum values in text format", "statement": "An identifier given for an enum field sets the number of the value with exactly that name and is rejected if there is none; an integer literal sets that number, declared or not, exactly if it fits 32 signed bits.", "quantifier": "every enum, identifier and integer literal", "why_tests_cant": "unbounded enums and literals", "anchors": ["prost-reflect/src/dynamic/text_format/parse/mod.rs: parse_enum"]}
{"id": "C58", "title": "Reading JSON is total and well-typed", "statement": "Deserializing any JSON value into a message type returns a message of that type whose fields all hold values of their declared type, or an error; it never panics, and the recursion is no deeper than the JSON value.", "quantifier": "every schema, message type, JSON value and option", "why_tests_cant": "the input is arbitrary, of unbounded size and depth", "anchors": ["prost-reflect/src/dynamic/serde/de/mod.rs: deserialize_message", "prost-reflect/src/dynamic/serde/de/kind.rs: MessageVisitor, KindSeed", "prost-reflect/src/dynamic/serde/de/wkt.rs"]}
{"id": "C59", "title": "Writing JSON does not panic", "statement": "Serializing a well-typed message gives JSON or an error and never panics or overflows the stack. It always ends, and what is written does not depend on how deep the stack is.", "quantifier": "every schema, well-typed message and option", "why_tests_cant": "all messages of all schemas, of unbounded size", "anchors": ["prost-reflect/src/dynamic/serde/ser/mod.rs", "prost-reflect/src/dynamic/serde/ser/wkt.rs: serialize_any"]}
{"id": "C60", "title": "Unknown keys in JSON", "statement": "With deny_unknown_fields(false) an entry whose key is neither a field name nor a JSON name nor an extension has no effect whatever its value; otherwise an object with such an entry is rejected.", "quantifier": "every schema, object, key and value", "why_tests_cant": "arbitrary surrounding entries and values", "anchors": ["prost-reflect/src/dynamic/serde/de/kind.rs: MessageVisitorInner::visit_map", "prost-reflect/src/dynamic/serde/mod.rs: DeserializeOptions::deny_unknown_fields"]}
{"id": "C61", "title": "null means absent", "statement": "An entry whose value is null leaves the message as it is, except for fields of type google.protobuf.Value and google.protobuf.NullValue.", "quantifier": "every schema, object and field", "why_tests_cant": "arbitrary surrounding entries", "anchors": ["prost-reflect/src/dynamic/serde/de/mod.rs: OptionalFieldDescriptorSeed::visit_none"]}
{"id": "C62", "title": "Both names of a field are accepted", "statement": "In a JSON object the declared name and the JSON name of a field are interchangeable.", "quantifier": "every schema, object, field and value", "why_tests_cant": "arbitrary schemas and surrounding entries", "anchors": ["prost-reflect/src/dynamic/serde/de/kind.rs: MessageVisitorInner::visit_map"]}
{"id": "C63", "title": "Oneofs in JSON", "statement": "A JSON object with non-null values for two members of a oneof, or twice for one member, is rejected.", "quantifier": "every schema, oneof, object and pair of positions", "why_tests_cant": "arbitrary entries before, between and after", "anchors": ["prost-reflect/src/dynamic/serde/de/kind.rs: check_oneof, visit_map"]}
{"id": "C64", "title": "Every JSON entry counts", "statement": "If an object is accepted then the value of each entry is one its field accepts, each field holds the value of the last entry that names it, and a field no entry names is not set.", "quantifier": "every schema, accepted object and field", "why_tests_cant": "arbitrary objects", "anchors": ["prost-reflect/src/dynamic/serde/de/kind.rs: MessageVisitorInner::visit_map"]}
{"id": "C65", "title": "Wrapper types read and write like the scalar they wrap", "statement": "JSON is accepted for google.protobuf.DoubleValue, FloatValue, Int64Value, UInt64Value, Int32Value, UInt32Value, BoolValue, StringValue and BytesValue exactly when it is accepted for a field of the wrapped type, and gives the same value; a wrapper is written as the wrapped value is.", "quantifier": "every wrapper type, pool with it, JSON value and option", "why_tests_cant": "arbitrary JSON and values of nine types; the implementation transcodes through the compiled types", "anchors": ["prost-reflect/src/dynamic/serde/de/mod.rs: deserialize_message", "prost-reflect/src/dynamic/serde/ser/wkt.rs: get_well_known_type_serializer", "prost-reflect/src/dynamic/serde/de/wkt.rs"]}
{"id": "C66", "title": "Any JSON can be kept in Value, Struct and ListValue", "statement": "google.protobuf.Value accepts every JSON value, Struct exactly the objects and ListValue exactly the arrays; writing the message gives the same JSON, with numbers as doubles, the last of several entries with the same key, and keys in order.", "quantifier": "every pool with these types, JSON value and option", "why_tests_cant": "arbitrary JSON; nesting reaches limits of the wire format that the JSON does not show", "anchors": ["prost-reflect/src/dynamic/serde/de/wkt.rs: GoogleProtobufValueVisitor, GoogleProtobufStructVisitor, GoogleProtobufListVisitor", "prost-reflect/src/dynamic/serde/ser/wkt.rs: serialize_value, serialize_struct, serialize_list"]}
{"id": "C67", "title": "The text of unknown fields tells what they are", "statement": "Display of an unknown field, and the text of a message when unknown fields are printed, gives each field's number and value in order: varints in decimal, 32 and 64 bits as 8 and 16 hexadecimal digits, strings escaped exactly, groups and nested messages as blocks. Fields with the same text have the same number, and agree up to the choice between group, nested message and string. Printing never fails.", "quantifier": "every unknown field, nesting and layout", "why_tests_cant": "values, nesting and bytes are unbounded; whether two texts are confused is a statement about pairs; nested values recurse without a limit", "anchors": ["prost-reflect/src/dynamic/text_format/format.rs: fmt_unknown_field, fmt_unknown_field_set, fmt_delimited", "prost-reflect/src/dynamic/unknown.rs: impl Display for UnknownField"]}
{"id": "C68", "title": "A pool shows messages the schema its files declare, and that schema is well formed", "statement": "After additions that were all accepted, every descriptor a message of the pool can reach resolves: reading a message type's name, fields, extensions and map-entry flag never panics, and look-ups by number, name, JSON name and full name on it give what the pool's own look-ups give. If the files have the shape protoc gives them, the types seen this way meet everything that encoding, decoding, JSON and text rely on: distinct valid numbers, types that exist, defaults of the field's type, map entries with a key and a value.", "quantifier": "every history of accepted additions, every message and enum in the pool, every name and number", "why_tests_cant": "the indices between files, messages, extensions and enums are built up over an unbounded history of additions; a dangling one panics only when a message is used", "anchors": ["prost-reflect/src/descriptor/api.rs: MessageDescriptor::fields, get_field, get_field_by_name, get_field_by_json_name, extensions, get_extension, is_map_entry", "prost-reflect/src/descriptor/build/resolve.rs: ResolveVisitor"]}
{"id": "C69", "title": "Messages of a pool's types survive bytes, text and JSON", "statement": "Take any pool built from descriptor files by additions that were all accepted, and any message of one of its types. Encoding and decoding it gives it back; printing it in the text format, or writing it as JSON, and reading that back gives it back; reading arbitrary bytes, text or JSON as one of its types gives a message or an error, never a panic.", "quantifier": "every history of accepted additions, every type of the pool, every message, input and option", "why_tests_cant": "schemas, messages and inputs are all unbounded, and the guarantee joins the builder's checks with what the codecs rely on", "anchors": ["prost-reflect/src/descriptor/api.rs: DescriptorPool::add_file_descriptor_protos", "prost-reflect/src/dynamic/message.rs: encode, merge_field", "prost-reflect/src/dynamic/serde/mod.rs", "prost-reflect/src/dynamic/text_format/mod.rs"]}
{"id": "C70", "title": "Files list what they declare", "statement": "For every file of a pool: its name, package, syntax and the files it imports (publicly or not) are the declared ones; messages(), enums(), services() and extensions() of the file never panic and list, in declared order, exactly the top-level declarations of that file.", "quantifier": "every history of additions, every file and every declaration in it", "why_tests_cant": "listings go through a look-up by name, so they depend on the names of all files added before and on which additions failed", "anchors": ["prost-reflect/src/descriptor/api.rs: FileDescriptor::{name, package_name, syntax, dependencies, public_dependencies, messages, enums, services, extensions}"]}
{"id": "C71", "title": "Parents and children agree", "statement": "For every message of a pool: child_messages(), child_enums() and child_extensions() never panic and list, in declared order, exactly the descriptors whose parent_message is that message; a parent lies in the same file and its full name is the scope of the child's; package_name is the package of the file.", "quantifier": "every history of additions, every message, enum and extension", "why_tests_cant": "nesting depth and the number of files are unbounded, and the two directions are computed differently (by name and by stored index)", "anchors": ["prost-reflect/src/descriptor/api.rs: MessageDescriptor::{parent_message, child_messages, child_enums, child_extensions, package_name}, EnumDescriptor::parent_message, ExtensionDescriptor::parent_message"]}
{"id": "C72", "title": "Oneofs and their fields agree", "statement": "For every oneof of a pool: fields() lists, in declared order and without repetition, exactly the fields declared with its index, which are the fields whose containing_oneof is that oneof; is_synthetic() never panics and is true exactly if the oneof has one field and that field is declared proto3_optional.", "quantifier": "every history of additions, every message, oneof and field", "why_tests_cant": "any number of oneofs and fields in any order; the member lists are built up field by field", "anchors": ["prost-reflect/src/descriptor/api.rs: OneofDescriptor::{fields, is_synthetic}, FieldDescriptor::containing_oneof", "prost-reflect/src/descriptor/build/resolve.rs: visit_field"]}
{"id": "C73", "title": "Listed ranges are the ranges that are checked", "statement": "reserved_ranges() and extension_ranges() of a message list the declared ranges; no field and no extension of the message has a number in a listed reserved range, and every extension has its number in a listed extension range. The same for the reserved ranges of an enum and its values.", "quantifier": "every history of additions, every message, enum, field, extension and value", "why_tests_cant": "the ranges are checked as declared (i32) but listed as u32, over all combinations of ends", "anchors": ["prost-reflect/src/descriptor/api.rs: MessageDescriptor::{reserved_ranges, extension_ranges}, EnumDescriptor::reserved_ranges", "prost-reflect/src/descriptor/build/resolve.rs: check_message_field_number"]}
{"id": "C74", "title": "Extensions are found by full name and by JSON name", "statement": "get_extension_by_full_name(n) of a message returns the extension of that message whose full name is n, and get_extension_by_json_name(n) the one with n = [full name]; otherwise none. Neither panics.", "quantifier": "every history of additions, every message and name", "why_tests_cant": "an extension may be declared in any file and scope, added at any time after the message it extends", "anchors": ["prost-reflect/src/descriptor/api.rs: MessageDescriptor::{get_extension_by_full_name, get_extension_by_json_name, extensions}"]}
{"id": "C76", "title": "Adding files does not change messages of the old types", "statement": "After a successful addition to a pool, bytes of a message type that was there before decode to the same message, or fail to decode, exactly as before, and messages of that type have the same encoding and encoded length, as long as no added extension extends that type or a type inside it.", "quantifier": "every history of successful additions, every further successful addition, every message type, byte string and message", "why_tests_cant": "the added files and the messages in use are arbitrary; descriptors are re-read through the grown pool on every access", "anchors": ["prost-reflect/src/descriptor/mod.rs: DescriptorPool::add_file_descriptor_set", "prost-reflect/src/descriptor/build/mod.rs", "prost-reflect/src/dynamic/message.rs"]}
{"id": "C78", "title": "Messages survive a program that does not know their fields", "statement": "A message that is encoded, decoded by a program with a message type that has none of its fields, encoded again there and sent on, decodes to a message with the same content. Any bytes forwarded by a program with an empty message type decode as they would have without it.", "quantifier": "every two schemas, every message within the limits on nesting and length, every byte string", "why_tests_cant": "the forwarding program keeps the fields as unknown fields and writes them in another order; the property ranges over all types, nestings, groups, maps and packed lists", "anchors": ["prost-reflect/src/dynamic/message.rs: encode_raw, merge_field", "prost-reflect/src/dynamic/fields.rs: add_unknown, iter", "prost-reflect/src/dynamic/unknown.rs"]}
{"id": "C79", "title": "The order of fields on the wire does not matter", "statement": "Two byte strings that hold the same fields, with the fields of each number in the same order, decode to the same message or both fail, whatever the order of fields with different numbers and however long their varints are.", "quantifier": "every schema, every two byte strings with the same fields per number", "why_tests_cant": "all interleavings of any number of fields", "anchors": ["prost-reflect/src/dynamic/message.rs: merge_field", "prost-reflect/src/dynamic/fields.rs: get_mut, add_unknown"]}
{"id": "C75", "title": "options() gives the options as resolved", "statement": "The option message that options() gives for a descriptor is the option message of the file as it was given, with everything in it kept and the uninterpreted options set on it. A descriptor without options gives an empty message. Adding further files does not change the answer.", "quantifier": "every option type, option bytes, list of uninterpreted options and later additions", "why_tests_cant": "all option types, option names, values and extension sets, and all later histories of the pool", "anchors": ["prost-reflect/src/descriptor/api.rs: decode_options, options", "prost-reflect/src/descriptor/build/options.rs: OptionsVisitor", "prost-reflect/src/descriptor/types.rs: Options"]}
{"id": "C77", "title": "Source locations follow resolved options", "statement": "When uninterpreted options are resolved, each source location of an uninterpreted option, or of a part of one, moves to the path of the option it was resolved to, with the rest of its path unchanged, and no other location changes. The new path leads from the options message to the value that was set, also after the other options have been set.", "quantifier": "every file, list of uninterpreted options and list of source locations", "why_tests_cant": "all nestings of messages, enums, services and their members, each with any number of options and locations", "anchors": ["prost-reflect/src/descriptor/build/options.rs: set_option, resolve_options, OptionsVisitor", "prost-reflect/src/descriptor/tag.rs"]}
{"id": "C81", "title": "The JSON of a message follows the serialize options", "statement": "The JSON of a message is an object with one entry for each field that is present, in the order of the field numbers, followed by the extensions that are present. Without skip_default_fields, fields without presence are listed too. Keys are JSON names, or declared names with use_proto_field_name. 64-bit integers are strings exactly with stringify_64_bit_integers. Enum values are names if they have one, unless use_enum_numbers is set. Floats, strings, bytes, lists, maps and nested messages have the form the protobuf JSON mapping gives them. Nothing else is written.", "quantifier": "every schema, message, nesting and combination of options", "why_tests_cant": "all combinations of options, field kinds and nestings", "anchors": ["prost-reflect/src/dynamic/serde/ser/mod.rs: serialize_dynamic_message_fields, SerializeWrapper", "prost-reflect/src/dynamic/serde/mod.rs: SerializeOptions", "prost-reflect/src/dynamic/fields.rs: iter"]}
{"id": "C80", "title": "An old program keeps what a newer version put into a message", "statement": "A program built against an older version of a schema reads a message written with a newer version, which may have more fields, extensions and enum values and other names. It accepts the message. For every field it knows, at every level, it sees the presence and the value the sender set. When it writes the message again, the result has the same length, whatever the order in which its maps yield their entries, and a program with the newer version reads from it the message that was sent, with all fields the old program does not know.", "quantifier": "every pair of schema versions in which the fields of the old one keep number, type, cardinality, presence, packing, default and oneof company, every message of the newer one up to the nesting limit", "why_tests_cant": "all schemas, all splits of fields into known and unknown at all levels, lists, maps, groups and extensions", "anchors": ["prost-reflect/src/dynamic/message.rs: encode_raw, merge_field", "prost-reflect/src/dynamic/unknown.rs: UnknownFieldSet", "prost-reflect/src/dynamic/fields.rs: get_mut, add_unknown, iter"]}
{"id": "C82", "title": "A message that was read is written with the same bytes, up to the order of map entries", "statement": "A message is encoded and the bytes are decoded. Encoding the result gives as many bytes again, and these decode to a message with the content of the first one, whatever the order in which the maps of the decoded message yield their entries. If no map in the message has more than one entry, the bytes are the same ones.", "quantifier": "every schema, every message up to the nesting limit, every iteration order of every map at every level", "why_tests_cant": "hash maps iterate in an order that changes from run to run; all messages and all orders", "anchors": ["prost-reflect/src/dynamic/message.rs: encode_raw, merge_field", "prost-reflect/src/dynamic/fields.rs: iter", "prost-reflect/src/dynamic/mod.rs: Value::Map"]}
{"id": "C83", "title": "Equality of messages", "statement": "Two messages are equal under == exactly if they have the same type and the same fields stored with equal values, up to the order of map entries and the sign of zero; NaN equals nothing. The comparison is symmetric and transitive, and a message equals itself exactly when it holds no NaN. Messages that are equal have the same type, the same fields present with equal values, the same unknown fields and encodings of the same length, and decoding these encodings gives equal messages. A message equals what is decoded from its encoding, whatever the order of map entries.", "quantifier": "all messages, with all values, maps and nestings; for the round trip every schema and message up to the nesting limit", "why_tests_cant": "all pairs and triples of messages; the comparison of maps follows no order", "anchors": ["prost-reflect/src/dynamic/mod.rs: DynamicMessage (PartialEq), Value (PartialEq)", "prost-reflect/src/dynamic/fields.rs: DynamicMessageFieldSet, ValueOrUnknown (PartialEq)", "prost-reflect/src/dynamic/unknown.rs: UnknownFieldSet (PartialEq)"]}
{"id": "C84", "title": "The global pool under concurrent use", "statement": "Any number of threads may call DescriptorPool::global, add_global_file_descriptor_proto and decode_global_file_descriptor_set at the same time. Every call takes effect at one moment between call and return, and the answers are those of the same calls made one after the other on a pool that begins with the well-known types. Once a thread was told that its files were added, every copy asked for later by any thread has them; later copies extend earlier ones. Calls do not block each other for ever. A call panics only if an addition panicked; global() always returns.", "quantifier": "every number of threads, every program of calls, every interleaving of the steps of the calls, including the first one, which makes the pool", "why_tests_cant": "all schedules; the race for the initialisation happens once per process", "anchors": ["prost-reflect/src/descriptor/global.rs: instance, DescriptorPool::global, decode_global_file_descriptor_set, add_global_file_descriptor_proto", "prost-reflect/src/reflect/wkt.rs: make_wkt_descriptor_pool"]}
{"id": "C85", "title": "Equality of pools and descriptors", "statement": "DescriptorPool and every descriptor compare by identity. Two pool handles are equal exactly when both go back, by cloning, to the same pool and no files were added through either since. Equal descriptors show the same contents. Equality between two handles lasts as long as nothing is added through them, and handles that differ never become equal again. A clone equals its original. An addition of new files makes the handle differ from all others; an addition of files the pool knows already changes nothing. An addition that is refused leaves the pool as it was, so it still equals its clones.", "quantifier": "every history of making, cloning, dropping and extending pools, with steps of several handles interleaved", "why_tests_cant": "equality depends on the whole history of a pool and its clones, including refused additions", "anchors": ["prost-reflect/src/descriptor/api.rs: impl PartialEq for DescriptorPool, MessageDescriptor (derive PartialEq)", "prost-reflect/src/descriptor/build/mod.rs: build_files (Arc::make_mut)"]}
{"id": "C86", "title": "descriptor() of derived types that bring their own files", "statement": "A type with #[prost_reflect(file_descriptor_set_bytes = ..)] adds its files to the global pool when descriptor() is first called, in whatever thread. What descriptor() returns is the message of the name in the attribute, in a pool that has all files of the set. All calls for one type return the same index and the same message, whatever other types and threads add in between. The files are handed over at most once. Calls do not block each other for ever. If the set is accepted by the pool and declares the message, descriptor() returns it and does not panic.", "quantifier": "every number of derived types and threads, every interleaving of their steps with each other and with direct uses of the global pool", "why_tests_cant": "all schedules; the first call happens once per process and its outcome depends on what else the program has added", "anchors": ["prost-reflect-derive/src/lib.rs: reflect_message_impl, Args::descriptor_pool", "prost-reflect/src/descriptor/global.rs: DescriptorPool::global, decode_global_file_descriptor_set"]}
{"id": "C87", "title": "Deriving ReflectMessage for generated types", "statement": "The derive macro takes the last value given for each of its three arguments, prefers descriptor_pool to file_descriptor_set_bytes, and refuses structs that lack an argument or have an unknown one; enums are left alone. After Builder::configure, the type that prost generates for a message of the file set gets exactly one implementation of ReflectMessage, which looks where the builder was told and for the message's own full name, under which the pool has it. Types generated for enums and oneofs get none and compile.", "quantifier": "every list of attributes; every set of files a pool accepts, every message in it, every expression given to the builder", "why_tests_cant": "the attributes are matched by ends of names, so what one type gets depends on the names of all other messages", "anchors": ["prost-reflect-derive/src/lib.rs: reflect_message_impl, Args::parse, Args::descriptor_pool, Args::message_name", "prost-reflect-build/src/lib.rs: Builder::configure"]}
{"id": "C88", "title": "Which files a pool accepts", "statement": "After any history of additions, adding a batch succeeds if the new files keep the rules: known syntax; different file names and different full names, none of them the name of a package; imports that exist; field numbers, extension numbers and enum values that are valid, distinct and not reserved; type names that refer to visible types; default values that can be read; enums with a value, the first zero in proto3; and so on. An addition that succeeds keeps all of these rules; one that breaks any of them and returns reports an error.", "quantifier": "every history of additions, accepted or not, and every batch of files, of any size and nesting", "why_tests_cant": "the rules are checked in two passes over tables that the batch itself is filling; a test shows that one file is accepted, not that no valid file is refused", "anchors": ["prost-reflect/src/descriptor/build/mod.rs: build_files, build_files_deduped", "prost-reflect/src/descriptor/build/names.rs: NameVisitor", "prost-reflect/src/descriptor/build/resolve.rs: ResolveVisitor", "prost-reflect/src/descriptor/mod.rs: DescriptorPool::add_file_descriptor_protos"]}
{"id": "C89", "title": "The built-in types always have a descriptor", "statement": "The library's own descriptor files are accepted by its own builder, so the first use of the global pool gives a pool. From then on, whatever threads add to the global pool and however their calls interleave, asking one of the built-in types (the types of prost_types, and the Rust types that stand for the wrapper types) for its descriptor returns one and does not panic. The descriptor has the full name of the type, belongs to the message declared in the library's own files, and is the same each time.", "quantifier": "every schedule of every number of threads, every sequence of additions made to the global pool, accepted or not; each of the 58 built-in types", "why_tests_cant": "the descriptor is looked up by name in a pool that other code keeps changing; a test sees one pool and one order of events, and a single wrong name among the 58 makes only that type panic", "anchors": ["prost-reflect/src/reflect/wkt.rs: make_descriptor, make_wkt_descriptor_pool, impl_reflect_message", "prost-reflect/src/reflect/mod.rs: ReflectMessage::descriptor", "prost-reflect/src/descriptor/global.rs: DescriptorPool::global"]}
{"id": "C90", "title": "Well-known types of a pool are the built-in ones", "statement": "In every pool that has the library's own files, whatever else was added, a message type with the name of a well-known type is declared as the built-in type is: same numbers, kinds, cardinality, presence, packing and oneofs, down to the types inside. So well-known messages keep their content through their special JSON forms, and no text makes the text parser panic. The pool with the library's own files alone meets every condition that the JSON, text and binary guarantees ask of a pool.", "quantifier": "every pool reachable by additions that has these files, every message and every text", "why_tests_cant": "the special forms are written and read by converting to fixed Rust types through bytes; that this loses nothing depends on the declarations that any pool finds under these names", "anchors": ["prost-reflect/src/reflect/wkt.rs: make_descriptor", "prost-reflect/src/dynamic/serde/ser/wkt.rs: get_well_known_type_serializer", "prost-reflect/src/dynamic/serde/de/wkt.rs", "prost-reflect/src/dynamic/mod.rs: DynamicMessage::transcode_to, DynamicMessage::transcode_from"]}
{"id": "C91", "title": "Converting a built-in value to a dynamic message and back", "statement": "Converting a value of a built-in type to a dynamic message returns a message of the type's own descriptor that encodes to the same bytes, and converting that back to the built-in type gives a value with the same content. The conversion never panics.", "quantifier": "every value of every well-known type, every pool that has the library's own files", "why_tests_cant": "the conversion goes through bytes and unwraps the result, which the source says can only fail for a wrong descriptor; whether it can fail depends on every value, also on deeply nested ones", "anchors": ["prost-reflect/src/reflect/mod.rs: ReflectMessage::transcode_to_dynamic", "prost-reflect/src/dynamic/mod.rs: DynamicMessage::transcode_from, DynamicMessage::transcode_to"]}
{"id": "C92", "title": "A message after a failed merge", "statement": "After decoding into an existing message (merge), also when it fails, the message has the same type, every value in it fits its field and it can be encoded. On failure the complete fields before the failing one have been merged as if the input had ended there. Beyond that at most one field differs, the one being read: the other members of its oneof are gone and it holds its earlier value, with whole elements appended if it is a list, with a string emptied or otherwise replaced by text, or with a message changed in the same way inside; numbers, booleans, enum values, bytes and maps keep their value. Any number of further calls keeps this.", "quantifier": "every schema, every conforming message, every input, every sequence of calls", "why_tests_cant": "merge works in place on nested messages, lists and maps and can stop at any byte of any field at any depth; what is left must be described for all of them, and a caller that goes on using the message relies on it", "anchors": ["prost-reflect/src/dynamic/message.rs: DynamicMessage::merge_field, Value::merge_field", "prost-reflect/src/dynamic/fields.rs: DynamicMessageFieldSet::get_mut", "prost-reflect/src/dynamic/unknown.rs: UnknownField::decode_value"]}
{"id": "C93", "title": "A message after a failed merge of text", "statement": "After merging text into an existing message, also when it fails, the message has the same type and every value in it fits its field. On failure it is what the first tokens of the text alone give, which are accepted: a field is written whole or not at all, and a message in the text that is not complete leaves nothing. Singular fields that were set before the call, or read before the error, keep their value.", "quantifier": "every schema, every conforming message, every text", "why_tests_cant": "the parser writes to the caller's message as it goes and can stop at any token; which part of the text counts depends on where each value ends, at any nesting", "anchors": ["prost-reflect/src/dynamic/text_format/mod.rs: DynamicMessage::merge_text_format", "prost-reflect/src/dynamic/text_format/parse/mod.rs: Parser::parse_message, Parser::parse_field, Parser::parse_field_value"]}
{"id": "C94", "title": "Splitting files into additions does not show", "statement": "Two pools that accepted the same files in the same order have the same descriptors, whether the files came in one addition or in many, and whatever additions were refused in between: the same files with the same imports, messages, fields with their types, defaults, packing and presence, oneofs, enums, extensions and services, and every look-up by name or number leads to the same descriptor. Messages of the two pools are read, written and compared alike.", "quantifier": "every two histories of additions that accepted one list of files, whose declarations have names without dots", "why_tests_cant": "a relative type name is looked up among all names the pool knows at that moment, including those of files that come later in the same addition and are not imported; that the outcome is still the same needs an argument over all scopes and all histories", "anchors": ["prost-reflect/src/descriptor/api.rs: DescriptorPool::add_file_descriptor_protos, DescriptorPool::from_file_descriptor_set", "prost-reflect/src/descriptor/build/resolve.rs: ResolveVisitor", "prost-reflect/src/descriptor/build/mod.rs: resolve_name"]}
{"id": "C95", "title": "Descriptors handed out name types in full", "statement": "The declaration that a field, extension or method descriptor of a pool hands out is the one that was given, with every reference resolved: its type name, extended message, input and output are the full name of the type the descriptor itself points to, with a leading dot; the type is marked as message or enum (a group stays a group); the JSON name is always there and is the given one or the derived one; name, number, label, default, oneof and proto3_optional are as given. Packing agrees with the options handed out.", "quantifier": "every field, extension and method of a pool after any history of accepted and refused additions", "why_tests_cant": "the builder writes the resolved names into its copy of the files by numeric paths, one declaration at a time, while later declarations, later passes and later additions write to the same copies; that each write lands at its own declaration and is never overwritten must hold for all files and histories", "anchors": ["prost-reflect/src/descriptor/build/resolve.rs: set_type_name, ResolveVisitor::resolve_field_type, resolve_field_json_name, resolve_method", "prost-reflect/src/descriptor/api.rs: FieldDescriptor::field_descriptor_proto, ExtensionDescriptor::field_descriptor_proto, MethodDescriptor::method_descriptor_proto"]}
{"id": "C96", "title": "A pool can be rebuilt from its own descriptors", "statement": "The file descriptors that a pool hands out are accepted by a new, empty pool, and the pool built from them has the same descriptors as the first: the same files, messages with their fields and oneofs, enums, extensions, services and methods, at the same places, with the same types, numbers, names, JSON names, packing, presence and default values, and every look-up by name gives the same answer. This holds whether the descriptors are added at once or in several additions.", "quantifier": "every pool after any history of accepted and refused additions, whatever its files contain; every way of splitting the descriptors into additions that are accepted", "why_tests_cant": "the descriptors handed out are not the files that were given: names have been replaced by full names, types and JSON names filled in, and the pool may have been built from many additions with refused ones in between; that resolving the filled-in names leads to the same types, that no rule rejects a filled-in declaration and that derived values such as packing come out equal must hold for all files and histories", "anchors": ["prost-reflect/src/descriptor/api.rs: DescriptorPool::file_descriptor_protos, DescriptorPool::encode, DescriptorPool::decode, DescriptorPool::from_file_descriptor_set", "prost-reflect/src/descriptor/build/resolve.rs: ResolveVisitor, set_type_name", "prost-reflect/src/descriptor/build/mod.rs: DescriptorPool::build_files"]}
{"id": "C97", "title": "A descriptor depends on its file and imports only", "statement": "Whatever two pools otherwise contain and in whatever order their files were added, a message, enum, extension or service declared in a file that both have is found in both under the same name and is described alike: the same fields, in order, with the same names, numbers, JSON names, types (by full name), packing, presence and default values, the same oneofs, look-ups, enum values, methods with inputs and outputs, extended messages, parents, and whether it is a map entry. Files that are not imported, files that come earlier or later, and the split into additions make no difference.", "quantifier": "every two histories of additions whose files of equal name are equal; every declaration of a common file", "why_tests_cant": "relative names are searched among all names of the pool, also those of files that are not imported, and every type is stored as an index that depends on all files added before; that the answer never changes must hold for all sets and orders of files and all scopes", "anchors": ["prost-reflect/src/descriptor/build/mod.rs: resolve_name, DescriptorPool::build_files", "prost-reflect/src/descriptor/build/resolve.rs: ResolveVisitor", "prost-reflect/src/descriptor/api.rs: DescriptorPool::get_message_by_name, DescriptorPool::get_extension_by_name"]}
{"id": "C98", "title": "Pools with the same files read and write messages alike", "statement": "If two pools hold the same files, in whatever order and portions they were added, then for every message type the same bytes decode in both to messages with the same fields and values, or fail in both with the same error; merging bytes into a message does the same in both; a message and its counterpart in the other pool have the same encoding and the same encoded length; and two messages are equal in one pool exactly if their counterparts are in the other. The same holds if the second pool has further files, as long as these do not extend messages of the first. Counterparts are types of the same full name.", "quantifier": "every two histories of accepted additions such that the second has the files of the first; every message type, byte string and message of these types", "why_tests_cant": "types are stored as indices into vectors whose order depends on everything added before, in kinds, extension lists and oneofs; that no such index leaks into decoding, encoding or equality must hold for all sets and orders of files and for messages nested to any depth", "anchors": ["prost-reflect/src/descriptor/build/mod.rs: DescriptorPool::build_files", "prost-reflect/src/dynamic/message.rs: DynamicMessage::merge_field, Value::merge_field, Value::encode_field", "prost-reflect/src/descriptor/api.rs: MessageDescriptor::get_extension, MessageDescriptor::get_field", "prost-reflect/src/dynamic/mod.rs: DynamicMessage::decode, DynamicMessage::new"]}
{"id": "C99", "title": "Pools with the same files print and parse messages alike", "statement": "If two pools hold the same files, in whatever order and portions they were added, then a message and its counterpart in the other pool have the same JSON under all options and the same text format under all options, or fail in both with the same error; the same JSON document and the same text are read in both to the same message or fail in both with the same error, also when text is merged into a message that has fields already; a field given by its number is set or not, has the same value or default, is cleared and accepts a new value alike in both, and so is an extension; iteration yields the same fields, extensions and unknown fields in the same order. This includes Any messages, whose content is looked up in the pool by its full name, and extensions, which are looked up by name. Counterparts are types of the same full name.", "quantifier": "every two histories of accepted additions of the same files; every message type, message, options, JSON document and text", "why_tests_cant": "types are stored as indices that depend on everything added before, and extensions of a message are listed in the order of their addition; that neither shows in what is printed or read must hold for all sets and orders of files and all documents", "anchors": ["prost-reflect/src/dynamic/serde/ser/mod.rs: serialize_message", "prost-reflect/src/dynamic/serde/de/mod.rs: deserialize_message", "prost-reflect/src/dynamic/text_format/format.rs: Writer::fmt_message", "prost-reflect/src/dynamic/text_format/parse/mod.rs: Parser::parse_message", "prost-reflect/src/dynamic/fields.rs: DynamicMessageFieldSet::iter", "prost-reflect/src/descriptor/build/mod.rs: DescriptorPool::build_files"]}
{"id": "C100", "title": "Bounded buffers and streams of messages", "statement": "Encoding an accepted message into a buffer writes exactly its encoding when there is room, and otherwise fails without writing anything and reports the needed and the available size; it never writes past the end. Messages nested at most 99 levels that are written one after the other with encode_length_delimited are read back one after the other with merge_length_delimited, with equal content, and what follows is left in the buffer. Reading with a length in front reads what merge reads from that many bytes and takes exactly these; a message that is cut short anywhere is an error, never another message. The message itself counts as a level of nesting, so 100 levels, which decode accepts, are refused.", "quantifier": "every schema, accepted message and buffer size; every sequence of conforming messages and bytes after it; every byte string and cut point", "why_tests_cant": "sizes, contents, nesting and cut points are unbounded, and the claim that nothing is written past the end rests on encoded_len and encode_raw agreeing for every value", "anchors": ["prost-reflect/src/dynamic/message.rs: impl Message for DynamicMessage (encode_raw, encoded_len, merge_field)", "prost-reflect/src/dynamic/mod.rs: DynamicMessage::decode"]}
{"id": "C101", "title": "Reserved names and streaming flags are shown as declared, and reserved names are kept free", "statement": "For every message and enum of a pool, reserved_names lists exactly the names that its file reserves, in order; for every method, is_client_streaming and is_server_streaming tell whether its file sets the flag; none of these calls panics. No field of a message and no value of an enum has a name that the message or enum reserves.", "quantifier": "every history of accepted and refused additions; every message, enum and method of the resulting pool", "why_tests_cant": "the accessors find the declaration in a stored and partly rewritten copy of the file through a path recorded when it was added; that the path leads to the right declaration and that rewriting leaves these parts alone must hold for all nestings of declarations and all histories", "anchors": ["prost-reflect/src/descriptor/api.rs: MessageDescriptor::reserved_names, EnumDescriptor::reserved_names, MethodDescriptor::is_client_streaming, MethodDescriptor::is_server_streaming", "prost-reflect/src/descriptor/types.rs: DescriptorProto, EnumDescriptorProto, MethodDescriptorProto"]}
{"id": "C102", "title": "Unknown fields can be read and written by themselves", "statement": "UnknownField::encode followed by UnknownField::decode gives the same field back and leaves what follows in the buffer, encoded_len is the number of bytes written, fields written one after the other are read one after the other, and no encoding is the beginning of another. Whatever decode reads has a valid number and the number and wire type of the key in the buffer, depends on the bytes taken only, and can be written and read again, taking no more bytes than it was read from; a field that is cut short and groups nested deeper than the context allows are errors; no bytes make decode panic. decode_value after reading a key gives what decode gives.", "quantifier": "every unknown field with valid numbers, every byte string and what follows it, every cut point and recursion limit", "why_tests_cant": "contents, lengths and nesting of groups are unbounded, and unambiguity speaks of all pairs of fields", "anchors": ["prost-reflect/src/dynamic/unknown.rs: UnknownField::decode, UnknownField::decode_value, UnknownField::encode, UnknownField::encoded_len, UnknownField::number, UnknownField::wire_type"]}
{"id": "C103", "title": "Pretty printing changes the layout only", "statement": "With all other options equal, the pretty and the compact text of a message have the same names, numbers and quoted strings in the same order: the pretty text has a space after each colon, after each comma of a list and before each brace, the contents of non-empty braces on lines of their own indented by two spaces for each pair of braces around them, and line breaks instead of the commas between fields. Whatever strings, bytes and unknown fields a message holds, its compact text is one line of printable ASCII, so that it can go into a log, and no data of the message is read back as other fields.", "quantifier": "every schema, message and choice of options", "why_tests_cant": "messages nest without bound and strings hold any bytes, including those that have a meaning in the text format", "anchors": ["prost-reflect/src/dynamic/text_format/format.rs: Writer::fmt_message, fmt_value, fmt_unknown_field, fmt_delimited, fmt_list, fmt_newline, fmt_padding", "prost-reflect/src/dynamic/text_format/mod.rs: FormatOptions::pretty, DynamicMessage::to_text_format_with_options", "prost-reflect/src/dynamic/mod.rs: Display for DynamicMessage, Display for Value", "prost-reflect/src/dynamic/unknown.rs: Display for UnknownField"]}
{"id": "C104", "title": "Printing always ends with a text", "statement": "A message that conforms to its descriptor has a text: whatever fields, default values, unknown fields and Any messages it holds and whatever options are chosen, to_text_format and Display neither panic nor run forever. The same holds for the Display of a value of any shape whose messages conform. An unknown field has a text too, although bytes in it that can be read as fields are printed as fields, to any depth. The text does not depend on how deep a stack is at hand, as long as it is deep enough.", "quantifier": "every schema in which google.protobuf.Any, if there, is defined as usual, every conforming message, unknown field and choice of options", "why_tests_cant": "messages nest without bound, and bytes of unknown fields and of Any messages are decoded again while printing, so that ending is a property of all byte strings", "anchors": ["prost-reflect/src/dynamic/text_format/format.rs: Writer::fmt_message, fmt_value, fmt_unknown_field, as_any", "prost-reflect/src/dynamic/mod.rs: Display for DynamicMessage, Display for Value", "prost-reflect/src/dynamic/unknown.rs: Display for UnknownField"]}
{"id": "C105", "title": "Texts merged one after the other are one text", "statement": "If merge_text_format accepts a text and then a second one, it accepts the two texts joined by a line break and leaves the same message; likewise parse_text_format of the joined texts gives the message that parsing the first and merging the second gives, and the same holds for any number of texts. If the second text begins with a field name, joining also keeps its errors. Comments without a line break at the end, string literals, numbers and omitted separators at the seam do not change this.", "quantifier": "every schema, message, stack depth and list of texts that can be merged in turn", "why_tests_cant": "the seam can follow any token of any text, and the lexer and parser look ahead past it", "anchors": ["prost-reflect/src/dynamic/text_format/mod.rs: parse_text_format, merge_text_format", "prost-reflect/src/dynamic/text_format/parse/mod.rs: Parser", "prost-reflect/src/dynamic/text_format/parse/lex.rs: Token"]}
{"id": "C106", "title": "The order of the entries of a JSON object does not matter", "statement": "If the keys of a JSON object name different fields or extensions of a message, deserializing the object accepts it in any order of its entries or in none, and gives the same message in every order. This includes unknown keys, nulls and objects that name several members of one oneof. If two keys name the same field, the order can matter.", "quantifier": "every well-formed schema, message type that is not a well-known type, choice of options, stack depth and pair of orders of the entries", "why_tests_cant": "the entries of an object of n entries have n! orders, and each entry checks and changes the message that the entries before it left", "anchors": ["prost-reflect/src/dynamic/serde/de/kind.rs: MessageVisitor, MessageVisitorInner", "prost-reflect/src/dynamic/fields.rs: DynamicMessageFieldSet::set"]}
