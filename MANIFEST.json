{
 "claims": [
  {
   "property": "C01",
   "status": "proved",
   "theorems": [
    "Verif.Props.C01_roundtrip",
    "Verif.Props.C01_observable"
   ],
   "note": "For every message conforming to a well-formed schema and at most recursionLimit deep; the result is the canonical form (absent defaults dropped) and every observation agrees."
  },
  {
   "property": "C02",
   "status": "proved",
   "theorems": [
    "Verif.Props.C02_encoded_len"
   ],
   "note": "Every conforming message."
  },
  {
   "property": "C03",
   "status": "proved",
   "theorems": [
    "Verif.Props.C03_unknown_kept",
    "Verif.Props.C03_reencode"
   ],
   "note": "Unknown fields interleaved at will with known ones."
  },
  {
   "property": "C04",
   "status": "proved",
   "theorems": [
    "Verif.Props.C04_packed_mix"
   ],
   "note": "Any interleaving of packed and unpacked chunks."
  },
  {
   "property": "C05",
   "status": "proved",
   "theorems": [
    "Verif.Props.C05_merge_append",
    "Verif.Props.C05_decode_append"
   ],
   "note": "All byte strings."
  },
  {
   "property": "C06",
   "status": "proved",
   "theorems": [
    "Verif.Props.C06_decode_total",
    "Verif.Props.C06_decode"
   ],
   "note": "All byte strings, any conforming starting message."
  },
  {
   "property": "C07",
   "status": "proved",
   "theorems": [
    "Verif.Props.C07_encode_total"
   ],
   "note": "Every message the accessors accept."
  },
  {
   "property": "C08",
   "status": "proved",
   "theorems": [
    "Verif.Props.C08_limit",
    "Verif.Props.C08_bound",
    "Verif.Props.C08_extra_level"
   ],
   "note": "Depth limit both ways; the one extra level a map entry without value gives is shown exactly."
  },
  {
   "property": "C09",
   "status": "proved",
   "theorems": [
    "Verif.Props.C09_scalar_roundtrip",
    "Verif.Props.C09_short"
   ],
   "note": "All scalar kinds and all values."
  },
  {
   "property": "C10",
   "status": "proved",
   "theorems": [
    "Verif.Props.C10_scalar_last",
    "Verif.Props.C10_list_append",
    "Verif.Props.C10_message_list",
    "Verif.Props.C10_message_merge",
    "Verif.Props.C10_message_concat",
    "Verif.Props.C10_map_last"
   ],
   "note": "Per field shape, over all conforming messages and inputs."
  },
  {
   "property": "C11",
   "status": "proved",
   "theorems": [
    "Verif.Props.C11_accessors",
    "Verif.Props.C11_params"
   ],
   "note": "Every history of accessor calls, simulated by an abstract finite map with the same outputs."
  },
  {
   "property": "C12",
   "status": "proved",
   "theorems": [
    "Verif.Props.C12_oneof",
    "Verif.Props.C12_exclusive",
    "Verif.Props.C12_merge_is_history"
   ],
   "note": "Histories include failed decodes (any partial effect on the field being decoded), drains and in-place iteration."
  },
  {
   "property": "C13",
   "status": "proved",
   "theorems": [
    "Verif.Props.C13_try_set",
    "Verif.Props.C13_try_set_by"
   ],
   "note": "Acceptable values are characterised outright."
  },
  {
   "property": "C14",
   "status": "proved",
   "theorems": [
    "Verif.Props.C14_iteration",
    "Verif.Props.C14_classes"
   ],
   "note": "Every message reached by a history."
  },
  {
   "property": "C15",
   "status": "partial",
   "theorems": [
    "Verif.Props.C15_take_fields",
    "Verif.Props.C15_take_extensions",
    "Verif.Props.C15_take_unknown",
    "Verif.Props.C15_like_fresh",
    "Verif.Props.C15_equality_false"
   ],
   "note": "Everything except that a drained message equals a fresh one, which is false (C15_equality_false)."
  },
  {
   "property": "C16",
   "status": "proved",
   "theorems": [
    "Verif.Props.C16_default",
    "Verif.Props.C16_presence",
    "Verif.Props.C16_default_not_written"
   ],
   "note": "Every field of a well-formed schema."
  },
  {
   "property": "C17",
   "status": "proved",
   "theorems": [
    "Verif.Props.C17_map_key"
   ],
   "note": "All keys and values."
  },
  {
   "property": "C18",
   "status": "proved",
   "theorems": [
    "Verif.Props.C18_unique",
    "Verif.Props.C18_message",
    "Verif.Props.C18_enum",
    "Verif.Props.C18_service",
    "Verif.Props.C18_extension",
    "Verif.Props.C18_message_declared",
    "Verif.Props.C18_enum_declared",
    "Verif.Props.C18_service_declared",
    "Verif.Props.C18_extension_declared",
    "Verif.Props.C18_file",
    "Verif.Props.C18_leading_dot_false"
   ],
   "note": "Every history of successful and failed additions. C18_leading_dot_false shows why names that start with a dot are excluded: such declarations are accepted but cannot be looked up."
  },
  {
   "property": "C19",
   "status": "partial",
   "theorems": [
    "Verif.Props.C19_partial",
    "Verif.Props.C19_extensions_partial",
    "Verif.Props.C19_without_extensions_partial",
    "Verif.Props.C19_false_dangling",
    "Verif.Props.C19_false_alias",
    "Verif.Props.C19_false_forgotten"
   ],
   "note": "False for the extensions of a message (three witnesses): the roll-back filters extension indices by the number of messages. Everything else is proved unchanged, the extension lists are characterised exactly, and full equality is proved when the batch declares no extension."
  },
  {
   "property": "C20",
   "status": "proved",
   "theorems": [
    "Verif.Props.C20_extends"
   ],
   "note": "Every history, every accepted batch; messages gain exactly the new extensions that extend them."
  },
  {
   "property": "C21",
   "status": "proved",
   "theorems": [
    "Verif.Props.C21_known_files_ignored",
    "Verif.Props.C21_noop",
    "Verif.Props.C21_again",
    "Verif.Props.C21_twice_in_batch"
   ],
   "note": "Every pool and batch."
  },
  {
   "property": "C22",
   "status": "proved",
   "theorems": [
    "Verif.Props.C22_accepted",
    "Verif.Props.C22_resolve",
    "Verif.Props.C22_independent"
   ],
   "note": "Every reference of every accepted file: scoping stated declaratively (Refers), unique, and independent of the order of declarations."
  },
  {
   "property": "C23",
   "status": "partial",
   "theorems": [
    "Verif.Props.C23_fields",
    "Verif.Props.C23_extensions",
    "Verif.Props.C23_methods",
    "Verif.Props.C23_exact_partial",
    "Verif.Props.C23_false"
   ],
   "note": "Soundness proved: whatever a reference resolves to is visible. Completeness is false (C23_false: public imports of public imports may be missed); the set of files that count as visible is characterised exactly in C23_exact_partial."
  },
  {
   "property": "C24",
   "status": "partial",
   "theorems": [
    "Verif.Props.C24_returns_partial",
    "Verif.Props.C24_syntax_false",
    "Verif.Props.C24_cycle_false",
    "Verif.Props.C24_octal_false",
    "Verif.Props.C24_rollback_false"
   ],
   "note": "False in four ways, each with a witness: an unknown syntax panics on every pool, a public import cycle overflows the stack, an octal escape above 377 in a bytes default overflows, and after a failed addition with a package beginning with a dot a later addition can panic. C24_returns_partial: after every history, every batch without these four features (and without non-ASCII bytes defaults) returns, whatever else the descriptors contain."
  },
  {
   "property": "C25",
   "status": "partial",
   "theorems": [
    "Verif.Props.C25_fields_partial",
    "Verif.Props.C25_extensions",
    "Verif.Props.C25_false"
   ],
   "note": "Everything for every declared message, except that a regular field which carries an extendee is accepted inside an extension range (C25_false); for extensions the range clause needs the extendee to be given."
  },
  {
   "property": "C26",
   "status": "proved",
   "theorems": [
    "Verif.Props.C26_enum",
    "Verif.Props.C26_first"
   ],
   "note": "Every enum of every pool reachable by a history, given what the standard library documents about binary search."
  },
  {
   "property": "C27",
   "status": "proved",
   "theorems": [
    "Verif.Props.C27_lookups",
    "Verif.Props.C27_declared"
   ],
   "note": "Every message of every pool reachable by a history."
  },
  {
   "property": "C28",
   "status": "proved",
   "theorems": [
    "Verif.Props.C28_safe",
    "Verif.Props.C28_isolated",
    "Verif.Props.C28_own",
    "Verif.Props.C28_clone",
    "Verif.Props.C28_freed",
    "Verif.Props.C28_add",
    "Verif.Props.C28_add_runs"
   ],
   "note": "Arc and the borrow rules are modelled: a store of counted cells, handles, and additions split into steps that interleave with other handles."
  },
  {
   "property": "C29",
   "status": "partial",
   "theorems": [
    "Verif.Props.C29_bytes_partial",
    "Verif.Props.C29_exact_partial",
    "Verif.Props.C29_again",
    "Verif.Props.C29_exact_false",
    "Verif.Props.C29_keeps_partial",
    "Verif.Props.C29_total",
    "Verif.Props.C29_one",
    "Verif.Props.C29_list",
    "Verif.Props.C29_duplicate",
    "Verif.Props.C29_signed",
    "Verif.Props.C29_unsigned",
    "Verif.Props.C29_value",
    "Verif.Props.C29_element",
    "Verif.Props.C29_entry",
    "Verif.Props.C29_plain",
    "Verif.Props.C29_settled_partial",
    "Verif.Props.C29_stack",
    "Verif.Props.C29_resolved_partial",
    "Verif.Props.C29_resolve_total",
    "Verif.Props.C29_order_false",
    "Verif.Props.C29_oneof_false",
    "Verif.Props.C29_map_false",
    "Verif.Props.C29_store_false"
   ],
   "note": "Proved: options kept as bytes read back with the recognised fields split off and every other field kept, byte for byte when keys are encoded minimally; resolving uninterpreted options touches only the named fields and a singular option set twice is an error; a singular option or an element takes exactly the value its text stands for in the type of the field (C29_value, C29_element), and a map option exactly the entry written (C29_entry); without uninterpreted options only undecodable bytes fail (C29_plain), and resolved options stay as they are when resolved again, if they are nested no deeper than the decoder allows (C29_settled_partial). The negations give the failures: non-minimal keys are rewritten, options resolved from text are re-encoded in another order, a second member of a oneof silently replaces the first, map entries are replaced, and storing panics when the descriptor.proto supplied differs from the built-in one. Locations in error messages are not modelled."
  },
  {
   "property": "C30",
   "status": "partial",
   "theorems": [
    "Verif.Props.C30_fields_partial",
    "Verif.Props.C30_extensions_partial",
    "Verif.Props.C30_false"
   ],
   "note": "False for proto3 fields with an options message that does not mention packed (C30_false); the equivalence is proved in all other cases."
  },
  {
   "property": "C31",
   "status": "partial",
   "theorems": [
    "Verif.Props.C31_partial",
    "Verif.Props.C31_false"
   ],
   "note": "False: map entries are not validated (C31_false). Proved: the accessors work if fields 1 and 2 are declared."
  },
  {
   "property": "C32",
   "status": "partial",
   "theorems": [
    "Verif.Props.C32_lookup_partial",
    "Verif.Props.C32_false"
   ],
   "note": "False: duplicate extension numbers are accepted (C32_false). Proved: get_extension is sound and complete in histories without failed additions."
  },
  {
   "property": "C33",
   "status": "proved",
   "theorems": [
    "Verif.Props.C33_escape_roundtrip",
    "Verif.Props.C33_printable",
    "Verif.Props.C33_bytes_field",
    "Verif.Props.C33_string_field"
   ],
   "note": "Lexing the printed form of any bytes, followed by any text, gives one string token with these bytes and continues right after it; the printed form is printable ASCII; through the API a bytes or string field given a printed literal is set to it."
  },
  {
   "property": "C34",
   "status": "partial",
   "theorems": [
    "Verif.Props.C34_roundtrip_partial",
    "Verif.Props.C34_any_partial",
    "Verif.Props.C34_alike_reads",
    "Verif.Props.C34_alike_scalar",
    "Verif.Props.C34_any_false",
    "Verif.Props.C34_unknown_false",
    "Verif.Props.C34_group_false",
    "Verif.Props.C34_float_false"
   ],
   "note": "All conforming messages, all option combinations with unknown fields skipped, to any depth, with Any expanded or not (C34_any_partial: up to the encoding of the message in it); names as protoc has them and Rust's float printing assumed. False for an expanded Any whose type URL is not two dotted names with one slash between, for groups not named after their message, for printed unknown fields, and for the f32 7.038531e-26 (two roundings)."
  },
  {
   "property": "C35",
   "status": "partial",
   "theorems": [
    "Verif.Props.C35_inverts",
    "Verif.Props.C35_exact",
    "Verif.Props.C35_no_panic_partial",
    "Verif.Props.C35_false_octal",
    "Verif.Props.C35_false_slice",
    "Verif.Props.C35_false_plus"
   ],
   "note": "Inverse of the escaping and the accepted grammar proved; three malformed inputs are mishandled (witnesses); no panic proved for ASCII strings without octal escapes above 377."
  },
  {
   "property": "C36",
   "status": "partial",
   "theorems": [
    "Verif.Props.C36_int32",
    "Verif.Props.C36_int64",
    "Verif.Props.C36_uint32_partial",
    "Verif.Props.C36_uint64_partial",
    "Verif.Props.C36_exact",
    "Verif.Props.C36_literals",
    "Verif.Props.C36_false"
   ],
   "note": "For every integer kind and every literal (decimal, octal, hexadecimal, with or without a minus sign) the field is set to the mathematical value exactly when it is representable and rejected otherwise. False for one literal: -0 (in any radix) is rejected for unsigned fields although its value is 0 (C36_false)."
  },
  {
   "property": "C37",
   "status": "partial",
   "theorems": [
    "Verif.Props.C37_once_partial",
    "Verif.Props.C37_nested_partial",
    "Verif.Props.C37_kept_partial",
    "Verif.Props.C37_rejected_partial",
    "Verif.Props.C37_false",
    "Verif.Props.C37_false_any"
   ],
   "note": "Proved for fields with presence and oneofs, at top level and nested; false for fields without presence after a default value (C37_false) and for expanded Any (C37_false_any)."
  },
  {
   "property": "C38",
   "status": "partial",
   "theorems": [
    "Verif.Props.C38_written",
    "Verif.Props.C38_survives",
    "Verif.Props.C38_roundtrip_partial",
    "Verif.Props.C38_read_survives",
    "Verif.Props.C38_reverse",
    "Verif.Props.C38_false"
   ],
   "note": "C38_written says exactly which masks are written, C38_survives exactly which of those are read back; the property as stated fails for dangling underscores, empty paths and commas (C38_false)."
  },
  {
   "property": "C39",
   "status": "proved",
   "theorems": [
    "Verif.Props.C39_iff",
    "Verif.Props.C39_read",
    "Verif.Props.C39_value"
   ],
   "note": "C39_iff: for all byte strings. C39_read, C39_value: through reading JSON into a Timestamp; the time parser of prost_types is a parameter."
  },
  {
   "property": "C40",
   "status": "partial",
   "theorems": [
    "Verif.Props.C40_duration",
    "Verif.Props.C40_timestamp_partial",
    "Verif.Props.C40_nanos_false",
    "Verif.Props.C40_read",
    "Verif.Props.C40_value",
    "Verif.Props.C40_write_timestamp_partial",
    "Verif.Props.C40_write_duration"
   ],
   "note": "C40_read, C40_value, C40_write_*: through the JSON API, with the parsers and printers of prost_types as parameters. The checks are characterised exactly; the nanoseconds of timestamps are not checked, nor the signs of durations (C40_nanos_false)."
  },
  {
   "property": "C41",
   "status": "partial",
   "theorems": [
    "Verif.Props.C41_int32",
    "Verif.Props.C41_int64_partial",
    "Verif.Props.C41_uint32_partial",
    "Verif.Props.C41_uint64_partial",
    "Verif.Props.C41_minus",
    "Verif.Props.C41_int64_false",
    "Verif.Props.C41_uint64_false",
    "Verif.Props.C41_minus_zero_false"
   ],
   "note": "Exact for 32-bit signed fields. For 64-bit fields the doubles 2^63 and 2^64 saturate; for unsigned fields the string -0 is rejected."
  },
  {
   "property": "C42",
   "status": "proved",
   "theorems": [
    "Verif.Props.C42_accepts",
    "Verif.Props.C42_written",
    "Verif.Props.C42_roundtrip",
    "Verif.Props.C42_variants"
   ],
   "note": "The base64 crate is modelled; see DESIGN.md."
  },
  {
   "property": "C43",
   "status": "partial",
   "theorems": [
    "Verif.Props.C43_roundtrip_partial",
    "Verif.Props.C43_wkt_partial",
    "Verif.Props.C43_any_partial",
    "Verif.Props.C43_any_bytes",
    "Verif.Props.C43_float_max_false",
    "Verif.Props.C43_float_false",
    "Verif.Props.C43_wrapper_false",
    "Verif.Props.C43_wrapper_list_false",
    "Verif.Props.C43_null_false",
    "Verif.Props.C43_value_false",
    "Verif.Props.C43_names_false"
   ],
   "note": "C43_roundtrip_partial: messages without well-known types are written and read back. C43_wkt_partial: with well-known types other than Any inside, and C43_any_partial: with Any too, whose type URL is kept and whose bytes become the encoding of a message alike to the one they held (C43_any_bytes), whatever is written reads back, for normalized times, finite float wrappers, field mask paths that survive and Values with a kind; the negations give the cases where the property fails. Floats f32::MAX, 7.038531e-26 and their negatives are excluded. Declared names may be written if none is the JSON name of another field (C43_names_false)."
  },
  {
   "property": "C44",
   "status": "proved",
   "theorems": [
    "Verif.Props.C44_name",
    "Verif.Props.C44_rejected"
   ],
   "note": "For all strings."
  },
  {
   "property": "C45",
   "status": "proved",
   "theorems": [
    "Verif.Props.C45_words",
    "Verif.Props.C45_every_name",
    "Verif.Props.C45_clean",
    "Verif.Props.C45_fields",
    "Verif.Props.C45_extensions"
   ],
   "note": "All names, and all fields of pools."
  },
  {
   "property": "C46",
   "status": "partial",
   "theorems": [
    "Verif.Props.C46_type_checked_partial",
    "Verif.Props.C46_false",
    "Verif.Props.C46_bare_element"
   ],
   "note": "False: message values of another type and bare elements of repeated fields are accepted; the part that holds is proved."
  },
  {
   "property": "C47",
   "status": "proved",
   "theorems": [
    "Verif.Props.C47_message",
    "Verif.Props.C47_field",
    "Verif.Props.C47_oneof",
    "Verif.Props.C47_enum",
    "Verif.Props.C47_value",
    "Verif.Props.C47_service",
    "Verif.Props.C47_method",
    "Verif.Props.C47_extension",
    "Verif.Props.C47_message_unique"
   ],
   "note": "Every descriptor of every pool reachable by a history; also that the *_proto accessors return the declaration."
  },
  {
   "property": "C48",
   "status": "partial",
   "theorems": [
    "Verif.Props.C48_fields_partial",
    "Verif.Props.C48_extensions_partial",
    "Verif.Props.C48_valid"
   ],
   "note": "All kinds; for bytes defaults in builds with overflow checks (without them an octal escape above 377 wraps, C35_false_octal). Floating point syntax is the standard library's."
  },
  {
   "property": "C49",
   "status": "partial",
   "theorems": [
    "Verif.Props.C49_wire_type_partial",
    "Verif.Props.C49_false"
   ],
   "note": "False for map fields, whose wire type is never checked (witness C49_false); proved for all other fields."
  },
  {
   "property": "C50",
   "status": "partial",
   "theorems": [
    "Verif.Props.C50_redecode_partial",
    "Verif.Props.C50_false"
   ],
   "note": "False at nesting depth 101 (witness C50_false); proved for results within the recursion limit."
  },
  {
   "property": "C51",
   "status": "partial",
   "theorems": [
    "Verif.Props.C51_false",
    "Verif.Props.C51_partial"
   ],
   "note": "False for dotted names (C51_false); proved for fully qualified and for simple names."
  },
  {
   "property": "C52",
   "status": "partial",
   "theorems": [
    "Verif.Props.C52_total",
    "Verif.Props.C52_parse",
    "Verif.Props.C52_depth",
    "Verif.Props.C52_ends_partial",
    "Verif.Props.C52_one",
    "Verif.Props.C52_false",
    "Verif.Props.C52_apart_false"
   ],
   "note": "No panic, conforming result, depth bounded by the opening brackets, for schemas whose extensions have distinct numbers: otherwise parsing an Any can panic (C52_apart_false). There is no recursion limit, so the stack can overflow (C52_false); on every stack that is deep enough the result is the same (C52_ends_partial, C52_one)."
  },
  {
   "property": "C53",
   "status": "proved",
   "theorems": [
    "Verif.Props.C53_varint"
   ],
   "note": "All varint kinds, all varints of at most ten bytes below 2^64."
  },
  {
   "property": "C54",
   "status": "partial",
   "theorems": [
    "Verif.Props.C54_presence_partial",
    "Verif.Props.C54_false"
   ],
   "note": "False for a repeated field placed in a oneof, which is accepted (C54_false); proved otherwise."
  },
  {
   "property": "C55",
   "status": "proved",
   "theorems": [
    "Verif.Props.C55_plain",
    "Verif.Props.C55_escapes",
    "Verif.Props.C55_literal",
    "Verif.Props.C55_line",
    "Verif.Props.C55_adjacent"
   ],
   "note": "On the model of the logos lexer."
  },
  {
   "property": "C56",
   "status": "proved",
   "theorems": [
    "Verif.Props.C56_words",
    "Verif.Props.C56_ints"
   ],
   "note": "Words and integer literals, the only tokens parse_bool looks at."
  },
  {
   "property": "C57",
   "status": "proved",
   "theorems": [
    "Verif.Props.C57_names",
    "Verif.Props.C57_numbers"
   ],
   "note": "Enum value names are unique in every accepted pool (C18)."
  },
  {
   "property": "C58",
   "status": "partial",
   "theorems": [
    "Verif.Props.C58_safe_partial",
    "Verif.Props.C58_total_partial",
    "Verif.Props.C58_depth_partial",
    "Verif.Props.C58_ends_partial",
    "Verif.Props.C58_settles_partial",
    "Verif.Props.C58_one",
    "Verif.Props.C58_null_false",
    "Verif.Props.C58_ext_false",
    "Verif.Props.C58_dup_false"
   ],
   "note": "C58_safe_partial: never a panic, a message the setters accept, for every schema whose extensions have distinct numbers; with two extensions of one number reading an Any can panic (C58_dup_false). C58_ends_partial and C58_one: the stack changes nothing once it is as deep as the JSON value. C58_total_partial: conforming, for schemas whose own messages have no repeated Value or NullValue, for which null stores a single value where a list is declared (C58_null_false, C58_ext_false). Reading JSON text is serde_json's part."
  },
  {
   "property": "C59",
   "status": "partial",
   "theorems": [
    "Verif.Props.C59_total",
    "Verif.Props.C59_ends",
    "Verif.Props.C59_one",
    "Verif.Props.C59_stack_false"
   ],
   "note": "No panic proved (C59_total). Nested Any overflow any given stack (C59_stack_false), but for every message some stack is deep enough and the result is the same on all that are (C59_ends, C59_one); C59_ends asks that google.protobuf.Any, if the schema has it, has the fields of any.proto (anysLike)."
  },
  {
   "property": "C60",
   "status": "proved",
   "theorems": [
    "Verif.Props.C60_ignored",
    "Verif.Props.C60_denied"
   ],
   "note": "Message types without a JSON form of their own."
  },
  {
   "property": "C61",
   "status": "proved",
   "theorems": [
    "Verif.Props.C61_null"
   ],
   "note": "Message types without a JSON form of their own. Names and JSON names are distinct, as a pool ensures (C68_names)."
  },
  {
   "property": "C62",
   "status": "partial",
   "theorems": [
    "Verif.Props.C62_names_partial",
    "Verif.Props.C62_false"
   ],
   "note": "Proved for a field whose name is not the JSON name of another field. The pool accepts such names, and then the entry sets the other field (C62_false)."
  },
  {
   "property": "C63",
   "status": "proved",
   "theorems": [
    "Verif.Props.C63_oneof"
   ],
   "note": "With deny_unknown_fields; without it a value of an enum member that is not known is dropped first. Names and JSON names are distinct, as a pool ensures (C68_names)."
  },
  {
   "property": "C64",
   "status": "proved",
   "theorems": [
    "Verif.Props.C64_entry",
    "Verif.Props.C64_only"
   ],
   "note": "A key names the field with that JSON name or, failing that, the field with that name; both are distinct, as a pool ensures (C68_names)."
  },
  {
   "property": "C65",
   "status": "partial",
   "theorems": [
    "Verif.Props.C65_read",
    "Verif.Props.C65_write_partial",
    "Verif.Props.C65_write_false"
   ],
   "note": "Reading is exact. Writing holds for finite numbers; an infinity or NaN in a DoubleValue or FloatValue is written as null (C65_write_false). A zero loses its sign, like any field without presence."
  },
  {
   "property": "C66",
   "status": "partial",
   "theorems": [
    "Verif.Props.C66_value",
    "Verif.Props.C66_struct",
    "Verif.Props.C66_list",
    "Verif.Props.C66_accepts",
    "Verif.Props.settles_unique",
    "Verif.Props.C66_deep_false",
    "Verif.Props.C66_write_false"
   ],
   "note": "Proved for JSON nested no deeper than 34 levels (50 for reading alone). Deeper nesting fails although JSON allows it, as the values are transcoded through the wire format with its limit of 100: C66_deep_false, C66_write_false."
  },
  {
   "property": "C67",
   "status": "partial",
   "theorems": [
    "Verif.Props.C67_tokens",
    "Verif.Props.C67_told",
    "Verif.Props.C67_number",
    "Verif.Props.C67_total",
    "Verif.Props.C67_message",
    "Verif.Props.C67_message_told",
    "Verif.Props.C67_message_total",
    "Verif.Props.C67_kind_false",
    "Verif.Props.C67_stack_false"
   ],
   "note": "Proved for single fields and for messages of types without fields; printing succeeds when the stack is as deep as the value has bytes. A group, a nested message and a string that reads as fields can have the same text (C67_kind_false, documented by the crate as inference), and values nested in strings overflow any stack (C67_stack_false)."
  },
  {
   "property": "C68",
   "status": "partial",
   "theorems": [
    "Verif.Props.C68_total",
    "Verif.Props.C68_message",
    "Verif.Props.C68_name",
    "Verif.Props.C68_enum",
    "Verif.Props.C68_wf",
    "Verif.Props.C68_names",
    "Verif.Props.C68_number",
    "Verif.Props.C68_text",
    "Verif.Props.C68_json",
    "Verif.Props.C68_cross",
    "Verif.Props.C68_default_json",
    "Verif.Props.C68_apart",
    "Verif.Props.C68_total_false",
    "Verif.Props.C68_wf_false"
   ],
   "note": "Proved for pools all of whose additions were accepted; after a failed addition an extension can dangle and reading the extensions of a message panics (C68_total_false). Well-formedness assumes declarations shaped as protoc gives them (Shaped), since the pool does not check that a map entry has a key and a value (C68_wf_false). What text and JSON rely on follows from names as protoc accepts them (Named, Keyed); that names, JSON names and enum value names are distinct follows from the additions alone (C68_names)."
  },
  {
   "property": "C69",
   "status": "partial",
   "theorems": [
    "Verif.Props.C69_bytes",
    "Verif.Props.C69_decode",
    "Verif.Props.C69_text",
    "Verif.Props.C69_json",
    "Verif.Props.C69_json_safe",
    "Verif.Props.C69_text_safe",
    "Verif.Props.C69_apart_false"
   ],
   "note": "Joins C68 with C01, C06, C34, C43, C52 and C58 and has their exceptions; declarations are shaped and named as protoc has them. Reading JSON and text assumes that extensions of a message have distinct numbers, which the pool does not check (C69_apart_false)."
  },
  {
   "property": "C70",
   "status": "partial",
   "theorems": [
    "Verif.Props.C70_file",
    "Verif.Props.C70_dependencies",
    "Verif.Props.C70_messages_partial",
    "Verif.Props.C70_enums_partial",
    "Verif.Props.C70_services_partial",
    "Verif.Props.C70_extensions_partial",
    "Verif.Props.C70_false"
   ],
   "note": "The listings hold when no declared full name in the list starts with a dot. Such names are accepted; then a listing shows another declaration or panics (C70_false)."
  },
  {
   "property": "C71",
   "status": "partial",
   "theorems": [
    "Verif.Props.C71_messages_partial",
    "Verif.Props.C71_enums_partial",
    "Verif.Props.C71_extensions_partial",
    "Verif.Props.C71_parent",
    "Verif.Props.C71_package"
   ],
   "note": "Like C70: the child listings assume that no full name starts with a dot."
  },
  {
   "property": "C72",
   "status": "proved",
   "theorems": [
    "Verif.Props.C72_fields",
    "Verif.Props.C72_synthetic"
   ],
   "note": "For every history, including failed additions."
  },
  {
   "property": "C73",
   "status": "partial",
   "theorems": [
    "Verif.Props.C73_message_partial",
    "Verif.Props.C73_enum",
    "Verif.Props.C73_false"
   ],
   "note": "For messages: when no end is negative. Negative ends are accepted and listed as large numbers (C73_false)."
  },
  {
   "property": "C74",
   "status": "partial",
   "theorems": [
    "Verif.Props.C74_full_name_partial",
    "Verif.Props.C74_json_name_partial"
   ],
   "note": "As long as no addition failed; after a failed one an extension can be forgotten or another one found (C19_false_forgotten, C19_false_alias)."
  },
  {
   "property": "C75",
   "status": "partial",
   "theorems": [
    "Verif.Props.C75_read_partial",
    "Verif.Props.C75_none",
    "Verif.Props.C75_later_partial",
    "Verif.Props.C75_false",
    "Verif.Props.C75_late_false"
   ],
   "note": "The resolved message must not be nested deeper than the decoder allows: an option name through more than a hundred messages is accepted and options() then panics (C75_false). Later additions must not extend the option type or a type inside it: otherwise options() can panic (C75_late_false)."
  },
  {
   "property": "C76",
   "status": "partial",
   "theorems": [
    "Verif.Props.C76_grow_partial",
    "Verif.Props.C76_all",
    "Verif.Props.C76_false"
   ],
   "note": "Proved for pools all of whose additions were accepted and declarations as protoc shapes them. When an added file extends the type, or a type inside it, bytes that decoded before may fail (C76_false)."
  },
  {
   "property": "C77",
   "status": "partial",
   "theorems": [
    "Verif.Props.C77_moves_partial",
    "Verif.Props.C77_points",
    "Verif.Props.C77_stays_partial",
    "Verif.Props.C77_oneof_false"
   ],
   "note": "What moves is proved for options resolved to paths that do not go through field 999 (the uninterpreted options themselves). That the path still leads to the value in the end leaves out oneof members, which a later option can clear (C77_oneof_false), and fields whose value counts as absent."
  },
  {
   "property": "C78",
   "status": "partial",
   "theorems": [
    "Verif.Props.C78_forward_partial",
    "Verif.Props.C78_roundtrip",
    "Verif.Props.C78_false",
    "Verif.Props.C78_map_false"
   ],
   "note": "For encoded messages without exception. For arbitrary bytes: when no two members of one oneof occur (the forwarding program sorts fields by number, so the other one wins, C78_false) and map entries are delimited (C78_map_false)."
  },
  {
   "property": "C79",
   "status": "partial",
   "theorems": [
    "Verif.Props.C79_order_partial",
    "Verif.Props.C79_false"
   ],
   "note": "Two members of one oneof must keep their order, as the last one wins (C79_false), and map entries must be delimited, as their wire type is not looked at (C49_false, C78_map_false)."
  },
  {
   "property": "C80",
   "status": "proved",
   "theorems": [
    "Verif.Props.C80_kept",
    "Verif.Props.C80_oneof_false"
   ],
   "note": "Evolves lists what has to stay: number, type, cardinality, presence, packing and default of the old fields, and which of them share a oneof (C80_oneof_false shows the latter is needed). JumbledS: the maps of the old program may yield their entries in any order, at every level."
  },
  {
   "property": "C81",
   "status": "proved",
   "theorems": [
    "Verif.Props.C81_form",
    "Verif.Props.C81_unique"
   ],
   "note": "Messages with a JSON form of their own (well-known types) are covered by C38-C40, C43, C65 and C66; here their JSON is left open, and the uniqueness half assumes that no message type is one of them."
  },
  {
   "property": "C82",
   "status": "proved",
   "theorems": [
    "Verif.Props.C82_any",
    "Verif.Props.C82_stable",
    "Verif.Props.C82_bytes_false"
   ],
   "note": "JumbledS ranges over all iteration orders. C82_bytes_false shows that with two entries in a map the bytes may indeed differ."
  },
  {
   "property": "C83",
   "status": "partial",
   "theorems": [
    "Verif.Props.C83_iff",
    "Verif.Props.C83_symm",
    "Verif.Props.C83_trans",
    "Verif.Props.C83_self",
    "Verif.Props.C83_content",
    "Verif.Props.C83_decode",
    "Verif.Props.C83_roundtrip_partial",
    "Verif.Props.C83_default_false",
    "Verif.Props.C83_zero_false"
   ],
   "note": "The round trip needs that every stored value counts as present, at every level, that nothing was taken out of the message and that there is no NaN: a field without presence set to its default makes the message differ from what is read back although all of its content is the same (C83_default_false). keyedSlots: the keys of every map are distinct, which HashMap sees to. C83_zero_false: equal messages may have different bytes."
  },
  {
   "property": "C84",
   "status": "partial",
   "theorems": [
    "Verif.Props.C84_linear",
    "Verif.Props.C84_visible",
    "Verif.Props.C84_grows",
    "Verif.Props.C84_poisoned",
    "Verif.Props.C84_panics",
    "Verif.Props.C84_ends",
    "Verif.Props.C84_false"
   ],
   "note": "Only the last clause fails: an addition that panics (C24_syntax_false and others) poisons the mutex, and from then on global() and every other call panic in every thread (C84_false, C84_poisoned). Mutex and OnceLock follow their documentation. What a thread does to the pool while it has the mutex is modelled as arbitrary intermediate states before the outcome."
  },
  {
   "property": "C85",
   "status": "partial",
   "theorems": [
    "Verif.Props.C85_iff",
    "Verif.Props.C85_shows",
    "Verif.Props.C85_lasts",
    "Verif.Props.C85_apart",
    "Verif.Props.C85_clone",
    "Verif.Props.C85_add",
    "Verif.Props.C85_known",
    "Verif.Props.C85_failed_false"
   ],
   "note": "Only the last clause fails: a refused addition leaves the contents as they were but not the identity, so the pool and everything taken from it afterwards differ from what was taken before (C85_failed_false). Messages compare their descriptors, so messages made before and after are never equal."
  },
  {
   "property": "C86",
   "status": "partial",
   "theorems": [
    "Verif.Props.C86_found",
    "Verif.Props.C86_same",
    "Verif.Props.C86_once",
    "Verif.Props.C86_ends",
    "Verif.Props.C86_panics_partial",
    "Verif.Props.C86_false"
   ],
   "note": "Only the last clause is partial: it needs that files of one name are one file in the whole program, otherwise the second type's files count as present although they are not and its descriptor() panics (C86_false). Once follows its documentation. Decoding the bytes to files is a parameter (World.fds)."
  },
  {
   "property": "C87",
   "status": "partial",
   "theorems": [
    "Verif.Props.C87_macro",
    "Verif.Props.C87_texts",
    "Verif.Props.C87_type_partial",
    "Verif.Props.C87_needed",
    "Verif.Props.C87_enum",
    "Verif.Props.C87_others",
    "Verif.Props.C87_escaped",
    "Verif.Props.C87_false",
    "Verif.Props.C87_quote_false"
   ],
   "note": "The one implementation needs that no other message's full name is an end of this one's, at a dot: packages v1 and api.v1 with a message M each give code that does not compile (C87_false; C87_needed shows the condition is exact), and that the expression has no quotation mark or backslash, which the builder does not escape (C87_quote_false). How prost_build matches paths and how Rust reads string literals follow their documentation."
  },
  {
   "property": "C88",
   "status": "partial",
   "theorems": [
    "Verif.Props.C88_accepted_partial",
    "Verif.Props.C88_only",
    "Verif.Props.C88_iff_partial",
    "Verif.Props.C88_rejected"
   ],
   "note": "Acceptance needs the conditions under which additions return (C24: no package with a leading dot, no cycle of public imports, room on the stack), options without errors, no empty full name, and validity for both readings of visibility (C23: the library follows public imports at least one step and at most all of them). C88_iff_partial: both directions where the readings agree."
  },
  {
   "property": "C89",
   "status": "partial",
   "theorems": [
    "Verif.Props.C89_made_partial",
    "Verif.Props.C89_builtin"
   ],
   "note": "C89_made_partial: the 12 files, transcribed from make_descriptor, pass every rule of the builder; it needs room for 12 calls on the stack and that resolving the options of these files reports no error (a parameter of the model; none of them has uninterpreted options). C89_builtin holds whatever the other threads do, unless the process ended or the mutex was poisoned, in which case global() does not return a pool (C84)."
  },
  {
   "property": "C90",
   "status": "partial",
   "theorems": [
    "Verif.Props.C90_like",
    "Verif.Props.C90_json_partial",
    "Verif.Props.C90_text_safe",
    "Verif.Props.C90_own"
   ],
   "note": "KeepsEntry: resolving the options of a message leaves map_entry as declared (option values are a parameter of the model). C90_json_partial: WktOk as for C43_wkt_partial, without Any. The other conditions on pools are those of C68 and C69; C90_own shows that the library's own files meet all of them."
  },
  {
   "property": "C91",
   "status": "partial",
   "theorems": [
    "Verif.Props.C91_roundtrip",
    "Verif.Props.C91_limit",
    "Verif.Props.C91_pool",
    "Verif.Props.C91_false"
   ],
   "note": "The last clause fails: a Value with 51 lists inside each other is encoded but nests deeper than the decoder allows, so transcode_to_dynamic panics although the descriptor is the right one (C91_false); C91_limit says exactly when. Sizes are below 2^64."
  },
  {
   "property": "C92",
   "status": "proved",
   "theorems": [
    "Verif.Props.C92_usable",
    "Verif.Props.C92_again",
    "Verif.Props.C92_success",
    "Verif.Props.C92_prefix",
    "Verif.Props.C92_field",
    "Verif.Props.C92_kept",
    "Verif.Props.C92_message",
    "Verif.Props.C92_group",
    "Verif.Props.C92_repeated",
    "Verif.Props.C92_atomic_false"
   ],
   "note": "What a failing string::merge of prost leaves in the string is a parameter (lost) of which only LostOk is asked: the string stays UTF-8 (prost clears it; prostLost_ok). C92_atomic_false shows that a failing merge is not undone: it may take away a member of a oneof."
  },
  {
   "property": "C93",
   "status": "partial",
   "theorems": [
    "Verif.Props.C93_usable",
    "Verif.Props.C93_success",
    "Verif.Props.C93_prefix",
    "Verif.Props.C93_read",
    "Verif.Props.C93_kept",
    "Verif.Props.C93_atomic_false",
    "Verif.Props.C93_any_false"
   ],
   "note": "C93_prefix, C93_read and C93_kept ask that field 2 of a message named google.protobuf.Any is bytes, as in any.proto (anysLike, derived in C90 for pools with the library's own files); without it the type URL is written although the call fails (C93_any_false). C93_read and C93_kept leave out merging into an Any itself, where an expanded value replaces an earlier one (C37_false_any). C93_atomic_false: a failing call is not undone."
  },
  {
   "property": "C94",
   "status": "partial",
   "theorems": [
    "Verif.Props.C94_same",
    "Verif.Props.C94_extensions",
    "Verif.Props.C94_view",
    "Verif.Props.C94_dots_false"
   ],
   "note": "WellNamed: names of declarations are not empty and have no dots, which no .proto file can break; with a dot in the name of a message the same files give a field another type (C94_dots_false). The lists of extensions of messages, and with them what messages see (C94_view), are compared for histories without refused additions, because a refused addition can leave a stale index there (C68_total_false). KeepsEntry as for C90."
  },
  {
   "property": "C95",
   "status": "partial",
   "theorems": [
    "Verif.Props.C95_field",
    "Verif.Props.C95_extension",
    "Verif.Props.C95_method",
    "Verif.Props.C95_packed_partial",
    "Verif.Props.C95_packed_false"
   ],
   "note": "Types, names, JSON names, extended messages, inputs and outputs are proved without further hypotheses. The last clause, packing, asks that no option of a field is uninterpreted (KeepsPacked): is_packed is settled before such options are read (C95_packed_false). Option values other than packed are not modelled here."
  },
  {
   "property": "C96",
   "status": "partial",
   "theorems": [
    "Verif.Props.C96_rebuild_partial",
    "Verif.Props.C96_same_partial"
   ],
   "note": "C96_rebuild_partial: the descriptors are accepted in one addition. WellNamed as for C94; no option is uninterpreted (KeepsPacked; without it packing can come out differently, C95_packed_false) and resolving options reports no error, no cycle of public imports and room on the stack, as for C88. C96_same_partial: however else the descriptors are added, if they are accepted the pool has the same descriptors. The lists of extensions of messages are not compared (see C94). Option values other than packed and map_entry, and the encoding of FileDescriptorProto by prost, are not modelled."
  },
  {
   "property": "C97",
   "status": "partial",
   "theorems": [
    "Verif.Props.C97_message",
    "Verif.Props.C97_enum",
    "Verif.Props.C97_extension",
    "Verif.Props.C97_service",
    "Verif.Props.C97_entry",
    "Verif.Props.C97_extends",
    "Verif.Props.C97_within",
    "Verif.Props.C97_order"
   ],
   "note": "WellNamed as for C94 (with dots in names the same file can mean something else, C94_dots_false); C97_enum does without. C97_entry asks KeepsEntry as for C90. Extensions listed at a message (C97_extends) are compared for a pool without refused additions, as in C94. Both pools accepted their files: that one accepts a file does not mean the other does, since a name of a file that is not imported can hide an imported one (C23_false)."
  },
  {
   "property": "C98",
   "status": "partial",
   "theorems": [
    "Verif.Props.C98_numbers",
    "Verif.Props.C98_within",
    "Verif.Props.C98_conforming",
    "Verif.Props.C98_order",
    "Verif.Props.C98_apart_false"
   ],
   "note": "C98_order: the same files in another order; C98_within: more files in the second pool. WellNamed and KeepsEntry as for C94 and C97, and no two extensions of one message have the same number (Apart): the pool accepts such extensions, and which of them is used then depends on the order of the files (C98_apart_false). The binary format and equality; for JSON and text see C99."
  },
  {
   "property": "C99",
   "status": "partial",
   "theorems": [
    "Verif.Props.C99_json",
    "Verif.Props.C99_text",
    "Verif.Props.C99_fromJson",
    "Verif.Props.C99_mergeText",
    "Verif.Props.C99_access",
    "Verif.Props.C99_extension",
    "Verif.Props.C99_iterate",
    "Verif.Props.C99_order"
   ],
   "note": "WellNamed, KeepsEntry and Apart as for C98, the last needed (C98_apart_false). JSON documents are values of the serde data model as elsewhere. The numbers of stack frames are the same on both sides."
  },
  {
   "property": "C100",
   "status": "proved",
   "theorems": [
    "Verif.Props.C100_room",
    "Verif.Props.C100_room_delimited",
    "Verif.Props.C100_stream",
    "Verif.Props.C100_limit",
    "Verif.Props.C100_payload",
    "Verif.Props.C100_frame",
    "Verif.Props.C100_cut",
    "Verif.Props.C100_hundred"
   ],
   "note": "Encodings shorter than 2^64 bytes. encode, encode_length_delimited and merge_length_delimited are provided by prost and modelled from its published behaviour."
  },
  {
   "property": "C101",
   "status": "partial",
   "theorems": [
    "Verif.Props.C101_message",
    "Verif.Props.C101_enum",
    "Verif.Props.C101_method",
    "Verif.Props.C101_unenforced"
   ],
   "note": "The first sentence is proved without further hypotheses. The last fails: reserved names are not checked when a file is added (C101_unenforced)."
  },
  {
   "property": "C102",
   "status": "proved",
   "theorems": [
    "Verif.Props.C102_roundtrip",
    "Verif.Props.C102_length",
    "Verif.Props.C102_several",
    "Verif.Props.C102_unambiguous",
    "Verif.Props.C102_limit",
    "Verif.Props.C102_read",
    "Verif.Props.C102_cut",
    "Verif.Props.C102_total",
    "Verif.Props.C102_shorter",
    "Verif.Props.C102_value",
    "Verif.Props.C102_number_false"
   ],
   "note": "Payloads shorter than 2^64 bytes. C102_number_false: decode_value does not check the number it is given, so the claims about encode ask for valid numbers."
  },
  {
   "property": "C103",
   "status": "partial",
   "theorems": [
    "Verif.Props.C103_layout",
    "Verif.Props.C103_display",
    "Verif.Props.C103_printable_partial",
    "Verif.Props.C103_unknown",
    "Verif.Props.C103_url_false"
   ],
   "note": "C103_layout and C103_display are proved for all messages, values, unknown fields and options. The second sentence fails for expanded Any messages, whose type URL is written without escapes (C103_url_false), and is proved for all others (C103_printable_partial, names and texts of floats being printable ASCII). That texts read back as the message printed is C34."
  },
  {
   "property": "C104",
   "status": "proved",
   "theorems": [
    "Verif.Props.C104_unknown",
    "Verif.Props.C104_message",
    "Verif.Props.C104_display",
    "Verif.Props.C104_value",
    "Verif.Props.C104_contents",
    "Verif.Props.C104_one"
   ],
   "note": "With expansion of Any messages, google.protobuf.Any has the fields of any.proto, if the schema has it (anysLike). The stack is taken to be as deep as needed; C104_unknown says how deep."
  },
  {
   "property": "C105",
   "status": "proved",
   "theorems": [
    "Verif.Props.C105_lines",
    "Verif.Props.C105_parse",
    "Verif.Props.C105_all",
    "Verif.Props.C105_exact",
    "Verif.Props.C105_exact_false",
    "Verif.Props.C105_converse_false",
    "Verif.Props.C105_break_needed"
   ],
   "note": "C105_exact: errors of the second text too, if it begins like a field; otherwise an error can go away (C105_exact_false). The converse does not hold (C105_converse_false), and something is needed between the texts (C105_break_needed)."
  },
  {
   "property": "C106",
   "status": "proved",
   "theorems": [
    "Verif.Props.C106_order",
    "Verif.Props.C106_errors",
    "Verif.Props.C106_false"
   ],
   "note": "For the entries of the object the message is read from; the well-known types have formats of their own. C106_errors: which error, on a stack that is deep enough, if no two extensions of a message share a number. C106_false: two keys for one field."
  }
 ]
}
