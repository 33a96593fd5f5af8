# Formal model of prost-reflect: design

Source modelled: `/repo/prost-reflect/src` (Rust). Everything below was written
from the text of the source; nothing was built or run.

## Layout

| directory | contents |
|---|---|
| `lean/Verif/Wire` | prost wire primitives (varint, key, little-endian, loops), unknown fields |
| `lean/Verif/Dyn` | schema view of descriptors, `Value`, `MapKey`, `DynamicMessage`, field set, encode, length, decode |
| `lean/Verif/Pool` | descriptor pool building: names, scopes, numbers, enums, roll-back, imports, clones |
| `lean/Verif/Opt` | option messages kept as bytes, resolution of uninterpreted options |
| `lean/Verif/Text` | lexer, text format printer and parser |
| `lean/Verif/Json` | JSON tree serializer and deserializer, well-known types, base64, field masks, times |
| `lean/Verif/Num.lean`, `Utf8.lean` | decimal numerals and UTF-8 as the standard library reads and writes them |
| `lean/Verif/Props` | the property theorems (one file per group) and their non-vacuity examples |

Helper lemmas live with the model; property theorems and the small
specifications they are stated with live in `Props`.

## Modelling conventions

* Bytes are `List UInt8`. `i32/u32/f32` are `BitVec 32`, `i64/u64/f64` are
  `BitVec 64` (floats as bit patterns; equality of floats is IEEE equality on
  patterns: NaN is unequal to itself, `+0 = -0`).
* A Rust panic is an explicit error value; theorems say when it is unreachable.
* `BTreeMap<u32, _>` is an association list sorted by key. `HashMap` is an
  association list with distinct keys in an arbitrary order (the order of the
  list is the iteration order of the map, so a theorem for all lists covers all
  iteration orders). A map that the model's decoder builds keeps the order of
  insertion; theorems that write a decoded message again quantify over all
  orders of its entries (`JumbledS`, C80 and C82).
* Loops over a buffer carry fuel (buffer length + 1); running out is an explicit
  error and is proved unreachable, so the fuel is not an assumption.
* The decoder's own recursion counter (100) is the structural recursion
  argument of the model, exactly as in the code.

## Plan per property

| id | model | proof |
|---|---|---|
| C01 | `Dyn` encode and decode, recursive messages, maps, groups, extensions, unknowns | mutual structural induction on the message; loop lemmas |
| C02 | `Dyn` encoded_len as separate traversal | mutual structural induction |
| C03 | `Wire` unknown fields | induction on nested unknown field sets |
| C04 | list branch of `Value::merge_field` | induction over a list of chunks |
| C05 | top-level merge loop | loop append lemma |
| C06 | decoder with explicit panic values | invariant by induction on recursion counter and loop fuel |
| C07 | `is_valid*` against encoder | mutual structural induction |
| C08 | recursion counter | induction on depth |
| C09 | scalar codecs | arithmetic on all bit vectors |
| C10 | `Value::merge_field` | equations over all states |
| C11 | field set | refinement to a function `Nat → Option Value` |
| C12 | field set + decoder | invariant over operation histories |
| C13 | `try_set_field` | decision logic |
| C14 | iterators of the field set | list reasoning, invariant |
| C15 | `take_*` | refinement; the equality part is refuted |
| C16 | defaults, presence | decision logic |
| C17 | `MapKey` conversions | case analysis |
| C18 | name table of the pool | invariant over additions |
| C19 | roll-back | refuted by a concrete witness, true part proved |
| C20 | pool building | prefix invariant |
| C21 | de-duplication | list induction |
| C22 | `resolve_name` | refinement to an independent scope specification |
| C23 | `resolve_public_dependencies` | refuted by witness; partial theorem |
| C24 | pool building with explicit panics | refuted by four witnesses; every batch without these features returns (`C24_returns_partial`) |
| C25 | `check_field_number` | decision logic, all ranges |
| C26 | sorted insert and binary search | induction |
| C27 | per-message indexes | invariant over fields |
| C28 | reference-counted heap | invariant over histories |
| C29 | `Options<T>`, every list of uninterpreted options | byte-level; written values against the types of fields (`Props/OptionValues`), entries of maps and options resolved twice (`Props/OptionEntries`); the stack changes nothing (`Props/OptionStack`) |
| C30 | `is_packed` | refuted by witness; partial theorem |
| C31 | map-entry accessors | refuted by witness |
| C32 | extension numbers | refuted by witness |
| C33 | `fmt_string` and lexer `string` | induction over bytes |
| C34 | printer and parser over tokens | mutual induction |
| C35 | `unescape_c_escape_string` | induction; panics refuted by witness |
| C36 | integer literal parsers | decision logic on Nat |
| C37 | `parse_field_value` | invariant |
| C38 | case conversion, field mask | refuted by witness; partial theorem with the exact condition |
| C39 | `validate_strict_rfc3339` | equivalence with a grammar |
| C40 | range checks | decision logic |
| C41 | JSON integer visitors | refuted at 2^63 / 2^64 by witness; partial theorem |
| C42 | base64 | induction over groups of three bytes |
| C43 | JSON tree | mutual induction |
| C44 | `rsplit_once` | induction |
| C45 | `to_json_name` | induction |
| C46 | `is_valid` | refuted by witness; shallow guarantee proved |
| C47 | paths | induction over nesting |
| C48 | default parsing | decision logic |
| C49 | wire type checks of `Value::merge_field` | refuted for maps by witness; all other shapes proved |
| C50 | decoder, then encoder, then decoder | C06 and C01 combined; refuted at depth 101 |
| C51 | `resolve_name` over two pools | refuted for dotted names; proved for the rest |
| C52 | text lexer and parser with explicit panics | invariant by induction on tokens; a deeper stack gives the same result, by induction on the stack |
| C53 | varint readers | arithmetic on all bit vectors |
| C54 | `supports_presence` | decision logic; refuted by witness |
| C55-C57 | literal parsers of the text format | equivalence with a grammar |
| C58 | JSON visitors with explicit panics | invariant by induction on the JSON tree; a deeper stack gives the same result, by induction on the stack |
| C59 | JSON serializer with explicit panics | induction on the message; that it ends, by the weight of the bytes in `Any`s (`Json/Ends`) |
| C60-C64 | the entry loop of `MessageVisitor` | induction over the entries of an object |
| C65 | wrapper types through transcoding | C01 on the standard descriptors, decision logic |
| C66 | `Value`, `Struct`, `ListValue` visitors and serializers | mutual induction on the JSON tree; refuted beyond the limits by witness |
| C67 | `fmt_unknown_field`, `fmt_unknown_field_set`, `Display for UnknownField` | induction on the nesting; the tokens determine what is told by mutual induction; overflow by a family of witnesses |
| C68 | `MessageDescriptor` accessors, `ResolveVisitor` | `Pool.view` turns a pool into the `Schema` that messages, JSON and text are modelled over; totality and agreement with the look-ups from the pool invariants; `Schema.wf` from the build passes plus the shape of protoc's output |
| C69 | the pool builder with the codecs | composition: what the codecs assume of a schema is derived from the pool's history and from `Shaped`, `Named`, `Keyed`, `Crossless`, `Apart` about the files |
| C70 | `Query` (listings of a file) | a listing looks declared names up; `listing` reduces it to C18 for each name, the converse to where the visitor met a declaration |
| C71 | `Listing` (child listings, parents) | as C70, below a message |
| C72 | `Listing` (`oneofFields`, `isSynthetic`) | invariant of the field tables (`MsgOk.oneofs`) and the declared index of each field |
| C73 | `Listing` (ranges) | the checks of C25 and C26 against the ranges as listed |
| C74 | `Query`, `Listing` (extension look-ups) | the extension lists of C32; full names are distinct (C18) |
| C76 | the pool builder with the wire codec | `ViewAgree`: encoder, length and decoder look only at the types inside a message (mutual induction, no assumption on the schema); two views of a growing pool agree by C20 |
| C78 | wire codec of two schemas | `encMsg_parsed`: what is written, as unknown fields (mutual induction); the forwarding program keeps them per number (C03); then C79 |
| C79 | wire decoder | `lockAt`: merging a field depends on its value only (induction on the recursion limit); `step_eq`: a field changes its own slot, as a function of that slot; steps with different numbers commute; per-number equality is generated by such swaps |
| C75 | `Opt/Read` (`decode_options`) | `store_enc`: storing what the encoder wrote keeps the bytes; then C29 and C01; C76 for later additions |
| C77 | `Opt/Locations` (paths of options, rewriting of locations) | the places of options messages in a file are distinct and no rule reaches into another place (`InFile.free`, `nodup_file`); induction on option names and lists |
| C81 | `Json/Ser` (options) | inductive relation `Shows` between values and JSON, without the model's functions; induction on the stack depth; `iter_shown` for what is listed |
| C80 | wire codec of two schemas | `heldSlots`: mutual induction over the message; what the old program does not know becomes unknown fields, and each written field is paired with one of the same length that merges alike in both schemas (`Twin`); then C79's step lemmas; for other orders of the old program's map entries, the reordered message is what it holds for a reordered original (`DownS.lift`, `DownS.unique`) |
| C82 | wire codec, order of `HashMap` entries | `Jumbled`: the same value up to the order of map entries at any level; lengths (`JumbledS.enc`), content (`JumbledS.sameMsg`) and the decoder's normal form (`JumbledS.lift`) respect it |
| C83 | `PartialEq` of messages | mutual induction over values; for maps: equal sizes and distinct keys make the lookup a bijection (`beqMap_back`, `beqMap_align`), so lengths and the decoder's normal form respect `==` |
| C84 | `OnceLock`, `Mutex` and threads taking small steps | `Sim`: invariant over all interleavings that carries the trace with the moments of effect marked; order, visibility and panics follow from the marked trace; `all_end` for progress |
| C85 | `Arc::ptr_eq` on the heap of C28; the history as a list of actions | `Born`: invariant that the cells of two handles agree exactly when the actions that made them do |
| C86 | `Once` per type and the steps of `descriptor()` on top of those of C84 | `Inv`: where a thread is and what the trace of the global pool says; the theorems of C84 applied to that trace; lifting of its progress |
| C87 | the macro on parsed attributes; the texts `configure` writes, matched and read back | arguments read so far by induction; matching as an end of a name at a dot; texts without quotation marks read back as they are |
| C88 | the whole builder against `Valid`, a list of rules over the files alone | both passes by induction with the position in the traversal: each callback finds what it looks for (`names_silent`, `ResolveFine`); conversely the tables of an accepted pool are read back |
| C89 | the 12 files of `make_descriptor` as data, the builder on them, the table of `impl_reflect_message`, the global pool with threads | the rules of C88 computed over the files with names as numbers (`checkB`, sound by `checkB_valid`), then C88 and C84 |
| C90 | the schema a pool shows against the table of built-in types | absolute type names resolve to the type of that name in every history (`full_named`); fields compared one by one; numbering of types built from names |
| C91 | `transcode_from`, `transcode_to` between the built-in types and a pool's | encoding commutes with renumbering types; C01, C08 |
| C92 | `Dyn/Left`: the decoder once more, returning the message instead of the result | inductive relations `Cut`, `Torn`, `TornVal` say what is left (exactly, but for a string); induction on the recursion limit and the loops |
| C93 | `Text/Left`: the outermost loop of the parser, returning the message | `Text/Cut`: every parser reads the same from a text that is cut off after what it consumed; then induction over the fields |
| C94 | the same as C18–C26, over two pools | `Pool/Twin`: the sets of visible files are the same by induction over the search, and a reference that is resolved among some files is resolved alike among fewer if the visible ones stay; `Pool/Twin2`: the tables, entry by entry |
| C95 | every field, extension and method of a pool after any history | `Pool/Stored`: what is at a path of a file, and that writing at one path leaves the others alone; `Pool/Stored2`: each callback of the second pass fills in its own declaration; `Pool/Stored3`: induction over the passes and the history (`Hist.stored`) |
| C96 | every pool after any history; the rebuilt pool | `Pool/Rebuild1`: the traversal of files that differ only in what the builder fills in; `Pool/Rebuild2`: each declaration handed out is the given one filled in (from C95); `Pool/Rebuild3`: the pool is what its own descriptors describe, and each filled-in name is found; `Pool/Rebuild4`: hence the descriptors are valid (as in C88) and accepted; equality as in C94 |
| C97 | every two histories whose files of equal name are equal | `Pool/Shared1`: a common file sees the same files in both pools, by induction over the search through public imports, so a name resolved in both refers to the same declaration, which lies in a common file; `Pool/Shared2`, `Shared3`: descriptors alike up to the numbering of types, by the traversal of the common file in both; `Props/PoolShared`: by name, and for files that are a part or a permutation of the other's |
| C98 | every two histories of accepted additions, the files of the first among those of the second; every byte string and message | `Dyn/Across`, `Across2`: a renumbering of types that respects fields and extensions commutes with equality, length, encoding and, loop by loop, with decoding, by mutual induction over values and induction over the recursion limit; `Props/PoolAcross`: by C97 the renumbering by full names is one. `C98_apart_false`: two files that give an extension of one message the same number are both accepted, and the order of the files decides which one bytes are read by |
| C99 | every two histories of accepted additions of the same files; every message, options, JSON document and text | `Dyn/Across3`, `Dyn/Across4`, `Json/Across`, `Json/Across2`, `Text/Across` to `Text/Across3`: the renumbering of C98 commutes with the printers and, function by function, with the parsers, given that names of messages and of extensions find the same (`AcrossNamed`); induction over the stack depth and over the loops; `Props/PoolPrints`: two pools with the same files give such a renumbering |
| C100 | every message and buffer size; every sequence of messages; every byte string and cut point | `Dyn/Stream`: prost's provided methods on top of the codec; room from C02; `encSlots_merge` at limit 99 for the round trip, induction over the messages; `Dyn/Limit`: a lower recursion limit gives the same result or the recursion error, function by function, which ties framed reading to `merge`; cuts from `Good` (a run depends on what it consumes only) |
| C101 | every history of additions and refusals; every message, enum and method | `Pool/Declared`: filling in names and options (`strip`) leaves reserved names and streaming flags alone; `C101_unenforced` is a concrete file |
| C102 | every unknown field, byte string, nesting depth and limit | `Wire/UnknownLemmas` (round trip, exact length, `Good`, no panic) put together for the public methods of `UnknownField`; the limit from `Dyn/Limit` |
| C103 | every schema, message and choice of options | a relation `Layout` between two texts over the words of a message, kept by every function of `Text/Format` (`Text/Layout`); the characters follow from the words |
| C104 | every schema, conforming message, unknown field and choice of options | fields read take no more bytes when written again (`Wire/Shorter`), which bounds the nesting of printed unknown fields; induction on the depth of the message (`Text/ShowTotal`); the message in an `Any` is shorter than the `Any`, as a decoded message holds no more bytes than were decoded (`Dyn/Heft`, `Text/ShowAny`); a deeper stack gives the same text (`Text/OneText`) |
| C105 | every schema, message and list of texts | a match of the lexer is the same with a line break and more text after it (`Text/LexGrow`); a parser reads the same when a field follows (`Text/Grow`), and has read no lexical error when it succeeds (`Text/Lines`); the rest is read as if alone (`Text/Seam`) |
| C106 | every schema, ordinary message type, stack depth and pair of orders | an entry sets one field or none, whatever the message (`Json/Shuffle`); two entries for different fields commute, as the second of two members of one oneof is refused; induction on the permutation |

## What is modelled

Every definition cites the lines it follows. Per source file:

| file in `prost-reflect/src` | model | left out |
|---|---|---|
| `dynamic/mod.rs` | `Dyn/Value`, `Dyn/Fields`, `Dyn/Api` | the `*_by_name` variants are the `*_by` functions after a look-up; `Reflect`/`transcode` are identity on content for the types used here |
| `dynamic/fields.rs` | `Dyn/Fields`, `Dyn/Iter`, `Dyn/Observe` | - |
| `dynamic/message.rs` | `Dyn/Codec`, `Dyn/Left` (the message after a failed `merge`), `Dyn/Stream` (`encode`, `encode_length_delimited` and `merge_length_delimited` on it) | - |
| `dynamic/unknown.rs` | `Wire/Unknown` | - |
| `descriptor/build/visit.rs`, `names.rs`, `resolve.rs`, `mod.rs` | `Pool/Visit`, `NamesPass`, `Scope`, `Default`, `Locate`, `Resolve`, `Build` | locations and texts inside errors |
| `descriptor/build/options.rs` | `Opt/Options` (one message), a parameter of `Pool/Build` (`Env.optErr`: which errors the pass reports), `Opt/Locations` (`source_code_info` rewriting: paths only) | spans and comments of locations (carried along unchanged) |
| `descriptor/types.rs` | `Pool/Proto` (what the passes read), `Opt/Options` (`Options<T>`) | the prost-derived encoders of the other protos |
| `descriptor/api.rs`, `mod.rs` | `Pool/Query`, `Pool/Listing`, `Pool/Declared`, `Pool/Inner`, `Pool/View` (a pool as the schema of `Dyn`, `Json` and `Text`), `Opt/Read` (`decode_options`) | `Debug` output, `source_code_info` accessors, raw proto accessors other than those C47 names |
| `descriptor/global.rs` | `Pool/Global` (threads, lock, poisoning), `Pool/Heap` (copies of the pool) | callbacks from a caller's `Buf`, calls made while already panicking |
| `descriptor/error.rs` | error constructors only | messages, `miette` |
| `dynamic/text_format/format.rs`, `mod.rs` | `Text/Format`, `Text/Display` (the `Display` implementations) | - |
| `dynamic/text_format/parse/lex.rs`, `mod.rs` | `Text/Lex`, `Text/Parse`, `Text/Left` (the caller's message after an error) | spans and error texts |
| `dynamic/serde/*` | `Json/*` | the serializer and deserializer of the user's format |
| `reflect/wkt.rs` | `Reflect/Files` (the descriptors), `Reflect/Types` (`make_wkt_descriptor_pool`, the built-in types) | options other than `map_entry` and `packed`, source info; file-level options |
| `reflect/mod.rs` | `Reflect/Types` (`descriptor`), `Json/Env` (`makeMsg` is `transcode_to_dynamic` without its `expect`) | `Box<M>`, which forwards |
| `prost-reflect-derive/src/lib.rs` | `Derive/Machine`: the `descriptor()` it generates for `file_descriptor_set_bytes`; `Derive/Macro`: its arguments | spans of errors |
| `prost-reflect-build/src/lib.rs` | `Derive/Config`: `configure` once the set is a pool | running `protoc`, files |

Simplifications shared by several modules:

* `Schema` (Dyn) is what a `MessageDescriptor` answers through `api.rs`:
  fields, kinds, cardinalities, oneofs, extensions. Theorems about messages assume
  `Schema.wf`, which lists what the pool builder guarantees (C25-C27, C32) or is
  documented to guarantee (C31); where the builder does not guarantee it, the
  finding is listed below. C68 proves it for the schema that a pool built from
  files of protoc's shape shows.
* The options pass returns the first error it meets; the code collects all of
  them and goes on with a partly changed message that is then discarded.
* Additions to a pool are one atomic step in `Pool/Build`; `Pool/Heap` splits them
  and lets other handles run in between.

## Assumptions that appear as hypotheses

They are stated in the theorems, are satisfied by concrete environments in the
examples, and stand for code that is not in `/repo`.

| hypothesis | stands for |
|---|---|
| `Schema.wf` | descriptors as a pool gives them out, as far as the builder checks them, plus map entries as `protoc` declares them (C31); derived in `C68_wf` |
| `confMsg S m` | every value in the message is of its field's type; C06, C52, C58 prove it for what is read, C13 and C46 say what the setters check |
| `ParsesFloats`, `FloatSpec` | Rust's `f64::from_str` accepts the numbers the lexer passes on; `Display` and `from_str` are inverse; the two `f32` that do not survive the way through a double are excluded (`textF32`) |
| `textSafe`, `textWf` | extension numbers are unique, `Any` has no repeated field 1 or 2; names are identifiers and unique, groups are named after their message |
| `extsApart`, `jsonSafe`, `OrderOk` | extension numbers are unique; no repeated field of type `Value`/`NullValue` outside the well-known types; a map is iterated in some order |
| `jsonWf`, `namesApart` | names can be told apart and no field is a `NullValue`; no field's name is the JSON name of another (only when declared names are written); derived in `C68_json`, `C68_cross` |
| `Shaped`, `Named`, `Keyed`, `Crossless`, `Apart` | what `protoc` checks in the files and the pool does not; satisfied by `showPool_ex` and by the library's own files (`C90_own`) |
| `JFloatSpec` | widening an `f32` (`f32Ok`) and narrowing it again is the identity; that the JSON text keeps doubles is the JSON library's affair (serde_json needs `float_roundtrip` for it) |
| `JTimeSpec` | `Display` and `FromStr` of `prost_types::Timestamp`/`Duration` are inverse on normalized values |
| `NamesEnums`, `JNamesEnums` | `EnumDescriptor::get_value` gives a declared value of the number (C26) |
| `StdLike` | the user's `google.protobuf.*` files declare the well-known types as `prost-types` does; derived in `C90_like` for pools with the library's own files |
| `WktOk` | well-known values in the message are ones their JSON form can express |
| `AnyOk` | as `WktOk`, down to the messages in `Any`s nested up to `n` levels; type URLs end in the full name without a leading dot |
| `PrintableNames` | names of fields, extensions, messages and enum values and the texts of floats are printable ASCII, as those of `.proto` files are |
| `TextAnyOk` | in `Any`s nested up to `n` levels: sizes and nesting within the decoder's limits, and type URLs of two dotted names with one slash between |
| `AnyBoth` | field 2 of a message called `google.protobuf.Any` is `bytes` (C93; follows from `anysLike`) |
| `LostOk lost` | what prost's `string::merge` leaves in a string when it fails is UTF-8 (C92); prost 0.14 clears the string (`prostLost_ok`) |
| `anysLike` | a message called `google.protobuf.Any` has exactly the two fields of `any.proto` |
| `Parsed k b x` | not an assumption on the environment: the bytes `b` hold the fields `x`, as the wire format's grammar has it |
| `OneMember`, `DelimitedAll` | no two members of one oneof among the fields; map fields come as delimited bytes (C79; without them: `C78_false`, `C78_map_false`) |
| `JumbledS m.fields gs` | `gs` are the fields of `m` with the entries of every map, at every level, in some order (C80, C82): what a rebuilt `HashMap` may yield |
| `keyedSlots fs` | the keys of every map in the fields are distinct (C83): what `HashMap` sees to; follows from conformance (`keyed_confSlots`) |
| `tidySlots S d fs`, `nanFreeSlots fs` | every stored value counts as present and nothing was taken, no NaN, at all levels (C83's round trip); `C83_default_false` and `C83_self` show why |
| `Evolves S0 S ρ` | the message types of an old and a new schema that correspond, what old fields keep (C80); `C80_oneof_false` shows why oneofs are part of it |
| `ViewAgree S S' R` | two schemas show the same for the types in `R`, which is closed under nesting; derived in C76 for a growing pool |
| `WellNamed acc` | names of declarations are not empty and have no dots (C94, C96, C97, C98, C99): what `protoc` sees to; `C94_dots_false` |
| `NoMoreExts p q`, `Apart q` | the second pool does not extend messages of the first beyond what the first does; no two extensions of a message have the same number (C98, C99). The first is derived when both hold the same files (`C98_order`); the second is checked by `protoc` within a set of files, and needed (`C98_apart_false`) |
| `KeepsPacked env` | no option of a field is uninterpreted, so the third pass leaves `packed` as declared (C95, packing only, and C96); `C95_packed_false` |
| `SearchOk` (Pool) | `slice::binary_search_by` as documented |
| `Pool.Env` | float parsing, overflow checks on or off, stack depth, what the options pass reports |

## Findings: where the code does not do what the property says

Each has a theorem with a concrete witness (kernel-evaluated); the `_partial`
theorems next to it state what does hold.

Pool building
* Roll-back after a failed addition filters `message.extensions` by the number of
  *messages* instead of extensions, so extensions may dangle, alias later ones or
  be forgotten: `C19_false_dangling`, `C19_false_alias`, `C19_false_forgotten`.
* Public imports are followed only one level in some orders:
  `C23_false`; a cycle of public imports overflows the stack: `C24_cycle_false`.
* A file whose syntax is neither proto2 nor proto3 (such as `editions`) panics:
  `C24_syntax_false`. On the global pool this poisons its mutex, so that `global()` panics in every
  thread from then on: `C84_false`, `C84_poisoned`.
* A refused addition of files leaves the contents of a pool but not its identity: pool and descriptors
  taken afterwards are not equal to those taken before, and neither are messages made with them:
  `C85_failed_false`. The same happens when another derived type adds its files to the global pool
  (`C85_add`).
* Two derived types whose file descriptor sets have different files of one name: the second one's
  `descriptor()` panics although its set is accepted, since files are told apart by name only:
  `C86_false`.
* Attributes for generated types are given by full name without a leading dot, which `prost_build` takes
  for every type whose name ends so: with packages `v1` and `api.v1` that both have a message `M` the
  generated code does not compile: `C87_false`, `C87_needed`. Expressions with a quotation mark are not
  escaped: `C87_quote_false`.
* `transcode_to_dynamic` panics for a `prost_types::Value` nested deeper than 100 messages, although the
  comment in reflect/mod.rs says that it can only fail for a wrong descriptor: `C91_false`, `C91_limit`.
* An octal escape above 377 in a bytes default overflows (panic with overflow
  checks, wraps without): `C24_octal_false`, `C35_false_octal`. Other malformed escapes:
  slicing inside a character panics (`C35_false_slice`), a sign is accepted as a digit
  (`C35_false_plus`).
* Roll-back keeps the package `""` that a rejected file of package `.x` introduced,
  attributed to a file that is gone; a later addition can then panic:
  `C24_rollback_false`.
* `[packed]` defaults to false for proto3 fields that have *any* options:
  `C30_false`. Given as an uninterpreted option it comes too late: `is_packed` stays false although the
  descriptor handed out says `packed = true`: `C95_packed_false`.
* Map entries are not validated: `C31_false`. Duplicate extension numbers are
  accepted: `C32_false`. A field that carries an `extendee` may lie in an extension
  range: `C25_false`. A repeated field may be a oneof member: `C54_false`.
* After a failed addition a message can hold the index of an extension that is not there, so
  listing its extensions panics: `C68_total_false` (the roll-back fault above). A message marked
  as a map entry is accepted without a key or a value: `C68_wf_false`.
* A name that begins with a dot is accepted and cannot be found: `C18_leading_dot_false`. Listing the
  messages of its file then shows another message in its place or panics: `C70_false`.
* Reserved and extension ranges with negative ends are accepted and checked as signed numbers but
  listed as unsigned: a field may lie in a listed reserved range, an extension in no listed range:
  `C73_false`.
* A dotted name is resolved through packages of files that are not imported:
  `C51_false`. So whether a file is accepted depends on what else is in the pool; if it is, what its names
  mean does not (`C94_same`), except that names of declarations are not checked for dots: with a message
  called `c.T` the same files, added at once or in two steps, give a field different types
  (`C94_dots_false`).
* Resolving uninterpreted options rewrites non-minimal keys, reorders fields,
  silently replaces oneof members and map entries, and panics if the user's
  `descriptor.proto` has other types than `prost-types`: `C29_*_false`.
* An option whose name goes through more than a hundred messages is accepted, and `options()` then
  panics: `C75_false`. So it does when a file added later extends the option type so that the stored
  bytes no longer decode: `C75_late_false`.
* The source location of an option that is a oneof member points nowhere after a later option has set
  another member: `C77_oneof_false`.

Messages
* Message values of another type and bare elements of repeated fields are
  accepted by the setters: `C46_false`, `C46_bare_element`.
* Two members of one oneof on the wire: the last wins, but unknown fields are written back by
  number, so a program that forwards them can change which one that is: `C78_false`, `C79_false`.
* An extension added to the pool later makes bytes fail that decoded before: `C76_false`.
* A drained message is not equal to a fresh one: `C15_equality_false`.
  Nor is one in which a field without presence was set to its default; such a message differs from
  what is decoded from its own encoding: `C83_default_false`. Equal messages may have different
  bytes (`0.0` and `-0.0`): `C83_zero_false`.
* A failing `merge` is not undone: it can take away the set member of a oneof and leave an empty message
  in its place: `C92_atomic_false`.
* The wire type of map fields is not checked: `C49_false`. A map entry
  without a value lets one more level decode than encode: `C08_extra_level`, `C50_false`.
* With a length in front, one level less is read than without: `C100_hundred`.

Text format
* Expanded `Any` prints its type URL raw and may repeat values: `C34_any_false`,
  `C37_false_any`. A type URL can so put line breaks into the text, and fields of the outer message:
  `C103_url_false`. Groups are printed by field name: `C34_group_false`. Printed unknown
  fields do not parse: `C34_unknown_false`.
* Doubles are used for `float`: 7.038531e-26 does not survive (double rounding):
  `C34_float_false`, `C43_float_false`.
* `-0` is rejected for unsigned fields: `C36_false`. A field without presence may be
  set twice when the first value is the default: `C37_false`.
* No recursion limit in the parser: `C52_false`.
* A failing `merge_text_format` is not undone: the fields before the error stay: `C93_atomic_false`. For a
  `google.protobuf.Any` without field 2, which a pool accepts, also half of the failing field: `C93_any_false`.

JSON
* `null` for a repeated `Value` or `NullValue` stores a single value in a list
  field: `C58_null_false`, `C58_ext_false`.
* A field may have the declared name of another field as its JSON name; then an entry
  with that key sets the first one, and a message written with
  `use_proto_field_name` reads back as a different one: `C62_false`, `C43_names_false`.
* With two extensions of the same number (accepted, `C32_false`), an object with the second one
  gives a message that panics when encoded, and inside an `Any` the reading itself panics; so does
  the text parser: `C58_dup_false`, `C69_apart_false`, `C52_apart_false`. Which of the two bytes are read
  by depends on the order in which their files were added: `C98_apart_false`.
* Float wrappers holding NaN or an infinity are written as `null`; a `Value` without a kind or with a
  non-finite number likewise: `C43_wrapper_false`, `C43_wrapper_list_false`, `C43_null_false`,
  `C43_value_false`, `C65_write_false`. `f32::MAX` is out of range when read back: `C43_float_max_false`.
* Doubles 2^63 and 2^64 saturate for 64-bit fields: `C41_int64_false`,
  `C41_uint64_false`; `"-0"` is rejected for unsigned fields: `C41_minus_zero_false`.
* Timestamp nanos and duration signs are unchecked: `C40_nanos_false`.
* `Value`, `Struct` and `ListValue` are transcoded through bytes: 51 arrays inside each other are
  rejected (`C66_deep_false`), 35 objects inside each other are read but cannot be written
  (`C66_write_false`).
* C67: printing an unknown length-delimited value tries to read it as fields and calls itself
  on the result, with a fresh recursion limit each time. About `4 k` bytes of values nested in each
  other, which decode as one string, overflow a stack of `k` calls (`C67_stack_false`). A group, a
  nested message and a string that reads as fields have the same text (`C67_kind_false`).
* Field masks with commas, empty paths or dangling underscores are changed:
  `C38_false`.
* Nested `Any` has no recursion limit when written: `C59_stack_false`.
* `UnknownField::decode_value` accepts the field number 0 and then writes bytes that no parser reads
  (with debug assertions, `encode` panics): `C102_number_false`.
* Reserved names are never checked: a message may have a field, and an enum a value, of a name that it
  reserves (`C101_unenforced`), whereas reserved numbers are refused (C73).

Read in the source but not turned into theorems: `Debug` of `EnumValueDescriptor` prints the number under the label `name`;
a failed addition of a package beginning with a dot leaves the empty name
behind; `set_extension` only `debug_assert`s that the extension belongs to the
message; options that come from the global pool's `descriptor.proto` are never
found as extensions (`InvalidOptionExtendee`).

## Trusted base

* The Lean 4.33.0 kernel, and the translation by hand from Rust to Lean
  definitions; every definition cites the lines it follows.
* prost is not in the sandbox. Its varint, key, `merge_loop`, `skip_field`,
  `message::merge`, `group::merge`, scalar codecs, recursion counter and the provided
  methods of `Message` are
  modelled from its published behaviour (prost 0.13/0.14). `prost_types::Any` and the
  other well-known Rust types are taken to decode like the dynamic decoder
  on `stdSchema`, except that their decoders count a map entry as a level of nesting.
* Rust's standard library: `BTreeMap`, `HashMap`, `Vec`, `String`, `char`,
  `str::parse` for integers (`Num`), UTF-8 validation (`Utf8`), `Arc` (`Pool/Heap`), `Mutex` and `OnceLock` (`Pool/Global`), `Once` (`Derive/Machine`), string literals (`Derive/Config`), sorting
  and binary search.
* `prost_build`: attributes go to the types whose fully-qualified name the path matches, as an end at a
  dot or, with a leading dot, as a beginning; in the order they were given.
* The `logos` lexer generator: longest match, ties by the priorities the derive
  computes. The `base64` crate 0.22 with the engine configuration of `de/kind.rs`
  (padding indifferent, trailing bits allowed as configured). `serde`'s buffering
  of `Content` values. `prost_types` `Display`/`FromStr` of times.
* Machine memory limits, `usize` overflow and stack size are not modelled, except
  where a theorem states a bound on the depth of recursion.

### Axioms

No axioms are declared. Output of `#print axioms` for the claimed theorems:

<!-- axioms -->
* `none`: C29_exact_false.
* `propext`: C102_number_false, C36_literals, C40_nanos_false, C41_int64_false, C41_uint64_false, C45_clean, C45_words, C55_line.
* `propext, Quot.sound`: C01_observable, C07_encode_total, C09_short, C11_params, C12_merge_is_history, C13_try_set, C13_try_set_by, C14_classes, C15_take_extensions, C15_take_unknown, C16_default, C16_presence, C17_map_key, C33_escape_roundtrip, C34_alike_reads, C34_alike_scalar, C35_inverts, C36_exact, C38_read_survives, C38_reverse, C38_roundtrip_partial, C38_survives, C39_iff, C41_minus, C44_name, C44_rejected, C45_every_name, C46_type_checked_partial, C51_partial, C55_plain, C67_total, C75_none, C83_trans, C85_shows, C92_group, C92_kept, C92_message, C92_repeated, C92_success, settles_unique.
* `propext, Classical.choice, Quot.sound`: all other claimed theorems (438).
<!-- /axioms -->
