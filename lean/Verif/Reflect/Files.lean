import Verif.Pool.Proto
/-!
The files of the well-known types: `make_descriptor` (prost-reflect/src/reflect/wkt.rs:20-5470), line by line.

As in `Pool/Proto`, options are reduced to those the builder reads.
-/
set_option autoImplicit false
namespace Verif.Reflect
open Verif.Dyn Verif.Pool

/-- `n!"abc"` is the list `['a', 'b', 'c']`. -/
macro:max "n!" s:str : term => do
  let cs := s.getString.toList.map fun c => Lean.Syntax.mkCharLit c
  `([$cs.toArray,*])

/-- `google/protobuf/any.proto` (reflect/wkt.rs:24-97) -/
def anyProto : FileP where
  name := n!"google/protobuf/any.proto"
  package := n!"google.protobuf"
  messages := [
    { name := n!"Any",
      fields := [
        { name := n!"type_url", number := 1, ty := .string, jsonName := some n!"typeUrl" },
        { name := n!"value", number := 2, ty := .bytes, jsonName := some n!"value" }] }]
  syn := some n!"proto3"

/-- `google/protobuf/source_context.proto` (reflect/wkt.rs:98-158) -/
def sourceContextProto : FileP where
  name := n!"google/protobuf/source_context.proto"
  package := n!"google.protobuf"
  messages := [
    { name := n!"SourceContext",
      fields := [
        { name := n!"file_name", number := 1, ty := .string, jsonName := some n!"fileName" }] }]
  syn := some n!"proto3"

/-- `google/protobuf/type.proto` (reflect/wkt.rs:159-781) -/
def typeProto : FileP where
  name := n!"google/protobuf/type.proto"
  package := n!"google.protobuf"
  deps := [n!"google/protobuf/any.proto", n!"google/protobuf/source_context.proto"]
  messages := [
    { name := n!"Type",
      fields := [
        { name := n!"name", number := 1, ty := .string, jsonName := some n!"name" },
        { name := n!"fields", number := 2, label := .repeated, ty := .message, typeName := n!".google.protobuf.Field", jsonName := some n!"fields" },
        { name := n!"oneofs", number := 3, label := .repeated, ty := .string, jsonName := some n!"oneofs" },
        { name := n!"options", number := 4, label := .repeated, ty := .message, typeName := n!".google.protobuf.Option", jsonName := some n!"options" },
        { name := n!"source_context", number := 5, ty := .message, typeName := n!".google.protobuf.SourceContext", jsonName := some n!"sourceContext" },
        { name := n!"syntax", number := 6, ty := .enum, typeName := n!".google.protobuf.Syntax", jsonName := some n!"syntax" },
        { name := n!"edition", number := 7, ty := .string, jsonName := some n!"edition" }] },
    { name := n!"Field",
      fields := [
        { name := n!"kind", number := 1, ty := .enum, typeName := n!".google.protobuf.Field.Kind", jsonName := some n!"kind" },
        { name := n!"cardinality", number := 2, ty := .enum, typeName := n!".google.protobuf.Field.Cardinality", jsonName := some n!"cardinality" },
        { name := n!"number", number := 3, ty := .int32, jsonName := some n!"number" },
        { name := n!"name", number := 4, ty := .string, jsonName := some n!"name" },
        { name := n!"type_url", number := 6, ty := .string, jsonName := some n!"typeUrl" },
        { name := n!"oneof_index", number := 7, ty := .int32, jsonName := some n!"oneofIndex" },
        { name := n!"packed", number := 8, ty := .bool, jsonName := some n!"packed" },
        { name := n!"options", number := 9, label := .repeated, ty := .message, typeName := n!".google.protobuf.Option", jsonName := some n!"options" },
        { name := n!"json_name", number := 10, ty := .string, jsonName := some n!"jsonName" },
        { name := n!"default_value", number := 11, ty := .string, jsonName := some n!"defaultValue" }],
      enums := [
        { name := n!"Kind", values := [⟨n!"TYPE_UNKNOWN", 0⟩, ⟨n!"TYPE_DOUBLE", 1⟩, ⟨n!"TYPE_FLOAT", 2⟩, ⟨n!"TYPE_INT64", 3⟩, ⟨n!"TYPE_UINT64", 4⟩, ⟨n!"TYPE_INT32", 5⟩, ⟨n!"TYPE_FIXED64", 6⟩, ⟨n!"TYPE_FIXED32", 7⟩, ⟨n!"TYPE_BOOL", 8⟩, ⟨n!"TYPE_STRING", 9⟩, ⟨n!"TYPE_GROUP", 10⟩, ⟨n!"TYPE_MESSAGE", 11⟩, ⟨n!"TYPE_BYTES", 12⟩, ⟨n!"TYPE_UINT32", 13⟩, ⟨n!"TYPE_ENUM", 14⟩, ⟨n!"TYPE_SFIXED32", 15⟩, ⟨n!"TYPE_SFIXED64", 16⟩, ⟨n!"TYPE_SINT32", 17⟩, ⟨n!"TYPE_SINT64", 18⟩] },
        { name := n!"Cardinality", values := [⟨n!"CARDINALITY_UNKNOWN", 0⟩, ⟨n!"CARDINALITY_OPTIONAL", 1⟩, ⟨n!"CARDINALITY_REQUIRED", 2⟩, ⟨n!"CARDINALITY_REPEATED", 3⟩] }] },
    { name := n!"Enum",
      fields := [
        { name := n!"name", number := 1, ty := .string, jsonName := some n!"name" },
        { name := n!"enumvalue", number := 2, label := .repeated, ty := .message, typeName := n!".google.protobuf.EnumValue", jsonName := some n!"enumvalue" },
        { name := n!"options", number := 3, label := .repeated, ty := .message, typeName := n!".google.protobuf.Option", jsonName := some n!"options" },
        { name := n!"source_context", number := 4, ty := .message, typeName := n!".google.protobuf.SourceContext", jsonName := some n!"sourceContext" },
        { name := n!"syntax", number := 5, ty := .enum, typeName := n!".google.protobuf.Syntax", jsonName := some n!"syntax" },
        { name := n!"edition", number := 6, ty := .string, jsonName := some n!"edition" }] },
    { name := n!"EnumValue",
      fields := [
        { name := n!"name", number := 1, ty := .string, jsonName := some n!"name" },
        { name := n!"number", number := 2, ty := .int32, jsonName := some n!"number" },
        { name := n!"options", number := 3, label := .repeated, ty := .message, typeName := n!".google.protobuf.Option", jsonName := some n!"options" }] },
    { name := n!"Option",
      fields := [
        { name := n!"name", number := 1, ty := .string, jsonName := some n!"name" },
        { name := n!"value", number := 2, ty := .message, typeName := n!".google.protobuf.Any", jsonName := some n!"value" }] }]
  enums := [
    { name := n!"Syntax", values := [⟨n!"SYNTAX_PROTO2", 0⟩, ⟨n!"SYNTAX_PROTO3", 1⟩, ⟨n!"SYNTAX_EDITIONS", 2⟩] }]
  syn := some n!"proto3"

/-- `google/protobuf/api.proto` (reflect/wkt.rs:782-1068) -/
def apiProto : FileP where
  name := n!"google/protobuf/api.proto"
  package := n!"google.protobuf"
  deps := [n!"google/protobuf/source_context.proto", n!"google/protobuf/type.proto"]
  messages := [
    { name := n!"Api",
      fields := [
        { name := n!"name", number := 1, ty := .string, jsonName := some n!"name" },
        { name := n!"methods", number := 2, label := .repeated, ty := .message, typeName := n!".google.protobuf.Method", jsonName := some n!"methods" },
        { name := n!"options", number := 3, label := .repeated, ty := .message, typeName := n!".google.protobuf.Option", jsonName := some n!"options" },
        { name := n!"version", number := 4, ty := .string, jsonName := some n!"version" },
        { name := n!"source_context", number := 5, ty := .message, typeName := n!".google.protobuf.SourceContext", jsonName := some n!"sourceContext" },
        { name := n!"mixins", number := 6, label := .repeated, ty := .message, typeName := n!".google.protobuf.Mixin", jsonName := some n!"mixins" },
        { name := n!"syntax", number := 7, ty := .enum, typeName := n!".google.protobuf.Syntax", jsonName := some n!"syntax" }] },
    { name := n!"Method",
      fields := [
        { name := n!"name", number := 1, ty := .string, jsonName := some n!"name" },
        { name := n!"request_type_url", number := 2, ty := .string, jsonName := some n!"requestTypeUrl" },
        { name := n!"request_streaming", number := 3, ty := .bool, jsonName := some n!"requestStreaming" },
        { name := n!"response_type_url", number := 4, ty := .string, jsonName := some n!"responseTypeUrl" },
        { name := n!"response_streaming", number := 5, ty := .bool, jsonName := some n!"responseStreaming" },
        { name := n!"options", number := 6, label := .repeated, ty := .message, typeName := n!".google.protobuf.Option", jsonName := some n!"options" },
        { name := n!"syntax", number := 7, ty := .enum, typeName := n!".google.protobuf.Syntax", jsonName := some n!"syntax" }] },
    { name := n!"Mixin",
      fields := [
        { name := n!"name", number := 1, ty := .string, jsonName := some n!"name" },
        { name := n!"root", number := 2, ty := .string, jsonName := some n!"root" }] }]
  syn := some n!"proto3"

/-- `google/protobuf/descriptor.proto` (reflect/wkt.rs:1069-4407) -/
def descriptorProto : FileP where
  name := n!"google/protobuf/descriptor.proto"
  package := n!"google.protobuf"
  messages := [
    { name := n!"FileDescriptorSet",
      fields := [
        { name := n!"file", number := 1, label := .repeated, ty := .message, typeName := n!".google.protobuf.FileDescriptorProto", jsonName := some n!"file" }] },
    { name := n!"FileDescriptorProto",
      fields := [
        { name := n!"name", number := 1, ty := .string, jsonName := some n!"name" },
        { name := n!"package", number := 2, ty := .string, jsonName := some n!"package" },
        { name := n!"dependency", number := 3, label := .repeated, ty := .string, jsonName := some n!"dependency" },
        { name := n!"public_dependency", number := 10, label := .repeated, ty := .int32, jsonName := some n!"publicDependency" },
        { name := n!"weak_dependency", number := 11, label := .repeated, ty := .int32, jsonName := some n!"weakDependency" },
        { name := n!"message_type", number := 4, label := .repeated, ty := .message, typeName := n!".google.protobuf.DescriptorProto", jsonName := some n!"messageType" },
        { name := n!"enum_type", number := 5, label := .repeated, ty := .message, typeName := n!".google.protobuf.EnumDescriptorProto", jsonName := some n!"enumType" },
        { name := n!"service", number := 6, label := .repeated, ty := .message, typeName := n!".google.protobuf.ServiceDescriptorProto", jsonName := some n!"service" },
        { name := n!"extension", number := 7, label := .repeated, ty := .message, typeName := n!".google.protobuf.FieldDescriptorProto", jsonName := some n!"extension" },
        { name := n!"options", number := 8, ty := .message, typeName := n!".google.protobuf.FileOptions", jsonName := some n!"options" },
        { name := n!"source_code_info", number := 9, ty := .message, typeName := n!".google.protobuf.SourceCodeInfo", jsonName := some n!"sourceCodeInfo" },
        { name := n!"syntax", number := 12, ty := .string, jsonName := some n!"syntax" },
        { name := n!"edition", number := 14, ty := .enum, typeName := n!".google.protobuf.Edition", jsonName := some n!"edition" }] },
    { name := n!"DescriptorProto",
      fields := [
        { name := n!"name", number := 1, ty := .string, jsonName := some n!"name" },
        { name := n!"field", number := 2, label := .repeated, ty := .message, typeName := n!".google.protobuf.FieldDescriptorProto", jsonName := some n!"field" },
        { name := n!"extension", number := 6, label := .repeated, ty := .message, typeName := n!".google.protobuf.FieldDescriptorProto", jsonName := some n!"extension" },
        { name := n!"nested_type", number := 3, label := .repeated, ty := .message, typeName := n!".google.protobuf.DescriptorProto", jsonName := some n!"nestedType" },
        { name := n!"enum_type", number := 4, label := .repeated, ty := .message, typeName := n!".google.protobuf.EnumDescriptorProto", jsonName := some n!"enumType" },
        { name := n!"extension_range", number := 5, label := .repeated, ty := .message, typeName := n!".google.protobuf.DescriptorProto.ExtensionRange", jsonName := some n!"extensionRange" },
        { name := n!"oneof_decl", number := 8, label := .repeated, ty := .message, typeName := n!".google.protobuf.OneofDescriptorProto", jsonName := some n!"oneofDecl" },
        { name := n!"options", number := 7, ty := .message, typeName := n!".google.protobuf.MessageOptions", jsonName := some n!"options" },
        { name := n!"reserved_range", number := 9, label := .repeated, ty := .message, typeName := n!".google.protobuf.DescriptorProto.ReservedRange", jsonName := some n!"reservedRange" },
        { name := n!"reserved_name", number := 10, label := .repeated, ty := .string, jsonName := some n!"reservedName" }],
      nested := [
        { name := n!"ExtensionRange",
          fields := [
            { name := n!"start", number := 1, ty := .int32, jsonName := some n!"start" },
            { name := n!"end", number := 2, ty := .int32, jsonName := some n!"end" },
            { name := n!"options", number := 3, ty := .message, typeName := n!".google.protobuf.ExtensionRangeOptions", jsonName := some n!"options" }] },
        { name := n!"ReservedRange",
          fields := [
            { name := n!"start", number := 1, ty := .int32, jsonName := some n!"start" },
            { name := n!"end", number := 2, ty := .int32, jsonName := some n!"end" }] }] },
    { name := n!"ExtensionRangeOptions",
      fields := [
        { name := n!"uninterpreted_option", number := 999, label := .repeated, ty := .message, typeName := n!".google.protobuf.UninterpretedOption", jsonName := some n!"uninterpretedOption" },
        { name := n!"declaration", number := 2, label := .repeated, ty := .message, typeName := n!".google.protobuf.ExtensionRangeOptions.Declaration", jsonName := some n!"declaration", options := some none },
        { name := n!"features", number := 50, ty := .message, typeName := n!".google.protobuf.FeatureSet", jsonName := some n!"features" },
        { name := n!"verification", number := 3, ty := .enum, typeName := n!".google.protobuf.ExtensionRangeOptions.VerificationState", default := some n!"UNVERIFIED", jsonName := some n!"verification" }],
      nested := [
        { name := n!"Declaration",
          fields := [
            { name := n!"number", number := 1, ty := .int32, jsonName := some n!"number" },
            { name := n!"full_name", number := 2, ty := .string, jsonName := some n!"fullName" },
            { name := n!"type", number := 3, ty := .string, jsonName := some n!"type" },
            { name := n!"reserved", number := 5, ty := .bool, jsonName := some n!"reserved" },
            { name := n!"repeated", number := 6, ty := .bool, jsonName := some n!"repeated" }],
          reserved := [(4, 5)] }],
      enums := [
        { name := n!"VerificationState", values := [⟨n!"DECLARATION", 0⟩, ⟨n!"UNVERIFIED", 1⟩] }],
      extRanges := [(1000, 536870912)] },
    { name := n!"FieldDescriptorProto",
      fields := [
        { name := n!"name", number := 1, ty := .string, jsonName := some n!"name" },
        { name := n!"number", number := 3, ty := .int32, jsonName := some n!"number" },
        { name := n!"label", number := 4, ty := .enum, typeName := n!".google.protobuf.FieldDescriptorProto.Label", jsonName := some n!"label" },
        { name := n!"type", number := 5, ty := .enum, typeName := n!".google.protobuf.FieldDescriptorProto.Type", jsonName := some n!"type" },
        { name := n!"type_name", number := 6, ty := .string, jsonName := some n!"typeName" },
        { name := n!"extendee", number := 2, ty := .string, jsonName := some n!"extendee" },
        { name := n!"default_value", number := 7, ty := .string, jsonName := some n!"defaultValue" },
        { name := n!"oneof_index", number := 9, ty := .int32, jsonName := some n!"oneofIndex" },
        { name := n!"json_name", number := 10, ty := .string, jsonName := some n!"jsonName" },
        { name := n!"options", number := 8, ty := .message, typeName := n!".google.protobuf.FieldOptions", jsonName := some n!"options" },
        { name := n!"proto3_optional", number := 17, ty := .bool, jsonName := some n!"proto3Optional" }],
      enums := [
        { name := n!"Type", values := [⟨n!"TYPE_DOUBLE", 1⟩, ⟨n!"TYPE_FLOAT", 2⟩, ⟨n!"TYPE_INT64", 3⟩, ⟨n!"TYPE_UINT64", 4⟩, ⟨n!"TYPE_INT32", 5⟩, ⟨n!"TYPE_FIXED64", 6⟩, ⟨n!"TYPE_FIXED32", 7⟩, ⟨n!"TYPE_BOOL", 8⟩, ⟨n!"TYPE_STRING", 9⟩, ⟨n!"TYPE_GROUP", 10⟩, ⟨n!"TYPE_MESSAGE", 11⟩, ⟨n!"TYPE_BYTES", 12⟩, ⟨n!"TYPE_UINT32", 13⟩, ⟨n!"TYPE_ENUM", 14⟩, ⟨n!"TYPE_SFIXED32", 15⟩, ⟨n!"TYPE_SFIXED64", 16⟩, ⟨n!"TYPE_SINT32", 17⟩, ⟨n!"TYPE_SINT64", 18⟩] },
        { name := n!"Label", values := [⟨n!"LABEL_OPTIONAL", 1⟩, ⟨n!"LABEL_REPEATED", 3⟩, ⟨n!"LABEL_REQUIRED", 2⟩] }] },
    { name := n!"OneofDescriptorProto",
      fields := [
        { name := n!"name", number := 1, ty := .string, jsonName := some n!"name" },
        { name := n!"options", number := 2, ty := .message, typeName := n!".google.protobuf.OneofOptions", jsonName := some n!"options" }] },
    { name := n!"EnumDescriptorProto",
      fields := [
        { name := n!"name", number := 1, ty := .string, jsonName := some n!"name" },
        { name := n!"value", number := 2, label := .repeated, ty := .message, typeName := n!".google.protobuf.EnumValueDescriptorProto", jsonName := some n!"value" },
        { name := n!"options", number := 3, ty := .message, typeName := n!".google.protobuf.EnumOptions", jsonName := some n!"options" },
        { name := n!"reserved_range", number := 4, label := .repeated, ty := .message, typeName := n!".google.protobuf.EnumDescriptorProto.EnumReservedRange", jsonName := some n!"reservedRange" },
        { name := n!"reserved_name", number := 5, label := .repeated, ty := .string, jsonName := some n!"reservedName" }],
      nested := [
        { name := n!"EnumReservedRange",
          fields := [
            { name := n!"start", number := 1, ty := .int32, jsonName := some n!"start" },
            { name := n!"end", number := 2, ty := .int32, jsonName := some n!"end" }] }] },
    { name := n!"EnumValueDescriptorProto",
      fields := [
        { name := n!"name", number := 1, ty := .string, jsonName := some n!"name" },
        { name := n!"number", number := 2, ty := .int32, jsonName := some n!"number" },
        { name := n!"options", number := 3, ty := .message, typeName := n!".google.protobuf.EnumValueOptions", jsonName := some n!"options" }] },
    { name := n!"ServiceDescriptorProto",
      fields := [
        { name := n!"name", number := 1, ty := .string, jsonName := some n!"name" },
        { name := n!"method", number := 2, label := .repeated, ty := .message, typeName := n!".google.protobuf.MethodDescriptorProto", jsonName := some n!"method" },
        { name := n!"options", number := 3, ty := .message, typeName := n!".google.protobuf.ServiceOptions", jsonName := some n!"options" }] },
    { name := n!"MethodDescriptorProto",
      fields := [
        { name := n!"name", number := 1, ty := .string, jsonName := some n!"name" },
        { name := n!"input_type", number := 2, ty := .string, jsonName := some n!"inputType" },
        { name := n!"output_type", number := 3, ty := .string, jsonName := some n!"outputType" },
        { name := n!"options", number := 4, ty := .message, typeName := n!".google.protobuf.MethodOptions", jsonName := some n!"options" },
        { name := n!"client_streaming", number := 5, ty := .bool, default := some n!"false", jsonName := some n!"clientStreaming" },
        { name := n!"server_streaming", number := 6, ty := .bool, default := some n!"false", jsonName := some n!"serverStreaming" }] },
    { name := n!"FileOptions",
      fields := [
        { name := n!"java_package", number := 1, ty := .string, jsonName := some n!"javaPackage" },
        { name := n!"java_outer_classname", number := 8, ty := .string, jsonName := some n!"javaOuterClassname" },
        { name := n!"java_multiple_files", number := 10, ty := .bool, default := some n!"false", jsonName := some n!"javaMultipleFiles" },
        { name := n!"java_generate_equals_and_hash", number := 20, ty := .bool, jsonName := some n!"javaGenerateEqualsAndHash", options := some none },
        { name := n!"java_string_check_utf8", number := 27, ty := .bool, default := some n!"false", jsonName := some n!"javaStringCheckUtf8" },
        { name := n!"optimize_for", number := 9, ty := .enum, typeName := n!".google.protobuf.FileOptions.OptimizeMode", default := some n!"SPEED", jsonName := some n!"optimizeFor" },
        { name := n!"go_package", number := 11, ty := .string, jsonName := some n!"goPackage" },
        { name := n!"cc_generic_services", number := 16, ty := .bool, default := some n!"false", jsonName := some n!"ccGenericServices" },
        { name := n!"java_generic_services", number := 17, ty := .bool, default := some n!"false", jsonName := some n!"javaGenericServices" },
        { name := n!"py_generic_services", number := 18, ty := .bool, default := some n!"false", jsonName := some n!"pyGenericServices" },
        { name := n!"php_generic_services", number := 42, ty := .bool, default := some n!"false", jsonName := some n!"phpGenericServices" },
        { name := n!"deprecated", number := 23, ty := .bool, default := some n!"false", jsonName := some n!"deprecated" },
        { name := n!"cc_enable_arenas", number := 31, ty := .bool, default := some n!"true", jsonName := some n!"ccEnableArenas" },
        { name := n!"objc_class_prefix", number := 36, ty := .string, jsonName := some n!"objcClassPrefix" },
        { name := n!"csharp_namespace", number := 37, ty := .string, jsonName := some n!"csharpNamespace" },
        { name := n!"swift_prefix", number := 39, ty := .string, jsonName := some n!"swiftPrefix" },
        { name := n!"php_class_prefix", number := 40, ty := .string, jsonName := some n!"phpClassPrefix" },
        { name := n!"php_namespace", number := 41, ty := .string, jsonName := some n!"phpNamespace" },
        { name := n!"php_metadata_namespace", number := 44, ty := .string, jsonName := some n!"phpMetadataNamespace" },
        { name := n!"ruby_package", number := 45, ty := .string, jsonName := some n!"rubyPackage" },
        { name := n!"features", number := 50, ty := .message, typeName := n!".google.protobuf.FeatureSet", jsonName := some n!"features" },
        { name := n!"uninterpreted_option", number := 999, label := .repeated, ty := .message, typeName := n!".google.protobuf.UninterpretedOption", jsonName := some n!"uninterpretedOption" }],
      enums := [
        { name := n!"OptimizeMode", values := [⟨n!"SPEED", 1⟩, ⟨n!"CODE_SIZE", 2⟩, ⟨n!"LITE_RUNTIME", 3⟩] }],
      extRanges := [(1000, 536870912)],
      reserved := [(38, 39)] },
    { name := n!"MessageOptions",
      fields := [
        { name := n!"message_set_wire_format", number := 1, ty := .bool, default := some n!"false", jsonName := some n!"messageSetWireFormat" },
        { name := n!"no_standard_descriptor_accessor", number := 2, ty := .bool, default := some n!"false", jsonName := some n!"noStandardDescriptorAccessor" },
        { name := n!"deprecated", number := 3, ty := .bool, default := some n!"false", jsonName := some n!"deprecated" },
        { name := n!"map_entry", number := 7, ty := .bool, jsonName := some n!"mapEntry" },
        { name := n!"deprecated_legacy_json_field_conflicts", number := 11, ty := .bool, jsonName := some n!"deprecatedLegacyJsonFieldConflicts", options := some none },
        { name := n!"features", number := 12, ty := .message, typeName := n!".google.protobuf.FeatureSet", jsonName := some n!"features" },
        { name := n!"uninterpreted_option", number := 999, label := .repeated, ty := .message, typeName := n!".google.protobuf.UninterpretedOption", jsonName := some n!"uninterpretedOption" }],
      extRanges := [(1000, 536870912)],
      reserved := [(4, 5), (5, 6), (6, 7), (8, 9), (9, 10)] },
    { name := n!"FieldOptions",
      fields := [
        { name := n!"ctype", number := 1, ty := .enum, typeName := n!".google.protobuf.FieldOptions.CType", default := some n!"STRING", jsonName := some n!"ctype" },
        { name := n!"packed", number := 2, ty := .bool, jsonName := some n!"packed" },
        { name := n!"jstype", number := 6, ty := .enum, typeName := n!".google.protobuf.FieldOptions.JSType", default := some n!"JS_NORMAL", jsonName := some n!"jstype" },
        { name := n!"lazy", number := 5, ty := .bool, default := some n!"false", jsonName := some n!"lazy" },
        { name := n!"unverified_lazy", number := 15, ty := .bool, default := some n!"false", jsonName := some n!"unverifiedLazy" },
        { name := n!"deprecated", number := 3, ty := .bool, default := some n!"false", jsonName := some n!"deprecated" },
        { name := n!"weak", number := 10, ty := .bool, default := some n!"false", jsonName := some n!"weak" },
        { name := n!"debug_redact", number := 16, ty := .bool, default := some n!"false", jsonName := some n!"debugRedact" },
        { name := n!"retention", number := 17, ty := .enum, typeName := n!".google.protobuf.FieldOptions.OptionRetention", jsonName := some n!"retention" },
        { name := n!"targets", number := 19, label := .repeated, ty := .enum, typeName := n!".google.protobuf.FieldOptions.OptionTargetType", jsonName := some n!"targets" },
        { name := n!"edition_defaults", number := 20, label := .repeated, ty := .message, typeName := n!".google.protobuf.FieldOptions.EditionDefault", jsonName := some n!"editionDefaults" },
        { name := n!"features", number := 21, ty := .message, typeName := n!".google.protobuf.FeatureSet", jsonName := some n!"features" },
        { name := n!"uninterpreted_option", number := 999, label := .repeated, ty := .message, typeName := n!".google.protobuf.UninterpretedOption", jsonName := some n!"uninterpretedOption" }],
      nested := [
        { name := n!"EditionDefault",
          fields := [
            { name := n!"edition", number := 3, ty := .enum, typeName := n!".google.protobuf.Edition", jsonName := some n!"edition" },
            { name := n!"value", number := 2, ty := .string, jsonName := some n!"value" }] }],
      enums := [
        { name := n!"CType", values := [⟨n!"STRING", 0⟩, ⟨n!"CORD", 1⟩, ⟨n!"STRING_PIECE", 2⟩] },
        { name := n!"JSType", values := [⟨n!"JS_NORMAL", 0⟩, ⟨n!"JS_STRING", 1⟩, ⟨n!"JS_NUMBER", 2⟩] },
        { name := n!"OptionRetention", values := [⟨n!"RETENTION_UNKNOWN", 0⟩, ⟨n!"RETENTION_RUNTIME", 1⟩, ⟨n!"RETENTION_SOURCE", 2⟩] },
        { name := n!"OptionTargetType", values := [⟨n!"TARGET_TYPE_UNKNOWN", 0⟩, ⟨n!"TARGET_TYPE_FILE", 1⟩, ⟨n!"TARGET_TYPE_EXTENSION_RANGE", 2⟩, ⟨n!"TARGET_TYPE_MESSAGE", 3⟩, ⟨n!"TARGET_TYPE_FIELD", 4⟩, ⟨n!"TARGET_TYPE_ONEOF", 5⟩, ⟨n!"TARGET_TYPE_ENUM", 6⟩, ⟨n!"TARGET_TYPE_ENUM_ENTRY", 7⟩, ⟨n!"TARGET_TYPE_SERVICE", 8⟩, ⟨n!"TARGET_TYPE_METHOD", 9⟩] }],
      extRanges := [(1000, 536870912)],
      reserved := [(4, 5), (18, 19)] },
    { name := n!"OneofOptions",
      fields := [
        { name := n!"features", number := 1, ty := .message, typeName := n!".google.protobuf.FeatureSet", jsonName := some n!"features" },
        { name := n!"uninterpreted_option", number := 999, label := .repeated, ty := .message, typeName := n!".google.protobuf.UninterpretedOption", jsonName := some n!"uninterpretedOption" }],
      extRanges := [(1000, 536870912)] },
    { name := n!"EnumOptions",
      fields := [
        { name := n!"allow_alias", number := 2, ty := .bool, jsonName := some n!"allowAlias" },
        { name := n!"deprecated", number := 3, ty := .bool, default := some n!"false", jsonName := some n!"deprecated" },
        { name := n!"deprecated_legacy_json_field_conflicts", number := 6, ty := .bool, jsonName := some n!"deprecatedLegacyJsonFieldConflicts", options := some none },
        { name := n!"features", number := 7, ty := .message, typeName := n!".google.protobuf.FeatureSet", jsonName := some n!"features" },
        { name := n!"uninterpreted_option", number := 999, label := .repeated, ty := .message, typeName := n!".google.protobuf.UninterpretedOption", jsonName := some n!"uninterpretedOption" }],
      extRanges := [(1000, 536870912)],
      reserved := [(5, 6)] },
    { name := n!"EnumValueOptions",
      fields := [
        { name := n!"deprecated", number := 1, ty := .bool, default := some n!"false", jsonName := some n!"deprecated" },
        { name := n!"features", number := 2, ty := .message, typeName := n!".google.protobuf.FeatureSet", jsonName := some n!"features" },
        { name := n!"debug_redact", number := 3, ty := .bool, default := some n!"false", jsonName := some n!"debugRedact" },
        { name := n!"uninterpreted_option", number := 999, label := .repeated, ty := .message, typeName := n!".google.protobuf.UninterpretedOption", jsonName := some n!"uninterpretedOption" }],
      extRanges := [(1000, 536870912)] },
    { name := n!"ServiceOptions",
      fields := [
        { name := n!"features", number := 34, ty := .message, typeName := n!".google.protobuf.FeatureSet", jsonName := some n!"features" },
        { name := n!"deprecated", number := 33, ty := .bool, default := some n!"false", jsonName := some n!"deprecated" },
        { name := n!"uninterpreted_option", number := 999, label := .repeated, ty := .message, typeName := n!".google.protobuf.UninterpretedOption", jsonName := some n!"uninterpretedOption" }],
      extRanges := [(1000, 536870912)] },
    { name := n!"MethodOptions",
      fields := [
        { name := n!"deprecated", number := 33, ty := .bool, default := some n!"false", jsonName := some n!"deprecated" },
        { name := n!"idempotency_level", number := 34, ty := .enum, typeName := n!".google.protobuf.MethodOptions.IdempotencyLevel", default := some n!"IDEMPOTENCY_UNKNOWN", jsonName := some n!"idempotencyLevel" },
        { name := n!"features", number := 35, ty := .message, typeName := n!".google.protobuf.FeatureSet", jsonName := some n!"features" },
        { name := n!"uninterpreted_option", number := 999, label := .repeated, ty := .message, typeName := n!".google.protobuf.UninterpretedOption", jsonName := some n!"uninterpretedOption" }],
      enums := [
        { name := n!"IdempotencyLevel", values := [⟨n!"IDEMPOTENCY_UNKNOWN", 0⟩, ⟨n!"NO_SIDE_EFFECTS", 1⟩, ⟨n!"IDEMPOTENT", 2⟩] }],
      extRanges := [(1000, 536870912)] },
    { name := n!"UninterpretedOption",
      fields := [
        { name := n!"name", number := 2, label := .repeated, ty := .message, typeName := n!".google.protobuf.UninterpretedOption.NamePart", jsonName := some n!"name" },
        { name := n!"identifier_value", number := 3, ty := .string, jsonName := some n!"identifierValue" },
        { name := n!"positive_int_value", number := 4, ty := .uint64, jsonName := some n!"positiveIntValue" },
        { name := n!"negative_int_value", number := 5, ty := .int64, jsonName := some n!"negativeIntValue" },
        { name := n!"double_value", number := 6, ty := .double, jsonName := some n!"doubleValue" },
        { name := n!"string_value", number := 7, ty := .bytes, jsonName := some n!"stringValue" },
        { name := n!"aggregate_value", number := 8, ty := .string, jsonName := some n!"aggregateValue" }],
      nested := [
        { name := n!"NamePart",
          fields := [
            { name := n!"name_part", number := 1, label := .required, ty := .string, jsonName := some n!"namePart" },
            { name := n!"is_extension", number := 2, label := .required, ty := .bool, jsonName := some n!"isExtension" }] }] },
    { name := n!"FeatureSet",
      fields := [
        { name := n!"field_presence", number := 1, ty := .enum, typeName := n!".google.protobuf.FeatureSet.FieldPresence", jsonName := some n!"fieldPresence", options := some none },
        { name := n!"enum_type", number := 2, ty := .enum, typeName := n!".google.protobuf.FeatureSet.EnumType", jsonName := some n!"enumType", options := some none },
        { name := n!"repeated_field_encoding", number := 3, ty := .enum, typeName := n!".google.protobuf.FeatureSet.RepeatedFieldEncoding", jsonName := some n!"repeatedFieldEncoding", options := some none },
        { name := n!"utf8_validation", number := 4, ty := .enum, typeName := n!".google.protobuf.FeatureSet.Utf8Validation", jsonName := some n!"utf8Validation", options := some none },
        { name := n!"message_encoding", number := 5, ty := .enum, typeName := n!".google.protobuf.FeatureSet.MessageEncoding", jsonName := some n!"messageEncoding", options := some none },
        { name := n!"json_format", number := 6, ty := .enum, typeName := n!".google.protobuf.FeatureSet.JsonFormat", jsonName := some n!"jsonFormat", options := some none }],
      enums := [
        { name := n!"FieldPresence", values := [⟨n!"FIELD_PRESENCE_UNKNOWN", 0⟩, ⟨n!"EXPLICIT", 1⟩, ⟨n!"IMPLICIT", 2⟩, ⟨n!"LEGACY_REQUIRED", 3⟩] },
        { name := n!"EnumType", values := [⟨n!"ENUM_TYPE_UNKNOWN", 0⟩, ⟨n!"OPEN", 1⟩, ⟨n!"CLOSED", 2⟩] },
        { name := n!"RepeatedFieldEncoding", values := [⟨n!"REPEATED_FIELD_ENCODING_UNKNOWN", 0⟩, ⟨n!"PACKED", 1⟩, ⟨n!"EXPANDED", 2⟩] },
        { name := n!"Utf8Validation", values := [⟨n!"UTF8_VALIDATION_UNKNOWN", 0⟩, ⟨n!"NONE", 1⟩, ⟨n!"VERIFY", 2⟩] },
        { name := n!"MessageEncoding", values := [⟨n!"MESSAGE_ENCODING_UNKNOWN", 0⟩, ⟨n!"LENGTH_PREFIXED", 1⟩, ⟨n!"DELIMITED", 2⟩] },
        { name := n!"JsonFormat", values := [⟨n!"JSON_FORMAT_UNKNOWN", 0⟩, ⟨n!"ALLOW", 1⟩, ⟨n!"LEGACY_BEST_EFFORT", 2⟩] }],
      extRanges := [(1000, 1001), (1001, 1002), (9995, 10000)],
      reserved := [(999, 1000)] },
    { name := n!"FeatureSetDefaults",
      fields := [
        { name := n!"defaults", number := 1, label := .repeated, ty := .message, typeName := n!".google.protobuf.FeatureSetDefaults.FeatureSetEditionDefault", jsonName := some n!"defaults" },
        { name := n!"minimum_edition", number := 4, ty := .enum, typeName := n!".google.protobuf.Edition", jsonName := some n!"minimumEdition" },
        { name := n!"maximum_edition", number := 5, ty := .enum, typeName := n!".google.protobuf.Edition", jsonName := some n!"maximumEdition" }],
      nested := [
        { name := n!"FeatureSetEditionDefault",
          fields := [
            { name := n!"edition", number := 3, ty := .enum, typeName := n!".google.protobuf.Edition", jsonName := some n!"edition" },
            { name := n!"features", number := 2, ty := .message, typeName := n!".google.protobuf.FeatureSet", jsonName := some n!"features" }] }] },
    { name := n!"SourceCodeInfo",
      fields := [
        { name := n!"location", number := 1, label := .repeated, ty := .message, typeName := n!".google.protobuf.SourceCodeInfo.Location", jsonName := some n!"location" }],
      nested := [
        { name := n!"Location",
          fields := [
            { name := n!"path", number := 1, label := .repeated, ty := .int32, jsonName := some n!"path", options := some (some true) },
            { name := n!"span", number := 2, label := .repeated, ty := .int32, jsonName := some n!"span", options := some (some true) },
            { name := n!"leading_comments", number := 3, ty := .string, jsonName := some n!"leadingComments" },
            { name := n!"trailing_comments", number := 4, ty := .string, jsonName := some n!"trailingComments" },
            { name := n!"leading_detached_comments", number := 6, label := .repeated, ty := .string, jsonName := some n!"leadingDetachedComments" }] }] },
    { name := n!"GeneratedCodeInfo",
      fields := [
        { name := n!"annotation", number := 1, label := .repeated, ty := .message, typeName := n!".google.protobuf.GeneratedCodeInfo.Annotation", jsonName := some n!"annotation" }],
      nested := [
        { name := n!"Annotation",
          fields := [
            { name := n!"path", number := 1, label := .repeated, ty := .int32, jsonName := some n!"path", options := some (some true) },
            { name := n!"source_file", number := 2, ty := .string, jsonName := some n!"sourceFile" },
            { name := n!"begin", number := 3, ty := .int32, jsonName := some n!"begin" },
            { name := n!"end", number := 4, ty := .int32, jsonName := some n!"end" },
            { name := n!"semantic", number := 5, ty := .enum, typeName := n!".google.protobuf.GeneratedCodeInfo.Annotation.Semantic", jsonName := some n!"semantic" }],
          enums := [
            { name := n!"Semantic", values := [⟨n!"NONE", 0⟩, ⟨n!"SET", 1⟩, ⟨n!"ALIAS", 2⟩] }] }] }]
  enums := [
    { name := n!"Edition", values := [⟨n!"EDITION_UNKNOWN", 0⟩, ⟨n!"EDITION_PROTO2", 998⟩, ⟨n!"EDITION_PROTO3", 999⟩, ⟨n!"EDITION_2023", 1000⟩, ⟨n!"EDITION_1_TEST_ONLY", 1⟩, ⟨n!"EDITION_2_TEST_ONLY", 2⟩, ⟨n!"EDITION_99997_TEST_ONLY", 99997⟩, ⟨n!"EDITION_99998_TEST_ONLY", 99998⟩, ⟨n!"EDITION_99999_TEST_ONLY", 99999⟩] }]

/-- `google/protobuf/duration.proto` (reflect/wkt.rs:4408-4481) -/
def durationProto : FileP where
  name := n!"google/protobuf/duration.proto"
  package := n!"google.protobuf"
  messages := [
    { name := n!"Duration",
      fields := [
        { name := n!"seconds", number := 1, ty := .int64, jsonName := some n!"seconds" },
        { name := n!"nanos", number := 2, ty := .int32, jsonName := some n!"nanos" }] }]
  syn := some n!"proto3"

/-- `google/protobuf/empty.proto` (reflect/wkt.rs:4482-4528) -/
def emptyProto : FileP where
  name := n!"google/protobuf/empty.proto"
  package := n!"google.protobuf"
  messages := [
    { name := n!"Empty" }]
  syn := some n!"proto3"

/-- `google/protobuf/field_mask.proto` (reflect/wkt.rs:4529-4587) -/
def fieldMaskProto : FileP where
  name := n!"google/protobuf/field_mask.proto"
  package := n!"google.protobuf"
  messages := [
    { name := n!"FieldMask",
      fields := [
        { name := n!"paths", number := 1, label := .repeated, ty := .string, jsonName := some n!"paths" }] }]
  syn := some n!"proto3"

/-- `google/protobuf/struct.proto` (reflect/wkt.rs:4588-4820) -/
def structProto : FileP where
  name := n!"google/protobuf/struct.proto"
  package := n!"google.protobuf"
  messages := [
    { name := n!"Struct",
      fields := [
        { name := n!"fields", number := 1, label := .repeated, ty := .message, typeName := n!".google.protobuf.Struct.FieldsEntry", jsonName := some n!"fields" }],
      nested := [
        { name := n!"FieldsEntry",
          fields := [
            { name := n!"key", number := 1, ty := .string, jsonName := some n!"key" },
            { name := n!"value", number := 2, ty := .message, typeName := n!".google.protobuf.Value", jsonName := some n!"value" }],
          options := some (some true) }] },
    { name := n!"Value",
      fields := [
        { name := n!"null_value", number := 1, ty := .enum, typeName := n!".google.protobuf.NullValue", oneofIndex := some 0, jsonName := some n!"nullValue" },
        { name := n!"number_value", number := 2, ty := .double, oneofIndex := some 0, jsonName := some n!"numberValue" },
        { name := n!"string_value", number := 3, ty := .string, oneofIndex := some 0, jsonName := some n!"stringValue" },
        { name := n!"bool_value", number := 4, ty := .bool, oneofIndex := some 0, jsonName := some n!"boolValue" },
        { name := n!"struct_value", number := 5, ty := .message, typeName := n!".google.protobuf.Struct", oneofIndex := some 0, jsonName := some n!"structValue" },
        { name := n!"list_value", number := 6, ty := .message, typeName := n!".google.protobuf.ListValue", oneofIndex := some 0, jsonName := some n!"listValue" }],
      oneofs := [⟨n!"kind"⟩] },
    { name := n!"ListValue",
      fields := [
        { name := n!"values", number := 1, label := .repeated, ty := .message, typeName := n!".google.protobuf.Value", jsonName := some n!"values" }] }]
  enums := [
    { name := n!"NullValue", values := [⟨n!"NULL_VALUE", 0⟩] }]
  syn := some n!"proto3"

/-- `google/protobuf/timestamp.proto` (reflect/wkt.rs:4821-4894) -/
def timestampProto : FileP where
  name := n!"google/protobuf/timestamp.proto"
  package := n!"google.protobuf"
  messages := [
    { name := n!"Timestamp",
      fields := [
        { name := n!"seconds", number := 1, ty := .int64, jsonName := some n!"seconds" },
        { name := n!"nanos", number := 2, ty := .int32, jsonName := some n!"nanos" }] }]
  syn := some n!"proto3"

/-- `google/protobuf/wrappers.proto` (reflect/wkt.rs:4895-5147) -/
def wrappersProto : FileP where
  name := n!"google/protobuf/wrappers.proto"
  package := n!"google.protobuf"
  messages := [
    { name := n!"DoubleValue",
      fields := [
        { name := n!"value", number := 1, ty := .double, jsonName := some n!"value" }] },
    { name := n!"FloatValue",
      fields := [
        { name := n!"value", number := 1, ty := .float, jsonName := some n!"value" }] },
    { name := n!"Int64Value",
      fields := [
        { name := n!"value", number := 1, ty := .int64, jsonName := some n!"value" }] },
    { name := n!"UInt64Value",
      fields := [
        { name := n!"value", number := 1, ty := .uint64, jsonName := some n!"value" }] },
    { name := n!"Int32Value",
      fields := [
        { name := n!"value", number := 1, ty := .int32, jsonName := some n!"value" }] },
    { name := n!"UInt32Value",
      fields := [
        { name := n!"value", number := 1, ty := .uint32, jsonName := some n!"value" }] },
    { name := n!"BoolValue",
      fields := [
        { name := n!"value", number := 1, ty := .bool, jsonName := some n!"value" }] },
    { name := n!"StringValue",
      fields := [
        { name := n!"value", number := 1, ty := .string, jsonName := some n!"value" }] },
    { name := n!"BytesValue",
      fields := [
        { name := n!"value", number := 1, ty := .bytes, jsonName := some n!"value" }] }]
  syn := some n!"proto3"

/-- `google/protobuf/compiler/plugin.proto` (reflect/wkt.rs:5148-5467) -/
def pluginProto : FileP where
  name := n!"google/protobuf/compiler/plugin.proto"
  package := n!"google.protobuf.compiler"
  deps := [n!"google/protobuf/descriptor.proto"]
  messages := [
    { name := n!"Version",
      fields := [
        { name := n!"major", number := 1, ty := .int32, jsonName := some n!"major" },
        { name := n!"minor", number := 2, ty := .int32, jsonName := some n!"minor" },
        { name := n!"patch", number := 3, ty := .int32, jsonName := some n!"patch" },
        { name := n!"suffix", number := 4, ty := .string, jsonName := some n!"suffix" }] },
    { name := n!"CodeGeneratorRequest",
      fields := [
        { name := n!"file_to_generate", number := 1, label := .repeated, ty := .string, jsonName := some n!"fileToGenerate" },
        { name := n!"parameter", number := 2, ty := .string, jsonName := some n!"parameter" },
        { name := n!"proto_file", number := 15, label := .repeated, ty := .message, typeName := n!".google.protobuf.FileDescriptorProto", jsonName := some n!"protoFile" },
        { name := n!"source_file_descriptors", number := 17, label := .repeated, ty := .message, typeName := n!".google.protobuf.FileDescriptorProto", jsonName := some n!"sourceFileDescriptors" },
        { name := n!"compiler_version", number := 3, ty := .message, typeName := n!".google.protobuf.compiler.Version", jsonName := some n!"compilerVersion" }] },
    { name := n!"CodeGeneratorResponse",
      fields := [
        { name := n!"error", number := 1, ty := .string, jsonName := some n!"error" },
        { name := n!"supported_features", number := 2, ty := .uint64, jsonName := some n!"supportedFeatures" },
        { name := n!"file", number := 15, label := .repeated, ty := .message, typeName := n!".google.protobuf.compiler.CodeGeneratorResponse.File", jsonName := some n!"file" }],
      nested := [
        { name := n!"File",
          fields := [
            { name := n!"name", number := 1, ty := .string, jsonName := some n!"name" },
            { name := n!"insertion_point", number := 2, ty := .string, jsonName := some n!"insertionPoint" },
            { name := n!"content", number := 15, ty := .string, jsonName := some n!"content" },
            { name := n!"generated_code_info", number := 16, ty := .message, typeName := n!".google.protobuf.GeneratedCodeInfo", jsonName := some n!"generatedCodeInfo" }] }],
      enums := [
        { name := n!"Feature", values := [⟨n!"FEATURE_NONE", 0⟩, ⟨n!"FEATURE_PROTO3_OPTIONAL", 1⟩, ⟨n!"FEATURE_SUPPORTS_EDITIONS", 2⟩] }] }]

/-- `make_descriptor().file` (reflect/wkt.rs:20-5470) -/
def wktFiles : List FileP :=
  [anyProto, sourceContextProto, typeProto, apiProto, descriptorProto,
    durationProto, emptyProto, fieldMaskProto, structProto, timestampProto,
    wrappersProto, pluginProto]

end Verif.Reflect
