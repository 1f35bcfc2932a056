import Verif.Gen.Code

/-!
# `compiler/src/gen/swift`: the Swift generator

Only structures are generated; the templates are in `Gen/Templates.lean`.
-/

namespace Proto.Swift

/-- `gen_value_type!("", ty, "")` (`gen/swift/util.rs` 32-48), `get_field_type` (53-55). -/
def fieldType : FixedTy → Bytes
  | .i8 => b!"Int8"
  | .i16 => b!"Int16"
  | .i32 => b!"Int32"
  | .i64 => b!"Int64"
  | .u8 => b!"UInt8"
  | .u16 => b!"UInt16"
  | .u32 => b!"UInt32"
  | .u64 => b!"UInt64"
  | .f32 => b!"Float32"
  | .f64 => b!"Float64"
  | .bool => b!"Bool"

/-- `get_function_name` (`gen/swift/util.rs` 57-64). -/
def functionName (field : FixedField) : G Bytes := do
  let rawTy ← unwrap field.loc.unsignedTy
  .ok (if rawTy.byteSize ≠ field.loc.byteSize then b!"readUnaligned" else b!"readAligned")

/-- `get_function_name_mut` (`gen/swift/util.rs` 66-73). -/
def functionNameMut (field : FixedField) : G Bytes := do
  let rawTy ← unwrap field.loc.unsignedTy
  .ok (if rawTy.byteSize ≠ field.loc.byteSize then b!"writeUnaligned" else b!"writeAligned")

/-- `get_bit_codec_inline` (`gen/swift/util.rs` 75-80). -/
def bitCodecInline : Endian → Bytes
  | .little => b!"BP3DProto.BitCodecLE"
  | .big => b!"BP3DProto.BitCodecBE"

/-- `get_byte_codec_inline` (`gen/swift/util.rs` 82-87). -/
def byteCodecInline : Endian → Bytes
  | .little => b!"BP3DProto.ByteCodecLE"
  | .big => b!"BP3DProto.ByteCodecBE"

/-- `get_byte_codec` (`gen/swift/util.rs` 89-94). -/
def byteCodec : Endian → Bytes
  | .little => b!"BP3DProto.ByteCodecLE"
  | .big => b!"BP3DProto.ByteCodecBE"

/-- `SwiftUtils` (`gen/swift/util.rs` 50-95). -/
def utils : StructUtils where
  fieldType := fieldType
  functionName := functionName
  functionNameMut := functionNameMut
  bitCodecInline := bitCodecInline
  byteCodecInline := byteCodecInline
  byteCodec := byteCodec

variable (lib : Lib) (p : Profile) (paths : List (Name × Name))

/-- `gen_structure_decl` (`gen/swift/structure.rs` 37-43). -/
def structureDecl (s : Structure) : G Bytes :=
  Code.structureDecl lib p utils paths Tmpl.swiftStructure Tmpl.swiftStructureField s

/-- `GeneratorSwift::generate` (`gen/swift/mod.rs` 49-54). -/
def generate (proto : Protocol) : G (List File) := do
  let structures ← joinMap b!"\n" (structureDecl lib p proto.typePathByName) proto.structs
  .ok [⟨b!"structures.rs", structures, .structure⟩]

/-- `GeneratorSwift` (`gen/swift/mod.rs` 44-55); `generate_umbrella` is the trait's default
(`gen/mod.rs` 87-89). -/
def generator : Generator where
  generate proto := (match generate lib p proto with
    | .ok files => .ok files
    | _ => .panic)
  umbrella := Generator.noUmbrella

end Proto.Swift
