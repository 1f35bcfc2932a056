import Verif.Gen.Code

/-!
# `compiler/src/gen/rust`: the Rust generator
-/

namespace Proto.Rust

/-- `Generics::from_message` (`gen/rust/util.rs` 39-53): `has_lifetime`. -/
def hasLifetime (msg : Message) : Bool :=
  msg.fields.any fun v => match v.ty with
    | .ref _ => true
    | .nullTerminatedString => true
    | .varcharString _ => true
    | .array _ _ => true
    | .union _ _ _ => true
    | .list _ _ => true
    | .payload => true
    | _ => false

/-- `Generics::to_vec` (`gen/rust/util.rs` 55-61). -/
def genericsVec (msg : Message) : List Bytes := if hasLifetime msg then [b!"'a"] else []

/-- `Generics::to_code` (`gen/rust/util.rs` 63-70). -/
def generics (msg : Message) : Bytes :=
  if (genericsVec msg).length > 0 then b!"<" ++ b!",".intercalate (genericsVec msg) ++ b!">" else b!""

/-- `gen_value_type!("", ty, "")` (`gen/rust/util.rs` 73-89). -/
def fieldType : FixedTy → Bytes
  | .i8 => b!"i8"
  | .i16 => b!"i16"
  | .i32 => b!"i32"
  | .i64 => b!"i64"
  | .u8 => b!"u8"
  | .u16 => b!"u16"
  | .u32 => b!"u32"
  | .u64 => b!"u64"
  | .f32 => b!"f32"
  | .f64 => b!"f64"
  | .bool => b!"bool"

/-- `get_function_name` (`gen/rust/util.rs` 98-105). -/
def functionName (field : FixedField) : G Bytes := do
  let rawTy ← unwrap field.loc.unsignedTy
  .ok (if rawTy.byteSize ≠ field.loc.byteSize then b!"read_unaligned" else b!"read_aligned")

/-- `get_function_name_mut` (`gen/rust/util.rs` 107-114). -/
def functionNameMut (field : FixedField) : G Bytes := do
  let rawTy ← unwrap field.loc.unsignedTy
  .ok (if rawTy.byteSize ≠ field.loc.byteSize then b!"write_unaligned" else b!"write_aligned")

/-- `get_bit_codec_inline` (`gen/rust/util.rs` 116-121). -/
def bitCodecInline : Endian → Bytes
  | .little => b!"<bp3d_proto::codec::BitCodecLE as bp3d_proto::codec::BitCodec>"
  | .big => b!"<bp3d_proto::codec::BitCodecBE as bp3d_proto::codec::BitCodec>"

/-- `get_byte_codec_inline` (`gen/rust/util.rs` 123-128). -/
def byteCodecInline : Endian → Bytes
  | .little => b!"<bp3d_proto::codec::ByteCodecLE as bp3d_proto::codec::ByteCodec>"
  | .big => b!"<bp3d_proto::codec::ByteCodecBE as bp3d_proto::codec::ByteCodec>"

/-- `get_byte_codec` (`gen/rust/util.rs` 130-135). -/
def byteCodec : Endian → Bytes
  | .little => b!"bp3d_proto::codec::ByteCodecLE"
  | .big => b!"bp3d_proto::codec::ByteCodecBE"

/-- `get_value_type` (`gen/rust/util.rs` 143-148). -/
def valueType (e : Endian) (ty : FixedTy) : Bytes :=
  match e with
  | .little => b!"bp3d_proto::message::util::ValueLE<" ++ fieldType ty ++ b!">"
  | .big => b!"bp3d_proto::message::util::ValueBE<" ++ fieldType ty ++ b!">"

/-- `get_value_type_inline` (`gen/rust/util.rs` 150-155). -/
def valueTypeInline (e : Endian) (ty : FixedTy) : Bytes :=
  match e with
  | .little => b!"bp3d_proto::message::util::ValueLE::<" ++ fieldType ty ++ b!">"
  | .big => b!"bp3d_proto::message::util::ValueBE::<" ++ fieldType ty ++ b!">"

/-- `RustUtils` (`gen/rust/util.rs` 91-195). -/
def utils : MsgUtils where
  fieldType := fieldType
  functionName := functionName
  functionNameMut := functionNameMut
  bitCodecInline := bitCodecInline
  byteCodecInline := byteCodecInline
  byteCodec := byteCodec
  generics := generics
  valueType := valueType
  valueTypeInline := valueTypeInline
  optionType ty := b!"Option<" ++ ty ++ b!">"
  optionTypeInline ty := b!"bp3d_proto::message::util::Optional::<" ++ ty ++ b!">"
  stringType _ := b!"&'a str"
  stringTypeInline ty := match ty with
    | .varchar => b!"bp3d_proto::message::util::VarcharString"
    | .nullTerminated => b!"bp3d_proto::message::util::NullTerminatedString"
  payloadType := b!"&'a [u8]"
  payloadTypeInline := b!"bp3d_proto::message::util::Buffer"
  structRefType name := name ++ b!"<&'a [u8]>"
  messageRefType name := name ++ b!"<'a>"
  unionRefType name := name ++ b!"<'a>"

variable (lib : Lib) (p : Profile) (paths : List (Name × Name)) (emb : Nat → Bool)

/-- `gen_structure_decl` (`gen/rust/structure.rs` 34-43). -/
def structureDecl (s : Structure) : G Bytes :=
  Code.structureDecl lib p utils.toStructUtils paths Tmpl.rustStructure Tmpl.rustStructureField s

/-- `gen_enum_decl` (`gen/rust/enum.rs` 33-42). -/
def enumDecl (e : Enum) : G Bytes := do
  let template ← unwrap (Template.compile Tmpl.rustEnum)
  let template := template.var b!"name" (Name.utf8 e.name)
  let variants ← joinMap [] (fun (v : Name × Nat) =>
    unwrap (((template.scope.var b!"key" (Name.utf8 v.1)).var b!"value" (display v.2)).render lib.run
      b!"enum" [b!"variant"])) e.variants
  unwrap ((template.var b!"variants" variants).render lib.run b!"" [b!"enum"])

/-- `Referenced::name` (`compiler/message.rs` 45-50). -/
def referencedName : Referenced → Name
  | .struct s => s.name
  | .message m => m.name

/-- `get_generics` (`gen/rust/union.rs` 37-43). -/
def unionGenerics (un : Union) : Bytes :=
  if un.cases.any fun v => v.itemType.isSome then b!"<'a>" else b!""

/-- `DiscriminantFieldIterator` (`compiler/union.rs` 70-91): the fields on the path, with whether
each is a leaf. -/
def discriminantFields (cur : Structure) : List Nat → G (List (SField × Bool))
  | [] => .ok []
  | i :: is =>
    match cur.fields[i]? with
    | none => .panic
    | some (.fixed f) => do
      let rest ← discriminantFields cur is
      .ok ((.fixed f, true) :: rest)
    | some (.array _) => .panic
    | some (.struct n r l) => do
      let rest ← discriminantFields r is
      .ok ((.struct n r l, false) :: rest)

/-- `get_discriminant_path` (`gen/rust/union.rs` 45-51). -/
def discriminantPath (un : Union) : G Bytes := do
  let fields ← discriminantFields un.discriminant.root un.discriminant.indexList
  joinMap b!"." (fun (f : SField × Bool) =>
    .ok (if f.2 then b!"get_raw_" ++ Name.utf8 f.1.name ++ b!"()"
      else b!"get_" ++ Name.utf8 f.1.name ++ b!"()")) fields

/-- `get_discriminant_path_mut` (`gen/rust/union.rs` 53-59). -/
def discriminantPathMut (un : Union) : G Bytes := do
  let fields ← discriminantFields un.discriminant.root un.discriminant.indexList
  joinMap b!"." (fun (f : SField × Bool) =>
    .ok (if f.2 then b!"set_raw_" ++ Name.utf8 f.1.name
      else b!"get_" ++ Name.utf8 f.1.name ++ b!"_mut()")) fields

/-- `gen_union_from_slice_impl` (`gen/rust/union.rs` 61-80). -/
def unionFromSlice (un : Union) (template : Template Fn) : G Bytes := do
  let cases ← joinMap [] (fun case : UCase =>
    let scope := (template.scope.var b!"name" (Name.utf8 case.name)).var b!"case" (display case.case)
    match case.itemType with
    | none => unwrap (scope.render lib.run b!"from_slice.none" [b!"case"])
    | some itemType =>
      unwrap ((scope.var b!"type_name" (pathOf paths (referencedName itemType))).render lib.run
        b!"from_slice.generics" [b!"case"])) un.cases
  let scope := template.scope.var b!"cases" cases
  let scope ←
    if unionGenerics un ≠ [] then
      unwrap (scope.renderToVar lib.run b!"from_slice" [b!"generics"] b!"fragment")
    else unwrap (scope.renderToVar lib.run b!"from_slice" [b!"none"] b!"fragment")
  unwrap (scope.render lib.run b!"" [b!"from_slice"])

/-- `gen_union_write_to_impl` (`gen/rust/union.rs` 82-100).  `filter_map` drops the cases without
content; they contribute the empty string here, joined by the empty separator. -/
def unionWriteTo (un : Union) (template : Template Fn) : G Bytes := do
  let scope := template.scope
  let scope ←
    if unionGenerics un ≠ [] then do
      let cases ← joinMap [] (fun case : UCase =>
        let scope := (template.scope.var b!"name" (Name.utf8 case.name)).var b!"case"
          (display case.case)
        match case.itemType with
        | none => .ok []
        | some itemType =>
          unwrap ((scope.var b!"type_name" (pathOf paths (referencedName itemType))).render lib.run
            b!"write_to.generics" [b!"case"])) un.cases
      unwrap ((scope.var b!"cases" cases).renderToVar lib.run b!"write_to" [b!"generics"] b!"fragment")
    else unwrap (scope.renderToVar lib.run b!"write_to" [b!"none"] b!"fragment")
  unwrap (scope.render lib.run b!"" [b!"write_to"])

/-- `gen_union_set_discriminant` (`gen/rust/union.rs` 102-112). -/
def unionSetDiscriminant (un : Union) (template : Template Fn) : G Bytes := do
  let cases ← joinMap [] (fun case : UCase =>
    let scope := (template.scope.var b!"name" (Name.utf8 case.name)).var b!"case" (display case.case)
    match case.itemType with
    | some _ => unwrap (scope.render lib.run b!"setter" [b!"ref"])
    | none => unwrap (scope.render lib.run b!"setter" [b!"none"])) un.cases
  unwrap ((template.scope.var b!"cases" cases).render lib.run b!"" [b!"setter"])

/-- `gen_union_as_getters` (`gen/rust/union.rs` 114-127). -/
def unionGetters (un : Union) (template : Template Fn) : G Bytes := do
  let cases ← joinMap [] (fun case : UCase =>
    let scope := (template.scope.var b!"name_lower" ((Name.utf8 case.name).map asciiLower)).var
      b!"name" (Name.utf8 case.name)
    match case.itemType with
    | some (.struct v) =>
      unwrap ((scope.var b!"type_name" (pathOf paths v.name)).render lib.run b!"getters" [b!"struct"])
    | some (.message v) =>
      unwrap ((scope.var b!"type_name" (pathOf paths v.name)).render lib.run b!"getters" [b!"message"])
    | none => unwrap (scope.render lib.run b!"getters" [b!"none"])) un.cases
  unwrap ((template.scope.var b!"cases" cases).render lib.run b!"" [b!"getters"])

/-- `gen_union_decl` (`gen/rust/union.rs` 129-151). -/
def unionDecl (un : Union) : G Bytes := do
  let template ← unwrap (Template.compile Tmpl.rustUnion)
  let pathMut ← discriminantPathMut un
  let path ← discriminantPath un
  let template := ((((template.var b!"union_name" (Name.utf8 un.name)).var b!"generics"
    (unionGenerics un)).var b!"discriminant_path_mut" pathMut).var b!"discriminant_path" path).var
    b!"discriminant_type" (pathOf paths un.discriminant.root.name)
  let cases ← joinMap [] (fun case : UCase =>
    let scope := template.scope.var b!"name" (Name.utf8 case.name)
    match case.itemType with
    | none => unwrap (scope.render lib.run b!"decl" [b!"none"])
    | some (.struct v) =>
      unwrap ((scope.var b!"type_name" (pathOf paths v.name)).render lib.run b!"decl" [b!"struct"])
    | some (.message v) =>
      unwrap ((scope.var b!"type_name" (pathOf paths v.name)).render lib.run b!"decl" [b!"message"]))
    un.cases
  let code ← unwrap ((template.scope.var b!"cases" cases).render lib.run b!"" [b!"decl"])
  let a ← unionFromSlice lib paths un template
  let b ← unionWriteTo lib paths un template
  let c ← unionSetDiscriminant lib un template
  let d ← unionGetters lib paths un template
  .ok (code ++ a ++ b ++ c ++ d)

/-- `gen_message_array_type_decls` (`gen/rust/message.rs` 39-54): the template's variables persist
from one field to the next, but each rendered declaration sets those it uses. -/
def messageArrayTypeDecls (msg : Message) : G Bytes := do
  let template ← unwrap (Template.compile Tmpl.rustMessageExt)
  let template := template.var b!"msg_name" (Name.utf8 msg.name)
  joinMap [] (fun field : MField =>
    let template := template.var b!"name" (Name.utf8 field.name)
    match field.ty with
    | .array ty s =>
      unwrap (((template.var b!"item_type" (pathOf paths s.name)).var b!"codec"
        (valueType field.endian ty)).render lib.run b!"" [b!"decl_array"])
    | .list ty m =>
      unwrap (((template.var b!"item_type" (pathOf paths m.name)).var b!"codec"
        (valueType field.endian ty)).render lib.run b!"" [b!"decl_list"])
    | _ => .ok []) msg.fields

/-- `gen_message_decl` (`gen/rust/message.rs` 56-62). -/
def messageDecl (msg : Message) : G Bytes := do
  let code ← Code.messageDecl lib utils paths Tmpl.rustMessage msg
  let ext ← messageArrayTypeDecls lib paths msg
  .ok (code ++ b!"\n\n" ++ ext ++ b!"\n")

/-- `gen_message_from_slice_impl` (`gen/rust/message_from_slice.rs` 34-38). -/
def messageFromSlice (msg : Message) : G Bytes :=
  Code.messageFromSlice lib utils paths emb Tmpl.rustMessageFromSlice msg

/-- `gen_message_write_impl` (`gen/rust/message_write.rs` 34-38). -/
def messageWrite (msg : Message) : G Bytes :=
  Code.messageWrite lib utils paths emb Tmpl.rustMessageWrite msg

/-- `gen_message_offset_field` (`gen/rust/message_offsets.rs` 38-51). -/
def offsetField (template : Template Fn) (field : MField) : G Bytes :=
  let scope := template.scope.var b!"name" (Name.utf8 field.name)
  match field.ty with
  | .ref (.message v) =>
    let scope := scope.var b!"type_name" (pathOf paths v.name)
    if field.optional then
      unwrap (scope.render lib.run b!"decl" [b!"field", b!"msg_optional"])
    else unwrap (scope.render lib.run b!"decl" [b!"field", b!"msg"])
  | _ => unwrap (scope.render lib.run b!"decl" [b!"field"])

/-- `gen_message_offsets_decl` (`gen/rust/message_offsets.rs` 53-63). -/
def messageOffsets (msg : Message) : G Bytes := do
  let template ← unwrap (Template.compile Tmpl.rustMessageOffsets)
  let template := (template.var b!"msg_name" (Name.utf8 msg.name)).var b!"generics" (generics msg)
  let fields ← joinMap [] (offsetField lib paths template) msg.fields
  let template := template.var b!"fields" fields
  let code ← unwrap (template.render lib.run b!"" [b!"decl"])
  let impl ← Code.fromSliceImpl lib utils paths emb msg template
  .ok (code ++ b!"\n" ++ impl)

/-- `GeneratorRust::generate` (`gen/rust/mod.rs` 62-79); it never returns an error. -/
def generate (proto : Protocol) : G (List File) := do
  let paths := proto.typePathByName
  let messages ← joinMap b!"\n" (messageDecl lib paths) proto.messages
  let fromSlice ← joinMap b!"\n" (messageFromSlice lib paths emb) proto.messages
  let write ← joinMap b!"\n" (messageWrite lib paths emb) proto.messages
  let structures ← joinMap b!"\n" (structureDecl lib p paths) proto.structs
  let enums ← joinMap b!"\n" (enumDecl lib) proto.enums
  let unions ← joinMap b!"\n" (unionDecl lib paths) proto.unions
  let offsets ← joinMap b!"\n" (messageOffsets lib paths emb) proto.messages
  .ok [⟨b!"messages.rs", messages, .message⟩,
    ⟨b!"messages_from_slice.rs", fromSlice, .messageReading⟩,
    ⟨b!"messages_write.rs", write, .messageWriting⟩,
    ⟨b!"messages_offsets.rs", offsets, .messageReading⟩,
    ⟨b!"structures.rs", structures, .structure⟩,
    ⟨b!"enums.rs", enums, .enum⟩,
    ⟨b!"unions.rs", unions, .union⟩]

/-- The loop of `generate_umbrella` (`gen/rust/mod.rs` 83-85). -/
def umbrellaLines : List Bytes → Bytes
  | [] => []
  | file :: files => b!"include!(" ++ lib.debugPath file ++ b!");\n" ++ umbrellaLines files

/-- `GeneratorRust::generate_umbrella` (`gen/rust/mod.rs` 81-88). -/
def umbrella (protoName : Bytes) (files : List Bytes) : Bytes :=
  b!"pub mod " ++ protoName ++ b!" {\n" ++ umbrellaLines lib files ++ b!"}\n"

/-- `GeneratorRust` (`gen/rust/mod.rs` 57-89). -/
def generator : Generator where
  generate proto := (match generate lib p emb proto with
    | .ok files => .ok files
    | _ => .panic)
  umbrella name files := .ok (umbrella lib name files)

end Proto.Rust
