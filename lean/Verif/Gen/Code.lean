import Verif.Gen.Driver
import Verif.Gen.Template
import Verif.Gen.Templates

/-!
# `compiler/src/gen/base`: the code generators, independently of the target language

A trait of static functions (`Utilities`) is a record of them.  `Result::unwrap` panics on an error.
Strings are bytes.
-/

namespace Proto

/-- Code that only returns or panics.  The functions of `gen/rust/*.rs` return a `String`, for example
`structure.rs` 37. -/
abbrev G (α : Type) := Res Empty α

/-- `Result::unwrap`.  For example `gen/rust/union.rs` 79. -/
def unwrap : Res ε α → G α
  | .ok a => .ok a
  | .err _ => .panic
  | .panic => .panic

/-- Library functions whose definition is not modelled: case conversion, the `Debug` format of an
`f64` and of a path.  Everything is stated for all of them.  `gen/template.rs` 161-162,
`gen/rust/structure.rs`, `gen/rust/mod.rs`. -/
structure Lib where
  caseMap : CaseMap
  debugF64 : Rat → Bytes
  debugPath : Bytes → Bytes

/-- Calling a template function.  `gen/template.rs` 131. -/
def Lib.run (lib : Lib) : Fn → Bytes → Res TError Bytes := Fn.run lib.caseMap

/-- `Display` of an unsigned integer.  `var_d` of `gen/template.rs`, for example at `gen/rust/union.rs`
64. -/
def display (n : Nat) : Bytes := Name.utf8 (Nat.toDigits 10 n)

/-- `.iter().map(f).join(sep)` (`itertools`).  For example `gen/rust/mod.rs` 63-69. -/
def joinMap (sep : Bytes) (f : α → G Bytes) : List α → G Bytes
  | [] => .ok []
  | [x] => f x
  | x :: y :: ys => do
    let a ← f x
    let b ← joinMap sep f (y :: ys)
    .ok (a ++ sep ++ b)

/-- `TypePathMap::get` (`compiler/util.rs` 54-59), as bytes. -/
def pathOf (paths : List (Name × Name)) (name : Name) : Bytes := Name.utf8 (typePath paths name)

/-- `gen/base/structure.rs` 35-42 (`Utilities`). -/
structure StructUtils where
  fieldType : FixedTy → Bytes
  functionName : FixedField → G Bytes
  functionNameMut : FixedField → G Bytes
  bitCodecInline : Endian → Bytes
  byteCodecInline : Endian → Bytes
  byteCodec : Endian → Bytes

/-- `FixedArrayField::item_bit_size` (`compiler/structure.rs` 245-247): dividing by zero panics. -/
def ArrayField.itemBits (f : ArrayField) : G Nat :=
  if f.arrayLen = 0 then .panic else .ok (f.loc.bitSize / f.arrayLen)

namespace Code

variable (lib : Lib) (p : Profile) (u : StructUtils) (paths : List (Name × Name))

/-- `gen_field_view_getter` (`gen/base/structure.rs` 108-130). -/
def fieldViewGetter (field : FixedField) (scope : Scope Fn) : G Bytes :=
  match field.view with
  | .float a b _ _ =>
    unwrap ((((scope.var b!"view_type" (u.fieldType field.ty)).var b!"a" (lib.debugF64 a)).var
      b!"b" (lib.debugF64 b)).render lib.run b!"getters" [b!"view_float"])
  | .enum e =>
    unwrap (((scope.var b!"view_type" (pathOf paths e.name)).var
      b!"enum_largest" (display e.largest)).render lib.run b!"getters" [b!"view_enum"])
  | .transmute => do
    let scope := scope.var b!"view_type" (u.fieldType field.ty)
    let scope ←
      if field.ty = .bool then
        unwrap (scope.renderToVar lib.run b!"getters.view_transmute" [b!"bool"] b!"fragment")
      else
        unwrap (scope.renderToVar lib.run b!"getters.view_transmute" [b!"other"] b!"fragment")
    unwrap (scope.render lib.run b!"getters" [b!"view_transmute"])
  | .signedCast maxPositive =>
    unwrap (((scope.var b!"view_type" (u.fieldType field.ty)).var
      b!"max_positive" (display maxPositive)).render lib.run b!"getters" [b!"view_signed"])
  | .none =>
    unwrap ((scope.var b!"view_type" (u.fieldType field.ty)).render lib.run b!"getters"
      [b!"view_none"])

/-- `gen_field_view_setter` (`gen/base/structure.rs` 132-152). -/
def fieldViewSetter (field : FixedField) (scope : Scope Fn) : G Bytes :=
  match field.view with
  | .float _ _ aInv bInv =>
    unwrap ((((scope.var b!"view_type" (u.fieldType field.ty)).var b!"a_inv"
      (lib.debugF64 aInv)).var b!"b_inv" (lib.debugF64 bInv)).render lib.run b!"setters"
      [b!"view_float"])
  | .enum e =>
    unwrap (((scope.var b!"view_type" (pathOf paths e.name)).var
      b!"enum_largest" (display e.largest)).render lib.run b!"setters" [b!"view_enum"])
  | .transmute | .signedCast _ => do
    let scope := scope.var b!"view_type" (u.fieldType field.ty)
    let scope ←
      if field.ty = .bool then
        unwrap (scope.renderToVar lib.run b!"setters.view_transmute" [b!"bool"] b!"fragment")
      else
        unwrap (scope.renderToVar lib.run b!"setters.view_transmute" [b!"other"] b!"fragment")
    unwrap (scope.render lib.run b!"setters" [b!"view_transmute"])
  | .none =>
    unwrap ((scope.var b!"view_type" (u.fieldType field.ty)).render lib.run b!"setters"
      [b!"view_none"])

/-- `gen_field_getter` (`gen/base/structure.rs` 44-74). -/
def fieldGetter (template : Template Fn) (field : SField) : G Bytes := do
  let last ← addU p usizeBits field.loc.byteOffset field.loc.byteSize
  let scope := ((template.scope.var b!"start" (display field.loc.byteOffset)).var
    b!"end" (display last)).var b!"name" (Name.utf8 field.name)
  match field with
  | .fixed v => do
    let rawTy ← unwrap v.loc.unsignedTy
    let functionName ← u.functionName v
    let scope := (scope.var b!"raw_type" (u.fieldType rawTy)).var b!"function_name" functionName
    let scope ←
      if v.loc.bitSize % 8 ≠ 0 then
        unwrap ((((scope.var b!"codec" (u.bitCodecInline v.endian)).var
          b!"bit_offset" (display v.loc.bitOffset)).var
          b!"bit_size" (display v.loc.bitSize)).renderToVar lib.run b!"getters.fixed" [b!"bit"]
          b!"fragment")
      else
        unwrap ((scope.var b!"codec" (u.byteCodecInline v.endian)).renderToVar lib.run
          b!"getters.fixed" [b!"byte"] b!"fragment")
    let code ← unwrap (scope.render lib.run b!"getters" [b!"fixed"])
    let view ← fieldViewGetter lib u paths v scope
    .ok (code ++ view)
  | .array v => do
    let bits ← v.itemBits
    unwrap ((((scope.var b!"raw_type" (u.fieldType v.ty)).var
      b!"codec" (u.byteCodec v.endian)).var b!"bit_size" (display bits)).render lib.run
      b!"getters" [b!"array"])
  | .struct _ r _ =>
    unwrap ((scope.var b!"type_name" (pathOf paths r.name)).render lib.run b!"getters" [b!"struct"])

/-- `gen_field_setter` (`gen/base/structure.rs` 76-106). -/
def fieldSetter (template : Template Fn) (field : SField) : G Bytes := do
  let last ← addU p usizeBits field.loc.byteOffset field.loc.byteSize
  let scope := ((template.scope.var b!"start" (display field.loc.byteOffset)).var
    b!"end" (display last)).var b!"name" (Name.utf8 field.name)
  match field with
  | .fixed v => do
    let rawTy ← unwrap v.loc.unsignedTy
    let functionName ← u.functionNameMut v
    let scope := (scope.var b!"raw_type" (u.fieldType rawTy)).var b!"function_name" functionName
    let scope ←
      if v.loc.bitSize % 8 ≠ 0 then
        unwrap ((((scope.var b!"codec" (u.bitCodecInline v.endian)).var
          b!"bit_offset" (display v.loc.bitOffset)).var
          b!"bit_size" (display v.loc.bitSize)).renderToVar lib.run b!"setters.fixed" [b!"bit"]
          b!"fragment")
      else
        unwrap ((scope.var b!"codec" (u.byteCodecInline v.endian)).renderToVar lib.run
          b!"setters.fixed" [b!"byte"] b!"fragment")
    let code ← unwrap (scope.render lib.run b!"setters" [b!"fixed"])
    let view ← fieldViewSetter lib u paths v scope
    .ok (code ++ view)
  | .array v => do
    let bits ← v.itemBits
    unwrap ((((scope.var b!"raw_type" (u.fieldType v.ty)).var
      b!"codec" (u.byteCodec v.endian)).var b!"bit_size" (display bits)).render lib.run
      b!"setters" [b!"array"])
  | .struct _ r _ =>
    unwrap ((scope.var b!"type_name" (pathOf paths r.name)).render lib.run b!"setters" [b!"struct"])

/-- `gen_structure_getters` (`gen/base/structure.rs` 154-158). -/
def structureGetters (s : Structure) (template : Template Fn) : G Bytes := do
  let fields ← joinMap [] (fieldGetter lib p u paths template) s.fields
  unwrap ((template.scope.var b!"fields" fields).render lib.run b!"" [b!"getters"])

/-- `gen_structure_setters` (`gen/base/structure.rs` 160-164). -/
def structureSetters (s : Structure) (template : Template Fn) : G Bytes := do
  let fields ← joinMap [] (fieldSetter lib p u paths template) s.fields
  unwrap ((template.scope.var b!"fields" fields).render lib.run b!"" [b!"setters"])

/-- `generate` (`gen/base/structure.rs` 166-180). -/
def structureDecl (templateText fieldTemplateText : Bytes) (s : Structure) : G Bytes := do
  let template ← unwrap (Template.compile templateText)
  let fieldTemplate ← unwrap (Template.compile fieldTemplateText)
  let fieldTemplate := fieldTemplate.var b!"struct_name" (Name.utf8 s.name)
  let template := (template.var b!"name" (Name.utf8 s.name)).var b!"byte_size" (display s.byteSize)
  let code ← unwrap (template.render lib.run b!""
    [b!"decl", b!"new", b!"fixed_size", b!"write_to", b!"from_slice"])
  let getters ← structureGetters lib p u paths s fieldTemplate
  let setters ← structureSetters lib p u paths s fieldTemplate
  .ok (code ++ getters ++ setters)

end Code

/-- `gen/base/message.rs` 36-39. -/
inductive StringType where
  | varchar
  | nullTerminated
deriving DecidableEq

/-- `gen/base/message.rs` 41-54 (`Utilities`). -/
structure MsgUtils extends StructUtils where
  generics : Message → Bytes
  valueType : Endian → FixedTy → Bytes
  valueTypeInline : Endian → FixedTy → Bytes
  optionType : Bytes → Bytes
  optionTypeInline : Bytes → Bytes
  stringType : StringType → Bytes
  stringTypeInline : StringType → Bytes
  payloadType : Bytes
  payloadTypeInline : Bytes
  structRefType : Bytes → Bytes
  messageRefType : Bytes → Bytes
  unionRefType : Bytes → Bytes

namespace Code

variable (lib : Lib) (u : MsgUtils) (paths : List (Name × Name)) (emb : Nat → Bool)

/-- `gen_field_decl` (`gen/base/message.rs` 56-82). -/
def fieldDecl (template : Template Fn) (field : MField) : G Bytes := do
  let msgType ← match field.ty with
    | .fixed ty => .ok (u.fieldType ty)
    | .ref (.struct s) => .ok (u.structRefType (pathOf paths s.name))
    | .ref (.message m) => .ok (u.messageRefType (pathOf paths m.name))
    | .nullTerminatedString => .ok (u.stringType .nullTerminated)
    | .varcharString _ => .ok (u.stringType .varchar)
    | .array ty s =>
      unwrap (((template.scope.var b!"codec" (u.valueType field.endian ty)).var
        b!"type_name" (pathOf paths s.name)).render lib.run b!"" [b!"array"])
    | .union un _ _ => .ok (u.unionRefType (pathOf paths un.name))
    | .list ty m =>
      unwrap (((template.scope.var b!"codec" (u.valueType field.endian ty)).var
        b!"type_name" (pathOf paths m.name)).render lib.run b!"" [b!"list"])
    | .payload => .ok u.payloadType
  let msgType := if field.optional then u.optionType msgType else msgType
  unwrap (((template.scope.var b!"name" (Name.utf8 field.name)).var b!"type" msgType).render lib.run
    b!"decl" [b!"field"])

/-- `generate` (`gen/base/message.rs` 84-91). -/
def messageDecl (templateText : Bytes) (msg : Message) : G Bytes := do
  let template ← unwrap (Template.compile templateText)
  let template := (template.var b!"msg_name" (Name.utf8 msg.name)).var b!"generics" (u.generics msg)
  let fields ← joinMap [] (fieldDecl lib u paths template) msg.fields
  unwrap ((template.scope.var b!"fields" fields).render lib.run b!"" [b!"decl"])

/-- `gen_optional` (`gen/base/message_from_slice.rs` 36-42). -/
def optionalType (optional : Bool) (typeName : Bytes) : Bytes :=
  if optional then u.optionTypeInline typeName else typeName

/-- `generate_field_type_inline` (`gen/base/message_from_slice.rs` 44-78). -/
def fieldTypeInline (msg : Message) (template : Template Fn) (field : MField) :
    G (Bytes × Option Bytes) :=
  match field.ty with
  | .fixed ty => .ok (optionalType u field.optional (u.valueTypeInline field.endian ty), none)
  | .ref (.struct s) => .ok (optionalType u field.optional (pathOf paths s.name), none)
  | .ref (.message m) => .ok (optionalType u field.optional (pathOf paths m.name), none)
  | .nullTerminatedString =>
    .ok (optionalType u field.optional (u.stringTypeInline .nullTerminated), none)
  | .varcharString ty => do
    let t ← unwrap ((template.scope.var b!"codec" (u.valueType field.endian ty)).render lib.run b!""
      [b!"varchar"])
    .ok (optionalType u field.optional t, none)
  | .array ty s => do
    let t ← unwrap (((template.scope.var b!"codec" (u.valueType field.endian ty)).var
      b!"type_name" (pathOf paths s.name)).render lib.run b!"" [b!"array"])
    .ok (optionalType u field.optional t, none)
  | .union un onName _ =>
    .ok (optionalType u field.optional (pathOf paths un.name), some (Name.utf8 onName))
  | .list ty m =>
    if emb msg.id then do
      let t ← unwrap (((template.scope.var b!"codec" (u.valueType field.endian ty)).var
        b!"type_name" (pathOf paths m.name)).render lib.run b!"" [b!"list"])
      .ok (optionalType u field.optional t, none)
    else do
      let t ← unwrap (((template.scope.var b!"codec" (u.valueType field.endian ty)).var
        b!"type_name" (pathOf paths m.name)).render lib.run b!"" [b!"unsized"])
      .ok (optionalType u field.optional t, none)
  | .payload => .ok (optionalType u field.optional u.payloadTypeInline, none)

/-- `gen_field_from_slice_impl` (`gen/base/message_from_slice.rs` 80-95). -/
def fieldFromSlice (msg : Message) (template : Template Fn) (field : MField) : G Bytes := do
  let scope := template.scope.var b!"name" (Name.utf8 field.name)
  let (msgType, union) ← fieldTypeInline lib u paths emb msg template field
  match union with
  | some onName =>
    unwrap (((scope.var b!"on_name" onName).var b!"type" msgType).render lib.run b!"impl"
      [b!"field_union"])
  | none =>
    if field.ty.isMessageReference then
      unwrap ((scope.var b!"type" msgType).render lib.run b!"impl" [b!"field_msg"])
    else
      unwrap ((scope.var b!"type" msgType).render lib.run b!"impl" [b!"field"])

/-- `generate_from_slice_impl` (`gen/base/message_from_slice.rs` 97-104). -/
def fromSliceImpl (msg : Message) (template : Template Fn) : G Bytes := do
  let fields ← joinMap [] (fieldFromSlice lib u paths emb msg template) msg.fields
  let fieldNames ← joinMap [] (fun field : MField =>
    unwrap ((template.scope.var b!"name" (Name.utf8 field.name)).render lib.run b!"impl"
      [b!"field_name"])) msg.fields
  unwrap (((template.scope.var b!"fields" fields).var b!"field_names" fieldNames).render lib.run b!""
    [b!"impl"])

/-- `generate` (`gen/base/message_from_slice.rs` 106-110). -/
def messageFromSlice (templateText : Bytes) (msg : Message) : G Bytes := do
  let template ← unwrap (Template.compile templateText)
  let template := (template.var b!"msg_name" (Name.utf8 msg.name)).var b!"generics" (u.generics msg)
  fromSliceImpl lib u paths emb msg template

/-- `gen_field_write_impl` (`gen/base/message_write.rs` 36-49). -/
def fieldWrite (msg : Message) (template : Template Fn) (field : MField) : G Bytes := do
  let scope := template.scope.var b!"name" (Name.utf8 field.name)
  let (msgType, union) ← fieldTypeInline lib u paths emb msg template field
  match union with
  | some onName =>
    unwrap (((scope.var b!"on_name" onName).var b!"type" msgType).render lib.run b!"impl"
      [b!"field_union"])
  | none => unwrap ((scope.var b!"type" msgType).render lib.run b!"impl" [b!"field"])

/-- `generate` (`gen/base/message_write.rs` 51-56). -/
def messageWrite (templateText : Bytes) (msg : Message) : G Bytes := do
  let template ← unwrap (Template.compile templateText)
  let template := (template.var b!"msg_name" (Name.utf8 msg.name)).var b!"generics" (u.generics msg)
  let fields ← joinMap [] (fieldWrite lib u paths emb msg template) msg.fields
  unwrap ((template.var b!"fields" fields).render lib.run b!"" [b!"impl"])

end Code

end Proto
