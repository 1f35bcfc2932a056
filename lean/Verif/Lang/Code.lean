import Verif.Lang.Eval

/-!
# The generated functions, as programs
-/

namespace Proto.Rs

/-- Identifiers of the templates.  For example `gen/rust/message.from_slice.template` 6. -/
def id (s : String) : Name := s.toList

section
variable (paths : List (Name × Name))

/-- The type decoding (`readSized`: lists with a total size) or encoding a field, before `Optional`.
`gen/base/message_from_slice.rs` 44-78. -/
def tyOf (sized : Bool) (e : Endian) : MFieldTy → Ty
  | .fixed ty => .value e ty
  | .ref (.struct s) => .path (pathOf paths s.name)
  | .ref (.message m) => .path (pathOf paths m.name)
  | .nullTerminatedString => .nullTerminated
  | .varcharString ty => .varchar e ty
  | .array ty s => .array e ty (pathOf paths s.name)
  | .union u _ _ => .path (pathOf paths u.name)
  | .list ty m => if sized then .list e ty (pathOf paths m.name) else .unsized e ty (pathOf paths m.name)
  | .payload => .buffer

/-- The type decoding or encoding a field.  `gen/base/message_from_slice.rs` 36-42. -/
def codecOf (sized : Bool) (f : MField) : Ty :=
  if f.optional then .optional (tyOf paths sized f.endian f.ty) else tyOf paths sized f.endian f.ty

/-- `x_msg`.  `gen/rust/message.from_slice.template` 9. -/
def msgVar (f : MField) : Name := suffixed f.name "_msg"

/-- `x_offsets`.  `gen/rust/message.offsets.template` 38. -/
def offVar (f : MField) : Name := suffixed f.name "_offsets"

/-- `&slice[byte_offset..]`.  `gen/rust/message.from_slice.template` 9. -/
def restE : Expr := .tail (.var (id "slice")) (.var (id "byte_offset"))

/-- The call decoding a field.  `gen/rust/message.from_slice.template` 9, 19. -/
def callOf (sized : Bool) (f : MField) : Expr :=
  match f.ty with
  | .union _ on _ => .try (.call2 (codecOf paths sized f) .fromSlice restE (.ref (.var on)))
  | _ => .try (.call1 (codecOf paths sized f) .fromSlice restE)

/-- The statements decoding a field.  `gen/rust/message.from_slice.template` 8-22. -/
def decodeField (sized : Bool) (f : MField) : List Stmt :=
  [ .let (msgVar f) (callOf paths sized f),
    .add (id "byte_offset") (.method (.var (msgVar f)) (id "size")),
    .let f.name (.method (.var (msgVar f)) (id "into_inner")) ]

/-- `from_slice` of a message.  `gen/rust/message.from_slice.template` 5-30. -/
def decoder (sized : Bool) (m : Message) : Body :=
  { stmts := .letUsize (id "byte_offset") (.nat 0) :: m.fields.flatMap (decodeField paths sized) ++
      [.blank, .let (id "data") (.record m.name (m.fields.map MField.name))]
    tail := .expr (.ok (.message (.var (id "byte_offset")) (.var (id "data")))) }

/-- The statements decoding a field and recording its range.  `gen/rust/message.offsets.template` 26-47.
-/
def decodeFieldOff (sized : Bool) (f : MField) : List Stmt :=
  match f.ty with
  | .ref (.message _) =>
    [ .let (msgVar f) (.try (.call1 (codecOf paths sized f) .fromSliceWithOffsets restE)),
      .setRange (id "offsets") f.name true (.var (id "byte_offset")),
      .add (id "byte_offset") (.method (.var (msgVar f)) (id "size")),
      .setRange (id "offsets") f.name false (.var (id "byte_offset")),
      .letPair f.name (offVar f) (.method (.var (msgVar f)) (id "into_inner")),
      .set (id "offsets") (offVar f) (.var (offVar f)) ]
  | _ =>
    [ .let (msgVar f) (callOf paths sized f),
      .setRange (id "offsets") f.name true (.var (id "byte_offset")),
      .add (id "byte_offset") (.method (.var (msgVar f)) (id "size")),
      .setRange (id "offsets") f.name false (.var (id "byte_offset")),
      .let f.name (.method (.var (msgVar f)) (id "into_inner")) ]

/-- `from_slice_with_offsets` of a message.  `gen/rust/message.offsets.template` 21-55. -/
def offsetsDecoder (sized : Bool) (m : Message) : Body :=
  { stmts := .use b!"bp3d_proto::message::FromSlice" :: .letMut (id "offsets") .offsets ::
      .letUsize (id "byte_offset") (.nat 0) :: m.fields.flatMap (decodeFieldOff paths sized) ++
      [.blank, .let (id "data") (.record m.name (m.fields.map MField.name))]
    tail := .expr (.ok (.message (.var (id "byte_offset"))
      (.pair (.var (id "data")) (.var (id "offsets"))))) }

/-- `&input.x`.  `gen/rust/message.write.template` 8. -/
def inputE (x : Name) : Expr := .ref (.field (.var (id "input")) x)

/-- `&mut out`.  `gen/rust/message.write.template` 8. -/
def outE : Expr := .refMut (.var (id "out"))

/-- The statement encoding a field.  `gen/rust/message.write.template` 7-12. -/
def encodeField (f : MField) : Stmt :=
  match f.ty with
  | .union _ on _ =>
    .expr (.try (.call3 (codecOf paths true f) .writeTo (inputE f.name) (inputE on) outE))
  | _ => .expr (.try (.call2 (codecOf paths true f) .writeTo (inputE f.name) outE))

/-- `write_to` of a message.  `gen/rust/message.write.template` 5-14. -/
def encoder (m : Message) : Body :=
  { stmts := m.fields.map (encodeField paths) ++ [.blank]
    tail := .expr (.ok .unit) }

end

/-! ## Unions -/

/-- `discriminant.get_a().get_raw_b()`.  `gen/rust/union.rs` 45-51. -/
def readE (names : List Name) (leaf : Name) : Expr :=
  .method (names.foldl (fun e n => .method e (id "get_" ++ n)) (.var (id "discriminant")))
    (id "get_raw_" ++ leaf)

/-- `discriminant.get_a_mut().set_raw_b(a)`.  `gen/rust/union.rs` 53-59. -/
def storeE (names : List Name) (leaf : Name) (a : Expr) : Expr :=
  .method1 (names.foldl (fun e n => .method e (id "get_" ++ n ++ id "_mut")) (.var (id "discriminant")))
    (id "set_raw_" ++ leaf) a

section
variable (paths : List (Name × Name))

/-- The path of what a case contains.  `gen/rust/union.rs` 67, 91. -/
def pathTy : Referenced → Ty
  | .struct s => .path (pathOf paths s.name)
  | .message m => .path (pathOf paths m.name)

/-- The last arm of `from_slice`.  `gen/rust/union.template` 105, 117. -/
def unknownArm : Arm := ⟨.wild, .errUnion (.var (id "discriminant"))⟩

/-- The arms of `from_slice`.  `gen/rust/union.template` 102-104, 114-116. -/
def decodeArm (k : UCase) : Arm :=
  ⟨.nat k.case, match k.itemType with
    | none => .ok (.message (.nat 0) (.unitCase k.name))
    | some r => .mapCase (.call1 (pathTy paths r) .fromSlice (.var (id "slice"))) k.name⟩

/-- Whether a case of the union has content.  `gen/rust/union.rs` 37-43. -/
def hasContent (u : Union) : Bool := u.cases.any fun k => k.itemType.isSome

/-- `from_slice` of a union.  `gen/rust/union.template` 93-122. -/
def unionDecoder (u : Union) (names : List Name) (leaf : Name) : Body :=
  { stmts := (if hasContent u then [.use b!"bp3d_proto::message::FromSlice"] else []) ++
      [.let (id "discriminant") (readE names leaf)]
    tail := .match (.var (id "discriminant")) (u.cases.map (decodeArm paths)) unknownArm }

/-- The arms of `write_to`.  `gen/rust/union.template` 73-79. -/
def encodeArm (k : UCase) : List Arm :=
  match k.itemType with
  | none => []
  | some r => [⟨.bind k.name (id "v"), .ifEq (.var (id "discriminant")) (.nat k.case)
      (.try (.call2 (pathTy paths r) .writeTo (.var (id "v")) outE))
      (.ret (.errUnion (.var (id "discriminant"))))⟩]

/-- `write_to` of a union.  `gen/rust/union.template` 64-91. -/
def unionEncoder (u : Union) (names : List Name) (leaf : Name) : Body :=
  if hasContent u then
    { stmts := [ .use b!"bp3d_proto::message::WriteTo", .let (id "discriminant") (readE names leaf),
        .match (.var (id "input")) (u.cases.flatMap (encodeArm paths)) ⟨.wild, .unit⟩ ]
      tail := .expr (.ok .unit) }
  else { stmts := [], tail := .expr (.ok .unit) }

/-- The arms of `set_discriminant`.  `gen/rust/union.template` 52-57. -/
def storeArm (k : UCase) : Arm :=
  ⟨match k.itemType with
    | none => .unit k.name
    | some _ => .any k.name, .nat k.case⟩

/-- `set_discriminant` of a union.  `gen/rust/union.template` 47-62. -/
def unionStore (u : Union) (names : List Name) (leaf : Name) : Body :=
  { stmts := [ .letMatch (id "discriminant_value") (.var (id "self")) (u.cases.map storeArm),
      .expr (storeE names leaf (.var (id "discriminant_value"))) ]
    tail := .none }

/-- `as_x` or `is_x` of a union.  `gen/rust/union.template` 17-45. -/
def caseAccessor (k : UCase) : Body :=
  { stmts := []
    tail := match k.itemType with
      | none => .match2 (.var (id "self")) ⟨.unit k.name, .bool true⟩ ⟨.wild, .bool false⟩
      | some _ => .match2 (.var (id "self")) ⟨.bind k.name (id "v"), .some (.var (id "v"))⟩
        ⟨.wild, .none⟩ }

end

end Proto.Rs
