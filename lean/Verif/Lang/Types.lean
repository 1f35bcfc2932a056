import Verif.Spec.Rust
import Verif.Lang.Eval

/-!
# The types written in the generated message code

The Rust compiler has to find an implementation for every codec the generated code calls, and what a
codec yields has to be the type declared for the field.  Here are the type expressions the generator
writes, the types they stand for, and the implementations the runtime and the generated files provide.
-/

namespace Proto.Rs.Typ

open Proto Proto.Text

/-! ## Expressions -/

/-- What follows the path of a generated type: nothing, `<'a>` or `<&'a [u8]>`.
`gen/rust/message.rs` and `gen/rust/util.rs`. -/
inductive Args where
  | none
  | life
  | bytes

/-- Type expressions.  Arrays and lists are over `&'a [u8]`.  `gen/base/message_from_slice.rs` 44-78,
`gen/rust/message.rs` and `gen/rust/util.rs`. -/
inductive Expr where
  | prim (t : FixedTy)
  | str
  | bytes
  | option (t : Expr)
  | value (e : Endian) (t : FixedTy)
  | nullTerminated
  | varchar (len : Expr)
  | buffer
  | array (len item : Expr)
  | list (len item : Expr)
  | unsized (len item : Expr)
  | optional (t : Expr)
  | user (path : Bytes) (a : Args)

/-- Their text.  `gen/rust/message.rs` and `gen/rust/util.rs`. -/
def Args.print : Args → Bytes
  | .none => []
  | .life => b!"<'a>"
  | .bytes => b!"<&'a [u8]>"

/-- The text of a type expression, as an argument of another type or by itself.
`gen/base/message_from_slice.rs` 44-78, `gen/rust/message.rs` and `gen/rust/util.rs`. -/
def Expr.print (arg : Bool) : Expr → Bytes
  | .prim t => typeName t
  | .str => b!"&'a str"
  | .bytes => b!"&'a [u8]"
  | .option t => t!"Option<{t.print arg}>"
  | .value e t =>
    t!"bp3d_proto::message::util::Value{suffix e}{if arg then b!"" else b!"::"}<{typeName t}>"
  | .nullTerminated => b!"bp3d_proto::message::util::NullTerminatedString"
  | .varchar n => t!"bp3d_proto::message::util::VarcharString::<{n.print true}>
"
  | .buffer => b!"bp3d_proto::message::util::Buffer"
  | .array n t => t!"bp3d_proto::message::util::Array::<&'a [u8], {n.print true}, {t.print true}>
"
  | .list n t => t!"bp3d_proto::message::util::List::<&'a [u8], {n.print true}, {t.print true}>
"
  | .unsized n t => t!"bp3d_proto::message::util::list::Unsized::<{n.print true}, {t.print true}>
"
  | .optional t => t!"bp3d_proto::message::util::Optional::<{t.print false}>"
  | .user p a => p ++ a.print

/-- The codec of a field, before `Optional` (`compiler/src/gen/base/message_from_slice.rs` 44-78 with
`compiler/src/gen/rust/util.rs` and `message.{from_slice,write,offsets}.template`).  `list` is the codec of
lists. -/
def plainCodec (paths : List (Name × Name)) (list : Expr → Expr → Expr) (e : Endian) : MFieldTy → Expr
  | .fixed t => .value e t
  | .ref (.struct s) => .user (pathOf paths s.name) .none
  | .ref (.message m) => .user (pathOf paths m.name) .none
  | .nullTerminatedString => .nullTerminated
  | .varcharString t => .varchar (.value e t)
  | .array t s => .array (.value e t) (.user (pathOf paths s.name) .bytes)
  | .union u _ _ => .user (pathOf paths u.name) .none
  | .list t m => list (.value e t) (.user (pathOf paths m.name) .none)
  | .payload => .buffer

/-- The codec of a field (`compiler/src/gen/base/message_from_slice.rs` 36-42). -/
def codec (paths : List (Name × Name)) (list : Expr → Expr → Expr) (f : MField) : Expr :=
  if f.optional then .optional (plainCodec paths list f.endian f.ty)
  else plainCodec paths list f.endian f.ty

/-- The codec of lists in the decoders of a message: with the total size if the message is embedded
(`compiler/src/gen/base/message_from_slice.rs` 64-73). -/
def listCodec (embedded : Bool) : Expr → Expr → Expr := if embedded then .list else .unsized

/-- The declared type of a field, before `Option` (`compiler/src/gen/base/message.rs` 56-82,
`compiler/src/gen/rust/message.template`). -/
def plainType (paths : List (Name × Name)) (e : Endian) : MFieldTy → Expr
  | .fixed t => .prim t
  | .ref (.struct s) => .user (pathOf paths s.name) .bytes
  | .ref (.message m) => .user (pathOf paths m.name) .life
  | .nullTerminatedString => .str
  | .varcharString _ => .str
  | .array t s => .array (.value e t) (.user (pathOf paths s.name) .bytes)
  | .union u _ _ => .user (pathOf paths u.name) .life
  | .list t m => .list (.value e t) (.user (pathOf paths m.name) .life)
  | .payload => .bytes

/-- The declared type of a field (`compiler/src/gen/base/message.rs` 76-79). -/
def fieldType (paths : List (Name × Name)) (f : MField) : Expr :=
  if f.optional then .option (plainType paths f.endian f.ty) else plainType paths f.endian f.ty

/-! ## Types -/

/-- Types, lifetimes left out.  Structures and messages are told apart by their number.  Rust, not in
`/repo`; needed for the types of the runtime and of generated code. -/
inductive Ty where
  | prim (t : FixedTy)
  | str
  | bytes
  | option (t : Ty)
  | value (e : Endian) (t : FixedTy)
  | nullTerminated
  | varchar (len : Ty)
  | buffer
  | array (len item : Ty)
  | list (len item : Ty)
  | unsized (len item : Ty)
  | optional (t : Ty)
  | struct (id : Nat)
  | message (id : Nat)
  | union (u : Union)
  /-- `str` and `[u8]`, without a reference -/
  | unsizedStr
  | unsizedBytes
  /-- the structure of offsets of a message -/
  | offsets (id : Nat)

/-- The type an expression stands for.  Structures have one type parameter, messages and unions a
lifetime or no parameter (`compiler/src/gen/rust/{structure,message,union}.template`).  A lifetime may
be left out in the body of a function, the only place where the generator leaves it out; a type
parameter only in front of `::`. -/
def Expr.elab (items : Bytes → Option Item) : (front : Bool) → Expr → Option Ty
  | _, .prim t => some (.prim t)
  | _, .str => some .str
  | _, .bytes => some .bytes
  | _, .option t => (t.elab items false).map .option
  | _, .value e t => some (.value e t)
  | _, .nullTerminated => some .nullTerminated
  | _, .varchar n => (n.elab items false).map .varchar
  | _, .buffer => some .buffer
  | _, .array n t => (n.elab items false).bind fun n => (t.elab items false).map (.array n)
  | _, .list n t => (n.elab items false).bind fun n => (t.elab items false).map (.list n)
  | _, .unsized n t => (n.elab items false).bind fun n => (t.elab items false).map (.unsized n)
  | _, .optional t => (t.elab items false).map .optional
  | front, .user p a =>
    match items p, a with
    | some (.struct s), .bytes => some (.struct s.id)
    | some (.struct s), .none => if front then some (.struct s.id) else none
    | some (.message m), .life => if messageGenerics m = b!"<'a>" then some (.message m.id) else none
    | some (.message m), .none => some (.message m.id)
    | some (.union u), .life => if unionGenerics u = b!"<'a>" then some (.union u) else none
    | some (.union u), .none => some (.union u)
    | _, _ => none

/-! ## Implementations -/

/-- The numbers `bytesutil` reads and writes: at least the integers and floats.  Crate `bytesutil`, not
in `/repo`. -/
structure Bytesutil where
  reads : FixedTy → Prop
  writes : FixedTy → Prop
  numbers : ∀ t, t ≠ .bool → reads t ∧ writes t

/-- `runtime/src/util/scalar.rs` 48: `ToUsize`. -/
inductive ToUsize : Ty → Prop where
  | u8 : ToUsize (.prim .u8)
  | u16 : ToUsize (.prim .u16)
  | u32 : ToUsize (.prim .u32)
  | u64 : ToUsize (.prim .u64)

/-- Implementations of `FixedSize`: structures (`compiler/src/gen/rust/structure.template` 42-46). -/
inductive FixedSize : Ty → Prop where
  | struct : FixedSize (.struct i)

/-- Implementations of `FromSlice` with their `Output`: `runtime/src/message/util/common.rs` 36-37,
94-95, 117-118, 142-143, `string.rs` 36-37, 61-62, `array.rs` 112-113, `list.rs` 44-45, 131-132,
`compiler/src/gen/rust/structure.template` 59-61, `message.from_slice.template` 2-3. -/
inductive FromSlice (B : Bytesutil) : Ty → Ty → Prop where
  | value : B.reads t → FromSlice B (.value e t) (.prim t)
  | buffer : FromSlice B .buffer .bytes
  | nullTerminated : FromSlice B .nullTerminated .str
  | varchar : FromSlice B n o → ToUsize o → FromSlice B (.varchar n) .str
  | array : FromSlice B n o → ToUsize o → FixedSize t → FromSlice B t t →
      FromSlice B (.array n t) (.array n t)
  | list : FromSlice B n o → ToUsize o → FromSlice B t t → FromSlice B (.list n t) (.list n t)
  | unsized : FromSlice B n o → ToUsize o → FromSlice B (.unsized n t) (.list n t)
  | optional : FromSlice B t t → FromSlice B (.optional t) (.option t)
  | struct : FromSlice B (.struct i) (.struct i)
  | message : FromSlice B (.message i) (.message i)

/-- Implementations of `FromSliceWithOffsets` with their `Offsets`: `runtime/src/message/util/common.rs`
54-55, `compiler/src/gen/rust/message.offsets.template` 18-19. -/
inductive WithOffsets (B : Bytesutil) : Ty → Ty → Prop where
  | optional : FromSlice B t t → WithOffsets B t o → WithOffsets B (.optional t) (.option o)
  | message : WithOffsets B (.message i) (.offsets i)

/-- Implementations of `WriteTo` with their `Input`: `runtime/src/message/util/common.rs` 74-75,
108-109, 131-132, 150-151, `string.rs` 49-50, 73-74, `list_base.rs` 49-50 (for `Array` and `List`),
`compiler/src/gen/rust/structure.template` 48-50, `message.write.template` 2-3. -/
inductive WriteTo (B : Bytesutil) : Ty → Ty → Prop where
  | value : B.writes t → WriteTo B (.value e t) (.prim t)
  | buffer : WriteTo B .buffer .unsizedBytes
  | nullTerminated : WriteTo B .nullTerminated .unsizedStr
  | varchar : WriteTo B n o → ToUsize o → WriteTo B (.varchar n) .unsizedStr
  | array : WriteTo B n o → ToUsize o → WriteTo B (.array n t) (.array n t)
  | list : WriteTo B n o → ToUsize o → WriteTo B (.list n t) (.list n t)
  | optional : WriteTo B t t → WriteTo B (.optional t) (.option t)
  | struct : WriteTo B (.struct i) (.struct i)
  | message : WriteTo B (.message i) (.message i)

/-- A reference to the first type is accepted where one to the second is expected.  Rust, not in
`/repo`; needed for `gen/rust/message.write.template` 8, where `&input.x` is passed. -/
inductive Coerces : Ty → Ty → Prop where
  | same : Coerces t t
  | str : Coerces .str .unsizedStr
  | bytes : Coerces .bytes .unsizedBytes

/-- Types that are `Copy`, `Clone` and `Debug`: the derived implementations ask it of the type
arguments (`runtime/src/message/util/common.rs` 89-92, `array.rs` 37, `list.rs` 34; structures, messages
and unions derive the three). -/
inductive Plain : Ty → Prop where
  | prim : Plain (.prim t)
  | str : Plain .str
  | bytes : Plain .bytes
  | option : Plain t → Plain (.option t)
  | value : Plain (.value e t)
  | array : Plain n → Plain t → Plain (.array n t)
  | list : Plain n → Plain t → Plain (.list n t)
  | struct : Plain (.struct i)
  | message : Plain (.message i)
  | union : Plain (.union u)

/-! ## Messages -/

/-- The generated code for messages of a protocol: what paths lead to, the paths, and which messages are
embedded.  The declarations of `gen/rust/message.template`, `gen/rust/message.from_slice.template`,
`gen/rust/message.write.template`, `gen/rust/message.offsets.template` and `gen/rust/union.template`. -/
structure Code where
  lib : Bytesutil
  items : Bytes → Option Item
  paths : List (Name × Name)
  embedded : Nat → Bool

/-- The declared type of a field is `t`.  `gen/rust/message.template` 6. -/
def Declared (c : Code) (f : MField) (t : Ty) : Prop := (fieldType c.paths f).elab c.items false = some t

/-- The struct declaration of a message is accepted: its field types exist and can be copied.
`gen/rust/message.template` 2-8. -/
def DeclOk (c : Code) (m : Message) : Prop := ∀ f ∈ m.fields, ∃ t, Declared c f t ∧ Plain t

/-- The type of the local variable of the field named so, the newest first.  Rust;
`gen/rust/message.from_slice.template` 11, 19. -/
def local? (vars : List (Name × Ty)) (n : Name) : Option Ty := vars.lookup n

/-- One step of a decoder binds its variable to a value of type `t`: a codec implements `FromSlice`, or
it is a union, whose function takes the key as well.  `gen/rust/message.from_slice.template` 9, 14, 19.
-/
inductive Step (c : Code) (list : Expr → Expr → Expr) (vars : List (Name × Ty)) (f : MField) : Ty → Prop where
  | plain (h : ∀ u on i, f.ty ≠ .union u on i) :
      (codec c.paths list f).elab c.items true = some k → FromSlice c.lib k t → Step c list vars f t
  | union (h : f.ty = .union u on i) :
      (codec c.paths list f).elab c.items true = some (.union v) →
      local? vars on = some (.struct v.discriminant.root.id) → Step c list vars f (.union v)

/-- The steps of a decoder, one after the other.  `gen/rust/message.from_slice.template` 7. -/
inductive Steps (c : Code) (list : Expr → Expr → Expr) : List (Name × Ty) → List MField → List (Name × Ty) → Prop where
  | nil : Steps c list vars [] vars
  | cons : Step c list vars f t → Steps c list ((f.name, t) :: vars) fs vars' →
      Steps c list vars (f :: fs) vars'

/-- The decoder of a message is accepted: every step is, and the variables have the types declared for
the fields.  `gen/rust/message.from_slice.template` 5-30. -/
def DecoderOk (c : Code) (m : Message) : Prop :=
  ∃ vars, Steps c (listCodec (c.embedded m.id)) [] m.fields vars ∧
    ∀ f ∈ m.fields, ∃ t, local? vars f.name = some t ∧ Declared c f t

/-- The encoder of a message is accepted: the codec of every field takes the type declared for it; that
of a union also the key.  `gen/rust/message.write.template` 5-14. -/
def EncoderOk (c : Code) (m : Message) : Prop :=
  ∀ f ∈ m.fields, ∃ k t, (codec c.paths .list f).elab c.items true = some k ∧ Declared c f t ∧
    match f.ty with
    | .union _ on _ => ∃ u, k = .union u ∧ t = .union u ∧
        ∃ g ∈ m.fields, g.name = on ∧ Declared c g (.struct u.discriminant.root.id)
    | _ => ∃ i, WriteTo c.lib k i ∧ Coerces t i

/-- The types of the offsets of a field that is a message are those its codec yields.
`gen/rust/message.offsets.template` 3-14, 34-39. -/
def OffsetsOk (c : Code) (m : Message) : Prop :=
  DecoderOk c m ∧ ∀ f ∈ m.fields, ∀ r, f.ty = .ref (.message r) →
    ∃ k, (codec c.paths (listCodec (c.embedded m.id)) f).elab c.items true = some k ∧
      WithOffsets c.lib k (if f.optional then .option (.offsets r.id) else .offsets r.id)

/-- The names declared for the arrays and lists of a message are accepted: the macro for arrays takes the
item type as a single identifier (`runtime/src/message/macros.rs` 31), the alias for lists gives it a
lifetime (`compiler/src/gen/rust/message.ext.template`). -/
def AliasesOk (c : Code) (m : Message) : Prop :=
  ∀ f ∈ m.fields, match f.ty with
    | .array _ s => ¬ b!"::" <:+: pathOf c.paths s.name ∧
        ∃ t, (Expr.user (pathOf c.paths s.name) .bytes).elab c.items false = some t
    | .list _ r => ∃ t, (Expr.user (pathOf c.paths r.name) .life).elab c.items false = some t
    | _ => True

/-- The name of what a case of a union holds.  `gen/rust/union.rs` 67, 91. -/
def itemName : Referenced → Name
  | .struct s => s.name
  | .message m => m.name

/-- The code of a union is accepted: the content of its cases exists, can be copied, and is what its codec
yields and takes (`compiler/src/gen/rust/union.template`). -/
def UnionOk (c : Code) (u : Union) : Prop :=
  ∀ k ∈ u.cases, ∀ r, k.itemType = some r →
    ∃ t, (Expr.user (pathOf c.paths (itemName r)) (match r with | .struct _ => .bytes | .message _ => .life)).elab
        c.items false = some t ∧ Plain t ∧
      ∃ d, (Expr.user (pathOf c.paths (itemName r)) .none).elab c.items true = some d ∧
        FromSlice c.lib d t ∧ WriteTo c.lib d t

end Proto.Rs.Typ
