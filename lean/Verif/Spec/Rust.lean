import Verif.Base.Lit
import Verif.Gen.Code

/-!
# The generated Rust source, as text

What `messages.rs`, `structures.rs`, … contain, written out.  No template, scope or fragment is
mentioned; `{e}` marks where a name, number or type of the protocol goes.  Shared with the model:
the types of compiled protocols, `Name.utf8`, `display`, `pathOf` and the library functions `Lib`.
-/

namespace Proto.Text

/-- Concatenation of the texts of a list. -/
def all (f : α → Bytes) (xs : List α) : Bytes := (xs.map f).flatten

/-- Texts separated by an empty line (each text ends with its own line break). -/
def spaced (xs : List Bytes) : Bytes := b!"\n".intercalate xs

/-- The Rust type of a fixed size value. -/
def typeName : FixedTy → Bytes
  | .i8 => b!"i8" | .i16 => b!"i16" | .i32 => b!"i32" | .i64 => b!"i64"
  | .u8 => b!"u8" | .u16 => b!"u16" | .u32 => b!"u32" | .u64 => b!"u64"
  | .f32 => b!"f32" | .f64 => b!"f64" | .bool => b!"bool"

/-- Bytes of the smallest unsigned integer that holds `bits` bits. -/
def rawBytes (bits : Nat) : Nat :=
  if bits ≤ 8 then 1 else if bits ≤ 16 then 2 else if bits ≤ 32 then 4 else 8

/-- The smallest unsigned integer type that holds `bits` bits. -/
def rawName (bits : Nat) : Bytes :=
  if bits ≤ 8 then b!"u8" else if bits ≤ 16 then b!"u16" else if bits ≤ 32 then b!"u32" else b!"u64"

/-- `LE` or `BE`. -/
def suffix : Endian → Bytes
  | .little => b!"LE"
  | .big => b!"BE"

/-- The codec of a bit field. -/
def bitCodec (e : Endian) : Bytes :=
  t!"<bp3d_proto::codec::BitCodec{suffix e} as bp3d_proto::codec::BitCodec>"

/-- The codec of a whole number of bytes. -/
def byteCodec (e : Endian) : Bytes :=
  t!"<bp3d_proto::codec::ByteCodec{suffix e} as bp3d_proto::codec::ByteCodec>"

/-- Whether the integer type has exactly the bytes of the location. -/
abbrev Exact (l : Loc) : Prop := l.byteSize = rawBytes l.bitSize

/-- First byte of a location. -/
def first (l : Loc) : Bytes := display l.byteOffset

/-- First byte after a location. -/
def last (l : Loc) : Bytes := display (l.byteOffset + l.byteSize)

/-- The raw getter of a scalar field. -/
def rawGetter (f : FixedField) : Bytes :=
  let raw := rawName f.loc.bitSize
  let read := if Exact f.loc then b!"read_aligned" else b!"read_unaligned"
  let body : Bytes := if f.loc.bitSize % 8 = 0 then
      t!"        unsafe \{ {byteCodec f.endian}::{read}::<{raw}>(&self.data.as_ref()[{first f.loc}..{last f.loc}]) }
"
    else
      t!"        unsafe \{ {bitCodec f.endian}::{read}::<{raw}, {display f.loc.bitOffset}, {display f.loc.bitSize}>(&self.data.as_ref()[{first f.loc}..{last f.loc}]) }
"
  t!"    pub fn get_raw_{Name.utf8 f.name}(&self) -> {raw} \{
{body}
    }
"

/-- The raw setter of a scalar field. -/
def rawSetter (f : FixedField) : Bytes :=
  let raw := rawName f.loc.bitSize
  let write := if Exact f.loc then b!"write_aligned" else b!"write_unaligned"
  let body : Bytes := if f.loc.bitSize % 8 = 0 then
      t!"        unsafe \{ {byteCodec f.endian}::{write}::<{raw}>(&mut self.data.as_mut()[{first f.loc}..{last f.loc}], value) }
"
    else
      t!"        unsafe \{ {bitCodec f.endian}::{write}::<{raw}, {display f.loc.bitOffset}, {display f.loc.bitSize}>(&mut self.data.as_mut()[{first f.loc}..{last f.loc}], value) }
"
  t!"    pub fn set_raw_{Name.utf8 f.name}(&mut self, value: {raw}) \{
{body}
    }
"

/-- The getter of a scalar field. -/
def viewGetter (lib : Lib) (paths : List (Name × Name)) (f : FixedField) : Bytes :=
  let n := Name.utf8 f.name
  let ty := typeName f.ty
  let raw := rawName f.loc.bitSize
  match f.view with
  | .none =>
    t!"    pub fn get_{n}(&self) -> {ty} \{
        self.get_raw_{n}()
    }
"
  | .transmute =>
    let body : Bytes := if f.ty = .bool then
        t!"        if self.get_raw_{n}() != 0 \{
            true
        } else \{
            false
        }
"
      else
        t!"        unsafe \{ std::mem::transmute::<{raw}, {ty}>(self.get_raw_{n}()) }
"
    t!"    pub fn get_{n}(&self) -> {ty} \{
{body}
    }
"
  | .signedCast m =>
    t!"    pub fn get_{n}(&self) -> {ty} \{
        let raw_value = self.get_raw_{n}();
        if raw_value > {display m} \{
            -((((!raw_value) & {display m}) + 1) as {ty})
        } else \{
            (raw_value & {display m}) as {ty}
        }
    }
"
  | .enum e =>
    t!"    pub fn get_{n}(&self) -> Option<{pathOf paths e.name}> \{
        let raw_value = self.get_raw_{n}();
        if raw_value > {display e.largest} \{
            None
        } else \{
            Some(unsafe \{ std::mem::transmute::<{raw}, {pathOf paths e.name}>(raw_value) })
        }
    }
"
  | .float a b _ _ =>
    t!"    pub fn get_{n}(&self) -> {ty} \{
        let raw_value = self.get_raw_{n}() as {ty};
        raw_value * {lib.debugF64 a} + {lib.debugF64 b}
    }
"

/-- The setter of a scalar field. -/
def viewSetter (lib : Lib) (paths : List (Name × Name)) (f : FixedField) : Bytes :=
  let n := Name.utf8 f.name
  let ty := typeName f.ty
  let raw := rawName f.loc.bitSize
  let body : Bytes := if f.ty = .bool then
      t!"        if value \{
            self.set_raw_{n}(1);
        } else \{
            self.set_raw_{n}(0);
        }
"
    else
      t!"        self.set_raw_{n}(unsafe \{ std::mem::transmute::<{ty}, {raw}>(value) });
"
  let bits : Bytes :=
    t!"    pub fn set_{n}(&mut self, value: {ty}) -> &mut Self \{
{body}
        self
    }
"
  match f.view with
  | .none =>
    t!"    pub fn set_{n}(&mut self, value: {ty}) -> &mut Self \{
        self.set_raw_{n}(value);
        self
    }
"
  | .transmute => bits
  | .signedCast _ => bits
  | .enum e =>
    t!"    pub fn set_{n}(&mut self, value: {pathOf paths e.name}) -> &mut Self \{
        self.set_raw_{n}(value as {raw});
        self
    }
"
  | .float _ _ aInv bInv =>
    t!"    pub fn set_{n}(&mut self, value: {ty}) -> &mut Self \{
        let raw_value = value * {lib.debugF64 aInv} + {lib.debugF64 bInv};
        self.set_raw_{n}(raw_value as {raw});
        self
    }
"

/-- The getters of a field. -/
def fieldGetter (lib : Lib) (paths : List (Name × Name)) : SField → Bytes
  | .fixed f => rawGetter f ++ viewGetter lib paths f
  | .array f =>
    t!"    pub fn get_{Name.utf8 f.name}(&self) -> bp3d_proto::codec::ArrayCodec<&[u8], {typeName f.ty}, bp3d_proto::codec::ByteCodec{suffix f.endian}, {display (f.loc.bitSize / f.arrayLen)}> \{
        bp3d_proto::codec::ArrayCodec::new(&self.data.as_ref()[{first f.loc}..{last f.loc}])
    }
"
  | .struct n r l =>
    t!"    pub fn get_{Name.utf8 n}(&self) -> {pathOf paths r.name}<&[u8]> \{
        {pathOf paths r.name}::new(&self.data.as_ref()[{first l}..{last l}])
    }
"

/-- The setters of a field. -/
def fieldSetter (lib : Lib) (paths : List (Name × Name)) : SField → Bytes
  | .fixed f => rawSetter f ++ viewSetter lib paths f
  | .array f =>
    t!"    pub fn get_{Name.utf8 f.name}_mut(&mut self) -> bp3d_proto::codec::ArrayCodec<&mut [u8], {typeName f.ty}, bp3d_proto::codec::ByteCodec{suffix f.endian}, {display (f.loc.bitSize / f.arrayLen)}> \{
        bp3d_proto::codec::ArrayCodec::new(&mut self.data.as_mut()[{first f.loc}..{last f.loc}])
    }
"
  | .struct n r l =>
    t!"    pub fn get_{Name.utf8 n}_mut(&mut self) -> {pathOf paths r.name}<&mut [u8]> \{
        {pathOf paths r.name}::new(&mut self.data.as_mut()[{first l}..{last l}])
    }
"

/-- The declarations of a structure that do not depend on its fields. -/
def structureHead (lib : Lib) (s : Structure) : Bytes :=
  let n := Name.utf8 s.name
  let size := display s.byteSize
  t!"#[derive(Copy, Clone, Default, Debug)]
pub struct {n}<T> \{
    data: T
}
impl<T> {n}<T> \{
    pub fn new(data: T) -> Self \{
        Self \{ data }
    }
}
impl {n}<[u8; {size}]> \{
    pub fn new_on_stack() -> Self \{
        Self \{ data: [0; {size}] }
    }
}
impl<T> From<T> for {n}<T> \{
    fn from(data: T) -> Self \{
        Self \{ data }
    }
}
impl<'a, T: AsRef<[u8]>> {n}<T> \{
    pub fn to_ref(&'a self) -> {n}<&'a [u8]> \{
        {n} \{ data: self.data.as_ref() }
    }
}
impl<'a, T: AsMut<[u8]>> {n}<T> \{
    pub fn to_mut(&'a mut self) -> {n}<&'a mut [u8]> \{
        {n} \{ data: self.data.as_mut() }
    }
}
pub const SIZE_{lib.caseMap.upper n}: usize = {size};
impl<T> bp3d_proto::util::FixedSize for {n}<T> \{
    const SIZE: usize = {size};
}
impl<'a> bp3d_proto::message::WriteTo for {n}<&'a [u8]> \{
    type Input = Self;
    fn write_to<W: std::io::Write>(input: &Self, mut out: W) -> bp3d_proto::message::Result<()> \{
        out.write_all(&input.data[..<Self as bp3d_proto::util::FixedSize>::SIZE])?;
        Ok(())
    }
}
impl<'a> bp3d_proto::message::FromSlice<'a> for {n}<&'a [u8]> \{
    type Output = Self;
    fn from_slice(slice: &'a [u8]) -> bp3d_proto::message::Result<bp3d_proto::message::Message<Self>> \{
        if slice.len() < <Self as bp3d_proto::util::FixedSize>::SIZE \{
            Err(bp3d_proto::message::Error::Truncated)
        } else \{
            Ok(bp3d_proto::message::Message::new(<Self as bp3d_proto::util::FixedSize>::SIZE, Self::new(&slice[..<Self as bp3d_proto::util::FixedSize>::SIZE])))
        }
    }
}
"

/-- Everything generated for a structure. -/
def structureText (lib : Lib) (paths : List (Name × Name)) (s : Structure) : Bytes :=
  structureHead lib s ++
  t!"impl<T: AsRef<[u8]>> {Name.utf8 s.name}<T> \{
{all (fieldGetter lib paths) s.fields}
}
" ++
  t!"impl<T: AsMut<[u8]>> {Name.utf8 s.name}<T> \{
{all (fieldSetter lib paths) s.fields}
}
"

/-- Everything generated for an enum. -/
def enumText (e : Enum) : Bytes :=
  t!"#[derive(Copy, Clone, Debug, Eq, PartialEq)]
pub enum {Name.utf8 e.name} \{
{all (fun v => t!"    {Name.utf8 v.1} = {display v.2},
") e.variants}
}
"

/-! ## Unions -/

/-- `names` are the nested structures passed from `s` along the indices, ending on the scalar field
`leaf` if there is one. -/
inductive Chain : Structure → List Nat → List Name → Option Name → Prop
  | stop {s : Structure} : Chain s [] [] none
  | leaf {s : Structure} {i : Nat} {f : FixedField} :
    s.fields[i]? = some (.fixed f) → Chain s [i] [] (some f.name)
  | step {s r : Structure} {i : Nat} {is : List Nat} {n : Name} {leaf : Option Name} {l : Loc}
      {ns : List Name} :
    s.fields[i]? = some (.struct n r l) → Chain r is ns leaf → Chain s (i :: is) (n :: ns) leaf

/-- The expression reading the discriminant. -/
def readPath (names : List Name) (leaf : Option Name) : Bytes :=
  b!".".intercalate (names.map (fun n => t!"get_{Name.utf8 n}()") ++
    leaf.toList.map (fun n => t!"get_raw_{Name.utf8 n}()"))

/-- The method writing the discriminant. -/
def writePath (names : List Name) (leaf : Option Name) : Bytes :=
  b!".".intercalate (names.map (fun n => t!"get_{Name.utf8 n}_mut()") ++
    leaf.toList.map (fun n => t!"set_raw_{Name.utf8 n}"))

/-- ASCII letters in lower case. -/
def lower (s : Bytes) : Bytes :=
  s.map fun c => if 0x41 ≤ c.toNat ∧ c.toNat ≤ 0x5a then UInt8.ofNat (c.toNat + 0x20) else c

/-- A union whose cases all have no content takes no lifetime. -/
def unionGenerics (u : Union) : Bytes :=
  if ∃ c ∈ u.cases, c.itemType.isSome = true then b!"<'a>" else b!""

/-- The variant of a case. -/
def caseDecl (paths : List (Name × Name)) (c : UCase) : Bytes :=
  match c.itemType with
  | none => t!"    {Name.utf8 c.name},
"
  | some (.struct s) => t!"    {Name.utf8 c.name}({pathOf paths s.name}<&'a [u8]>),
"
  | some (.message m) => t!"    {Name.utf8 c.name}({pathOf paths m.name}<'a>),
"

/-- The decoder's arm of a case. -/
def caseFromSlice (paths : List (Name × Name)) (c : UCase) : Bytes :=
  match c.itemType with
  | none =>
    t!"            {display c.case} => Ok(bp3d_proto::message::Message::new(0, Self::{Name.utf8 c.name})),
"
  | some (.struct s) =>
    t!"            {display c.case} => {pathOf paths s.name}::from_slice(slice).map(|v| v.map(Self::{Name.utf8 c.name})),
"
  | some (.message m) =>
    t!"            {display c.case} => {pathOf paths m.name}::from_slice(slice).map(|v| v.map(Self::{Name.utf8 c.name})),
"

/-- The encoder's arm of a case. -/
def caseWriteTo (paths : List (Name × Name)) (c : UCase) : Bytes :=
  let arm (path : Bytes) : Bytes :=
    t!"            Self::{Name.utf8 c.name}(v) => if discriminant == {display c.case} \{
                {path}::write_to(v, &mut out)?
            } else \{
                return Err(bp3d_proto::message::Error::InvalidUnionDiscriminant(discriminant as _))
            },
"
  match c.itemType with
  | none => []
  | some (.struct s) => arm (pathOf paths s.name)
  | some (.message m) => arm (pathOf paths m.name)

/-- The arm of a case in `set_discriminant`. -/
def caseSet (c : UCase) : Bytes :=
  match c.itemType with
  | none => t!"            Self::{Name.utf8 c.name} => {display c.case},
"
  | some _ => t!"            Self::{Name.utf8 c.name}(_) => {display c.case},
"

/-- The accessor of a case. -/
def caseGetter (paths : List (Name × Name)) (c : UCase) : Bytes :=
  let n := Name.utf8 c.name
  match c.itemType with
  | none =>
    t!"    pub fn is_{lower n}(&self) -> bool \{
        match self \{
            Self::{n} => true,
            _ => false
        }
    }
"
  | some (.struct s) =>
    t!"    pub fn as_{lower n}(&self) -> Option<&{pathOf paths s.name}<&'a [u8]>> \{
        match self \{
            Self::{n}(v) => Some(v),
            _ => None
        }
    }
"
  | some (.message m) =>
    t!"    pub fn as_{lower n}(&self) -> Option<&{pathOf paths m.name}<'a>> \{
        match self \{
            Self::{n}(v) => Some(v),
            _ => None
        }
    }
"

/-- Everything generated for a union whose discriminant is read by `path` and written by `pathMut`. -/
def unionText (paths : List (Name × Name)) (u : Union) (path pathMut : Bytes) : Bytes :=
  let n := Name.utf8 u.name
  let g := unionGenerics u
  let on := pathOf paths u.discriminant.root.name
  let decoder : Bytes := if ∃ c ∈ u.cases, c.itemType.isSome = true then
      t!"    pub fn from_slice(slice: &'a [u8], discriminant: &{on}<&'a [u8]>) -> bp3d_proto::message::Result<bp3d_proto::message::Message<Self>> \{
        use bp3d_proto::message::FromSlice;
        let discriminant = discriminant.{path};
        match discriminant \{
{all (caseFromSlice paths) u.cases}
            _ => Err(bp3d_proto::message::Error::InvalidUnionDiscriminant(discriminant as _))
        }
    }
"
    else
      t!"    pub fn from_slice(_: &'a [u8], discriminant: &{on}<&'a [u8]>) -> bp3d_proto::message::Result<bp3d_proto::message::Message<Self>> \{
        let discriminant = discriminant.{path};
        match discriminant \{
{all (caseFromSlice paths) u.cases}
            _ => Err(bp3d_proto::message::Error::InvalidUnionDiscriminant(discriminant as _))
        }
    }
"
  let encoder : Bytes := if ∃ c ∈ u.cases, c.itemType.isSome = true then
      t!"    pub fn write_to<W: std::io::Write>(input: &Self, discriminant: &{on}<&'a [u8]>, mut out: W) -> bp3d_proto::message::Result<()> \{
        use bp3d_proto::message::WriteTo;
        let discriminant = discriminant.{path};
        match input \{
{all (caseWriteTo paths) u.cases}
            _ => ()
        };
        Ok(())
    }
"
    else
      t!"    pub fn write_to<W: std::io::Write>(_: &Self, _: &{on}<&'a [u8]>, _: W) -> bp3d_proto::message::Result<()> \{
        Ok(())
    }
"
  t!"#[derive(Copy, Clone, Debug)]
pub enum {n}{g} \{
{all (caseDecl paths) u.cases}
}
" ++
  t!"impl<'a> {n}{g} \{
{decoder}
}
" ++
  t!"impl<'a> {n}{g} \{
{encoder}
}
" ++
  t!"impl{g} {n}{g} \{
    pub fn set_discriminant<T: AsMut<[u8]>>(&self, discriminant: &mut {on}<T>) \{
        let discriminant_value = match self \{
{all caseSet u.cases}
        };
        discriminant.{pathMut}(discriminant_value);
    }
}
" ++
  t!"impl{g} {n}{g} \{
{all (caseGetter paths) u.cases}
}
"

/-! ## Messages -/

/-- Whether a field's type is a number. -/
def isNumber : MFieldTy → Bool
  | .fixed _ => true
  | _ => false

/-- A message takes a lifetime unless all its fields are numbers. -/
def messageGenerics (m : Message) : Bytes :=
  if ∀ f ∈ m.fields, isNumber f.ty = true then b!"" else b!"<'a>"

/-- The codec of a number. -/
def value (e : Endian) (ty : FixedTy) : Bytes :=
  t!"bp3d_proto::message::util::Value{suffix e}<{typeName ty}>"

/-- The Rust type of a message field, before `Option`. -/
def declType (paths : List (Name × Name)) (e : Endian) : MFieldTy → Bytes
  | .fixed ty => typeName ty
  | .ref (.struct s) => t!"{pathOf paths s.name}<&'a [u8]>"
  | .ref (.message m) => t!"{pathOf paths m.name}<'a>"
  | .nullTerminatedString => b!"&'a str"
  | .varcharString _ => b!"&'a str"
  | .array ty s =>
    t!"bp3d_proto::message::util::Array::<&'a [u8], {value e ty}, {pathOf paths s.name}<&'a [u8]>>
"
  | .union u _ _ => t!"{pathOf paths u.name}<'a>"
  | .list ty m =>
    t!"bp3d_proto::message::util::List::<&'a [u8], {value e ty}, {pathOf paths m.name}<'a>>
"
  | .payload => b!"&'a [u8]"

/-- The declaration of a message field. -/
def fieldDecl (paths : List (Name × Name)) (f : MField) : Bytes :=
  let ty : Bytes :=
    if f.optional then t!"Option<{declType paths f.endian f.ty}>" else declType paths f.endian f.ty
  t!"    pub {Name.utf8 f.name}: {ty},
"

/-- First letter in upper case (ASCII). -/
def capital : Bytes → Bytes
  | [] => []
  | c :: cs => (if 0x61 ≤ c.toNat ∧ c.toNat ≤ 0x7a then UInt8.ofNat (c.toNat - 0x20) else c) :: cs

/-- The type alias declared for a field that is an array or a list. -/
def aliasDecl (paths : List (Name × Name)) (m : Message) (f : MField) : Bytes :=
  match f.ty with
  | .array ty s =>
    t!"bp3d_proto::generate_array_wrapper!({Name.utf8 m.name}{capital (Name.utf8 f.name)}, {pathOf paths s.name}, {value f.endian ty});
"
  | .list ty s =>
    t!"pub type {Name.utf8 m.name}{capital (Name.utf8 f.name)}<'a, T> = bp3d_proto::message::util::List<T, {value f.endian ty}, {pathOf paths s.name}<'a>>;
"
  | _ => []

/-- `messages.rs`, one message. -/
def messageText (paths : List (Name × Name)) (m : Message) : Bytes :=
  t!"#[derive(Copy, Clone, Debug)]
pub struct {Name.utf8 m.name}{messageGenerics m} \{
{all (fieldDecl paths) m.fields}
}
" ++ b!"\n\n" ++ all (aliasDecl paths m) m.fields ++ b!"\n"

/-- The codec of a message field, before `Optional`: `sized` is the codec of its lists. -/
def inlineType (paths : List (Name × Name)) (sized : Bytes → Bytes → Bytes) (e : Endian) :
    MFieldTy → Bytes
  | .fixed ty => t!"bp3d_proto::message::util::Value{suffix e}::<{typeName ty}>"
  | .ref (.struct s) => pathOf paths s.name
  | .ref (.message m) => pathOf paths m.name
  | .nullTerminatedString => b!"bp3d_proto::message::util::NullTerminatedString"
  | .varcharString ty => t!"bp3d_proto::message::util::VarcharString::<{value e ty}>
"
  | .array ty s =>
    t!"bp3d_proto::message::util::Array::<&'a [u8], {value e ty}, {pathOf paths s.name}<&'a [u8]>>
"
  | .union u _ _ => pathOf paths u.name
  | .list ty m => sized (value e ty) (pathOf paths m.name)
  | .payload => b!"bp3d_proto::message::util::Buffer"

/-- The codec of a message field. -/
def codecType (paths : List (Name × Name)) (sized : Bytes → Bytes → Bytes) (f : MField) : Bytes :=
  if f.optional then
    t!"bp3d_proto::message::util::Optional::<{inlineType paths sized f.endian f.ty}>"
  else inlineType paths sized f.endian f.ty

/-- A list preceded by its total size in bytes. -/
def sizedList (value item : Bytes) : Bytes :=
  t!"bp3d_proto::message::util::List::<&'a [u8], {value}, {item}>
"

/-- A list without a total size. -/
def unsizedList (value item : Bytes) : Bytes :=
  t!"bp3d_proto::message::util::list::Unsized::<{value}, {item}>
"

/-- The decoder's list codec: lists of a message that no other message contains have no total
size. -/
def readList (embedded : Bool) : Bytes → Bytes → Bytes := if embedded then sizedList else unsizedList

/-- The decoder's step of a field. -/
def fieldFromSlice (paths : List (Name × Name)) (embedded : Bool) (f : MField) : Bytes :=
  let n := Name.utf8 f.name
  let ty := codecType paths (readList embedded) f
  match f.ty with
  | .union _ on _ =>
    t!"        let {n}_msg = {ty}::from_slice(&slice[byte_offset..], &{Name.utf8 on})?;
        byte_offset += {n}_msg.size();
        let {n} = {n}_msg.into_inner();
"
  | _ =>
    t!"        let {n}_msg = {ty}::from_slice(&slice[byte_offset..])?;
        byte_offset += {n}_msg.size();
        let {n} = {n}_msg.into_inner();
"

/-- A field in the final struct expression. -/
def fieldName (f : MField) : Bytes := t!"            {Name.utf8 f.name},
"

/-- `messages_from_slice.rs`, one message. -/
def fromSliceText (paths : List (Name × Name)) (embedded : Bool) (m : Message) : Bytes :=
  t!"impl<'a> bp3d_proto::message::FromSlice<'a> for {Name.utf8 m.name}{messageGenerics m} \{
    type Output = Self;
    fn from_slice(slice: &'a [u8]) -> bp3d_proto::message::Result<bp3d_proto::message::Message<Self>> \{
        let mut byte_offset: usize = 0;
{all (fieldFromSlice paths embedded) m.fields}
        let data = {Name.utf8 m.name} \{
{all fieldName m.fields}
        };
        Ok(bp3d_proto::message::Message::new(byte_offset, data))
    }
}
"

/-- The encoder's step of a field: every list has a total size. -/
def fieldWrite (paths : List (Name × Name)) (f : MField) : Bytes :=
  let n := Name.utf8 f.name
  let ty := codecType paths sizedList f
  match f.ty with
  | .union _ on _ => t!"        {ty}::write_to(&input.{n}, &input.{Name.utf8 on}, &mut out)?;
"
  | _ => t!"        {ty}::write_to(&input.{n}, &mut out)?;
"

/-- `messages_write.rs`, one message. -/
def writeText (paths : List (Name × Name)) (m : Message) : Bytes :=
  let g := messageGenerics m
  t!"impl{g} bp3d_proto::message::WriteTo for {Name.utf8 m.name}{g} \{
    type Input = Self;
    fn write_to<W: std::io::Write>(input: &Self, mut out: W) -> bp3d_proto::message::Result<()> \{
{all (fieldWrite paths) m.fields}
        Ok(())
    }
}
"

/-- The offsets declared for a field. -/
def offsetDecl (paths : List (Name × Name)) (f : MField) : Bytes :=
  let n := Name.utf8 f.name
  match f.ty with
  | .ref (.message m) =>
    if f.optional then
      t!"    pub {n}: bp3d_proto::message::FieldOffset,
    pub {n}_offsets: Option<{pathOf paths m.name}Offsets>,
"
    else
      t!"    pub {n}: bp3d_proto::message::FieldOffset,
    pub {n}_offsets: {pathOf paths m.name}Offsets,
"
  | _ => t!"    pub {n}: bp3d_proto::message::FieldOffset,
"

/-- The step of a field in the decoder that records offsets. -/
def fieldOffsets (paths : List (Name × Name)) (embedded : Bool) (f : MField) : Bytes :=
  let n := Name.utf8 f.name
  let ty := codecType paths (readList embedded) f
  match f.ty with
  | .union _ on _ =>
    t!"        let {n}_msg = {ty}::from_slice(&slice[byte_offset..], &{Name.utf8 on})?;
        offsets.{n}.start = byte_offset;
        byte_offset += {n}_msg.size();
        offsets.{n}.end = byte_offset;
        let {n} = {n}_msg.into_inner();
"
  | .ref (.message _) =>
    t!"        let {n}_msg = {ty}::from_slice_with_offsets(&slice[byte_offset..])?;
        offsets.{n}.start = byte_offset;
        byte_offset += {n}_msg.size();
        offsets.{n}.end = byte_offset;
        let ({n}, {n}_offsets) = {n}_msg.into_inner();
        offsets.{n}_offsets = {n}_offsets;
"
  | _ =>
    t!"        let {n}_msg = {ty}::from_slice(&slice[byte_offset..])?;
        offsets.{n}.start = byte_offset;
        byte_offset += {n}_msg.size();
        offsets.{n}.end = byte_offset;
        let {n} = {n}_msg.into_inner();
"

/-- `messages_offsets.rs`, one message. -/
def offsetsText (paths : List (Name × Name)) (embedded : Bool) (m : Message) : Bytes :=
  t!"#[derive(Copy, Clone, Debug, Default)]
pub struct {Name.utf8 m.name}Offsets \{
{all (offsetDecl paths) m.fields}
}
" ++ b!"\n" ++
  t!"impl<'a> bp3d_proto::message::FromSliceWithOffsets<'a> for {Name.utf8 m.name}{messageGenerics m} \{
    type Offsets = {Name.utf8 m.name}Offsets;
    fn from_slice_with_offsets(slice: &'a [u8]) -> bp3d_proto::message::Result<bp3d_proto::message::Message<(Self, Self::Offsets)>> \{
        use bp3d_proto::message::FromSlice;
        let mut offsets = Self::Offsets::default();
        let mut byte_offset: usize = 0;
{all (fieldOffsets paths embedded) m.fields}
        let data = {Name.utf8 m.name} \{
{all fieldName m.fields}
        };
        Ok(bp3d_proto::message::Message::new(byte_offset, (data, offsets)))
    }
}
"

/-! ## When there is a text -/

/-- A field an accessor can be generated for: it ends within the address space, a scalar has between 1
and 64 bits, an array has items. -/
def Accessible : SField → Prop
  | .fixed f => f.loc.byteOffset + f.loc.byteSize < 2 ^ 64 ∧ 1 ≤ f.loc.bitSize ∧ f.loc.bitSize ≤ 64
  | .array f => f.loc.byteOffset + f.loc.byteSize < 2 ^ 64 ∧ f.arrayLen ≠ 0
  | .struct _ _ l => l.byteOffset + l.byteSize < 2 ^ 64

/-- Array and list fields, for which a type alias is declared. -/
def aliased : MFieldTy → Bool
  | .array _ _ => true
  | .list _ _ => true
  | _ => false

/-- The alias of a field can be named: the field's name does not begin with a character of several
bytes. -/
def Nameable (f : MField) : Prop :=
  aliased f.ty = true → ∀ c ∈ (Name.utf8 f.name).head?, c < 0x80

/-- The seven files of a protocol, given which messages are contained in others and the path of each
union's discriminant. -/
def files (lib : Lib) (emb : Nat → Bool) (proto : Protocol) (names : Union → List Name × Option Name) :
    List File :=
  let paths := proto.typePathByName
  [⟨b!"messages.rs", spaced (proto.messages.map (messageText paths)), .message⟩,
   ⟨b!"messages_from_slice.rs", spaced (proto.messages.map fun m => fromSliceText paths (emb m.id) m),
    .messageReading⟩,
   ⟨b!"messages_write.rs", spaced (proto.messages.map (writeText paths)), .messageWriting⟩,
   ⟨b!"messages_offsets.rs", spaced (proto.messages.map fun m => offsetsText paths (emb m.id) m),
    .messageReading⟩,
   ⟨b!"structures.rs", spaced (proto.structs.map (structureText lib paths)), .structure⟩,
   ⟨b!"enums.rs", spaced (proto.enums.map enumText), .enum⟩,
   ⟨b!"unions.rs", spaced (proto.unions.map fun u =>
      unionText paths u (readPath (names u).1 (names u).2) (writePath (names u).1 (names u).2)),
    .union⟩]

/-- The umbrella module. -/
def umbrellaText (lib : Lib) (name : Bytes) (files : List Bytes) : Bytes :=
  t!"pub mod {name} \{
{all (fun f => t!"include!({lib.debugPath f});
") files}}
"

end Proto.Text
