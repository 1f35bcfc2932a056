import Verif.Base.Lit

/-!
# The template files of the two code generators

The text of each file, byte for byte (written by `tools/templates.py`).
-/

namespace Proto.Tmpl

/-- `compiler/src/gen/rust/enum.template` 1-9. -/
def rustEnum : Bytes := b!"#fragment push enum
#[derive(Copy, Clone, Debug, Eq, PartialEq)]
pub enum {name} {{
{variants}
#fragment push variant
    {key} = {value},
#fragment pop
}}
#fragment pop
"

/-- `compiler/src/gen/rust/structure.template` 1-71. -/
def rustStructure : Bytes := b!"#fragment push new
impl<T> {name}<T> {{
    pub fn new(data: T) -> Self {{
        Self {{ data }}
    }}
}}

impl {name}<[u8; {byte_size}]> {{
    pub fn new_on_stack() -> Self {{
        Self {{ data: [0; {byte_size}] }}
    }}
}}

impl<T> From<T> for {name}<T> {{
    fn from(data: T) -> Self {{
        Self {{ data }}
    }}
}}

impl<'a, T: AsRef<[u8]>> {name}<T> {{
    pub fn to_ref(&'a self) -> {name}<&'a [u8]> {{
        {name} {{ data: self.data.as_ref() }}
    }}
}}

impl<'a, T: AsMut<[u8]>> {name}<T> {{
    pub fn to_mut(&'a mut self) -> {name}<&'a mut [u8]> {{
        {name} {{ data: self.data.as_mut() }}
    }}
}}

pub const SIZE_{name:upper}: usize = {byte_size};
#fragment pop

#fragment push decl
#[derive(Copy, Clone, Default, Debug)]
pub struct {name}<T> {{
    data: T
}}
#fragment pop

#fragment push fixed_size
impl<T> bp3d_proto::util::FixedSize for {name}<T> {{
    const SIZE: usize = {byte_size};
}}
#fragment pop

#fragment push write_to
impl<'a> bp3d_proto::message::WriteTo for {name}<&'a [u8]> {{
    type Input = Self;

    fn write_to<W: std::io::Write>(input: &Self, mut out: W) -> bp3d_proto::message::Result<()> {{
        out.write_all(&input.data[..<Self as bp3d_proto::util::FixedSize>::SIZE])?;
        Ok(())
    }}
}}
#fragment pop

#fragment push from_slice
impl<'a> bp3d_proto::message::FromSlice<'a> for {name}<&'a [u8]> {{
    type Output = Self;

    fn from_slice(slice: &'a [u8]) -> bp3d_proto::message::Result<bp3d_proto::message::Message<Self>> {{
        if slice.len() < <Self as bp3d_proto::util::FixedSize>::SIZE {{
            Err(bp3d_proto::message::Error::Truncated)
        }} else {{
            Ok(bp3d_proto::message::Message::new(<Self as bp3d_proto::util::FixedSize>::SIZE, Self::new(&slice[..<Self as bp3d_proto::util::FixedSize>::SIZE])))
        }}
    }}
}}
#fragment pop
"

/-- `compiler/src/gen/rust/structure.field.template` 1-134. -/
def rustStructureField : Bytes := b!"#fragment push getters
impl<T: AsRef<[u8]>> {struct_name}<T> {{
{fields}
#fragment push fixed
    pub fn get_raw_{name}(&self) -> {raw_type} {{
{fragment}
#fragment push bit
        unsafe {{ {codec}::{function_name}::<{raw_type}, {bit_offset}, {bit_size}>(&self.data.as_ref()[{start}..{end}]) }}
#fragment pop
#fragment push byte
        unsafe {{ {codec}::{function_name}::<{raw_type}>(&self.data.as_ref()[{start}..{end}]) }}
#fragment pop
    }}
#fragment pop
#fragment push array
    pub fn get_{name}(&self) -> bp3d_proto::codec::ArrayCodec<&[u8], {raw_type}, {codec}, {bit_size}> {{
        bp3d_proto::codec::ArrayCodec::new(&self.data.as_ref()[{start}..{end}])
    }}
#fragment pop
#fragment push struct
    pub fn get_{name}(&self) -> {type_name}<&[u8]> {{
        {type_name}::new(&self.data.as_ref()[{start}..{end}])
    }}
#fragment pop
#fragment push view_float
    pub fn get_{name}(&self) -> {view_type} {{
        let raw_value = self.get_raw_{name}() as {view_type};
        raw_value * {a} + {b}
    }}
#fragment pop
#fragment push view_enum
    pub fn get_{name}(&self) -> Option<{view_type}> {{
        let raw_value = self.get_raw_{name}();
        if raw_value > {enum_largest} {{
            None
        }} else {{
            Some(unsafe {{ std::mem::transmute::<{raw_type}, {view_type}>(raw_value) }})
        }}
    }}
#fragment pop
#fragment push view_transmute
    pub fn get_{name}(&self) -> {view_type} {{
{fragment}
#fragment push bool
        if self.get_raw_{name}() != 0 {{
            true
        }} else {{
            false
        }}
#fragment pop
#fragment push other
        unsafe {{ std::mem::transmute::<{raw_type}, {view_type}>(self.get_raw_{name}()) }}
#fragment pop
    }}
#fragment pop
#fragment push view_signed
    pub fn get_{name}(&self) -> {view_type} {{
        let raw_value = self.get_raw_{name}();
        if raw_value > {max_positive} {{
            -((((!raw_value) & {max_positive}) + 1) as {view_type})
        }} else {{
            (raw_value & {max_positive}) as {view_type}
        }}
    }}
#fragment pop
#fragment push view_none
    pub fn get_{name}(&self) -> {view_type} {{
        self.get_raw_{name}()
    }}
#fragment pop
}}
#fragment pop

#fragment push setters
impl<T: AsMut<[u8]>> {struct_name}<T> {{
{fields}
#fragment push fixed
    pub fn set_raw_{name}(&mut self, value: {raw_type}) {{
{fragment}
#fragment push bit
        unsafe {{ {codec}::{function_name}::<{raw_type}, {bit_offset}, {bit_size}>(&mut self.data.as_mut()[{start}..{end}], value) }}
#fragment pop
#fragment push byte
        unsafe {{ {codec}::{function_name}::<{raw_type}>(&mut self.data.as_mut()[{start}..{end}], value) }}
#fragment pop
    }}
#fragment pop
#fragment push array
    pub fn get_{name}_mut(&mut self) -> bp3d_proto::codec::ArrayCodec<&mut [u8], {raw_type}, {codec}, {bit_size}> {{
        bp3d_proto::codec::ArrayCodec::new(&mut self.data.as_mut()[{start}..{end}])
    }}
#fragment pop
#fragment push struct
    pub fn get_{name}_mut(&mut self) -> {type_name}<&mut [u8]> {{
        {type_name}::new(&mut self.data.as_mut()[{start}..{end}])
    }}
#fragment pop
#fragment push view_float
    pub fn set_{name}(&mut self, value: {view_type}) -> &mut Self {{
        let raw_value = value * {a_inv} + {b_inv};
        self.set_raw_{name}(raw_value as {raw_type});
        self
    }}
#fragment pop
#fragment push view_enum
    pub fn set_{name}(&mut self, value: {view_type}) -> &mut Self {{
        self.set_raw_{name}(value as {raw_type});
        self
    }}
#fragment pop
#fragment push view_transmute
    pub fn set_{name}(&mut self, value: {view_type}) -> &mut Self {{
{fragment}
#fragment push bool
        if value {{
            self.set_raw_{name}(1);
        }} else {{
            self.set_raw_{name}(0);
        }}
#fragment pop
#fragment push other
        self.set_raw_{name}(unsafe {{ std::mem::transmute::<{view_type}, {raw_type}>(value) }});
#fragment pop
        self
    }}
#fragment pop
#fragment push view_none
    pub fn set_{name}(&mut self, value: {view_type}) -> &mut Self {{
        self.set_raw_{name}(value);
        self
    }}
#fragment pop
}}
#fragment pop
"

/-- `compiler/src/gen/rust/union.template` 1-122. -/
def rustUnion : Bytes := b!"#fragment push decl
#[derive(Copy, Clone, Debug)]
pub enum {union_name}{generics} {{
{cases}
#fragment push struct
    {name}({type_name}<&'a [u8]>),
#fragment pop
#fragment push message
    {name}({type_name}<'a>),
#fragment pop
#fragment push none
    {name},
#fragment pop
}}
#fragment pop

#fragment push getters
impl{generics} {union_name}{generics} {{
{cases}
#fragment push struct
    pub fn as_{name_lower}(&self) -> Option<&{type_name}<&'a [u8]>> {{
        match self {{
            Self::{name}(v) => Some(v),
            _ => None
        }}
    }}
#fragment pop
#fragment push message
    pub fn as_{name_lower}(&self) -> Option<&{type_name}<'a>> {{
        match self {{
            Self::{name}(v) => Some(v),
            _ => None
        }}
    }}
#fragment pop
#fragment push none
    pub fn is_{name_lower}(&self) -> bool {{
        match self {{
            Self::{name} => true,
            _ => false
        }}
    }}
#fragment pop
}}
#fragment pop

#fragment push setter
impl{generics} {union_name}{generics} {{
    pub fn set_discriminant<T: AsMut<[u8]>>(&self, discriminant: &mut {discriminant_type}<T>) {{
        let discriminant_value = match self {{
{cases}
#fragment push none
            Self::{name} => {case},
#fragment pop
#fragment push ref
            Self::{name}(_) => {case},
#fragment pop
        }};
        discriminant.{discriminant_path_mut}(discriminant_value);
    }}
}}
#fragment pop

#fragment push write_to
impl<'a> {union_name}{generics} {{
{fragment}
#fragment push generics
    pub fn write_to<W: std::io::Write>(input: &Self, discriminant: &{discriminant_type}<&'a [u8]>, mut out: W) -> bp3d_proto::message::Result<()> {{
        use bp3d_proto::message::WriteTo;
        let discriminant = discriminant.{discriminant_path};
        match input {{
{cases}
#fragment push case
            Self::{name}(v) => if discriminant == {case} {{
                {type_name}::write_to(v, &mut out)?
            }} else {{
                return Err(bp3d_proto::message::Error::InvalidUnionDiscriminant(discriminant as _))
            }},
#fragment pop
            _ => ()
        }};
        Ok(())
    }}
#fragment pop
#fragment push none
    pub fn write_to<W: std::io::Write>(_: &Self, _: &{discriminant_type}<&'a [u8]>, _: W) -> bp3d_proto::message::Result<()> {{
        Ok(())
    }}
#fragment pop
}}
#fragment pop

#fragment push from_slice
impl<'a> {union_name}{generics} {{
{fragment}
#fragment push generics
    pub fn from_slice(slice: &'a [u8], discriminant: &{discriminant_type}<&'a [u8]>) -> bp3d_proto::message::Result<bp3d_proto::message::Message<Self>> {{
        use bp3d_proto::message::FromSlice;
        let discriminant = discriminant.{discriminant_path};
        match discriminant {{
{cases}
#fragment push case
            {case} => {type_name}::from_slice(slice).map(|v| v.map(Self::{name})),
#fragment pop
            _ => Err(bp3d_proto::message::Error::InvalidUnionDiscriminant(discriminant as _))
        }}
    }}
#fragment pop
#fragment push none
    pub fn from_slice(_: &'a [u8], discriminant: &{discriminant_type}<&'a [u8]>) -> bp3d_proto::message::Result<bp3d_proto::message::Message<Self>> {{
        let discriminant = discriminant.{discriminant_path};
        match discriminant {{
{cases}
#fragment push case
            {case} => Ok(bp3d_proto::message::Message::new(0, Self::{name})),
#fragment pop
            _ => Err(bp3d_proto::message::Error::InvalidUnionDiscriminant(discriminant as _))
        }}
    }}
#fragment pop
}}
#fragment pop
"

/-- `compiler/src/gen/rust/message.template` 1-17. -/
def rustMessage : Bytes := b!"#fragment push decl
#[derive(Copy, Clone, Debug)]
pub struct {msg_name}{generics} {{
{fields}
#fragment push field
    pub {name}: {type},
#fragment pop
}}
#fragment pop

#fragment push array
bp3d_proto::message::util::Array::<&'a [u8], {codec}, {type_name}<&'a [u8]>>
#fragment pop

#fragment push list
bp3d_proto::message::util::List::<&'a [u8], {codec}, {type_name}<'a>>
#fragment pop
"

/-- `compiler/src/gen/rust/message.ext.template` 1-7. -/
def rustMessageExt : Bytes := b!"#fragment push decl_array
bp3d_proto::generate_array_wrapper!({msg_name}{name:capitalize}, {item_type}, {codec});
#fragment pop

#fragment push decl_list
pub type {msg_name}{name:capitalize}<'a, T> = bp3d_proto::message::util::List<T, {codec}, {item_type}<'a>>;
#fragment pop
"

/-- `compiler/src/gen/rust/message.from_slice.template` 1-48. -/
def rustMessageFromSlice : Bytes := b!"#fragment push impl
impl<'a> bp3d_proto::message::FromSlice<'a> for {msg_name}{generics} {{
    type Output = Self;

    fn from_slice(slice: &'a [u8]) -> bp3d_proto::message::Result<bp3d_proto::message::Message<Self>> {{
        let mut byte_offset: usize = 0;
{fields}
#fragment push field
        let {name}_msg = {type}::from_slice(&slice[byte_offset..])?;
        byte_offset += {name}_msg.size();
        let {name} = {name}_msg.into_inner();
#fragment pop
#fragment push field_msg
        let {name}_msg = {type}::from_slice(&slice[byte_offset..])?;
        byte_offset += {name}_msg.size();
        let {name} = {name}_msg.into_inner();
#fragment pop
#fragment push field_union
        let {name}_msg = {type}::from_slice(&slice[byte_offset..], &{on_name})?;
        byte_offset += {name}_msg.size();
        let {name} = {name}_msg.into_inner();
#fragment pop
        let data = {msg_name} {{
{field_names}
#fragment push field_name
            {name},
#fragment pop
        }};
        Ok(bp3d_proto::message::Message::new(byte_offset, data))
    }}
}}
#fragment pop

#fragment push varchar
bp3d_proto::message::util::VarcharString::<{codec}>
#fragment pop

#fragment push array
bp3d_proto::message::util::Array::<&'a [u8], {codec}, {type_name}<&'a [u8]>>
#fragment pop

#fragment push list
bp3d_proto::message::util::List::<&'a [u8], {codec}, {type_name}>
#fragment pop

#fragment push unsized
bp3d_proto::message::util::list::Unsized::<{codec}, {type_name}>
#fragment pop
"

/-- `compiler/src/gen/rust/message.write.template` 1-32. -/
def rustMessageWrite : Bytes := b!"#fragment push impl
impl{generics} bp3d_proto::message::WriteTo for {msg_name}{generics} {{
    type Input = Self;

    fn write_to<W: std::io::Write>(input: &Self, mut out: W) -> bp3d_proto::message::Result<()> {{
{fields}
#fragment push field
        {type}::write_to(&input.{name}, &mut out)?;
#fragment pop
#fragment push field_union
        {type}::write_to(&input.{name}, &input.{on_name}, &mut out)?;
#fragment pop
        Ok(())
    }}
}}
#fragment pop

#fragment push varchar
bp3d_proto::message::util::VarcharString::<{codec}>
#fragment pop

#fragment push array
bp3d_proto::message::util::Array::<&'a [u8], {codec}, {type_name}<&'a [u8]>>
#fragment pop

#fragment push list
bp3d_proto::message::util::List::<&'a [u8], {codec}, {type_name}>
#fragment pop

#fragment push unsized
bp3d_proto::message::util::List::<&'a [u8], {codec}, {type_name}>
#fragment pop
"

/-- `compiler/src/gen/rust/message.offsets.template` 1-73. -/
def rustMessageOffsets : Bytes := b!"#fragment push decl
#[derive(Copy, Clone, Debug, Default)]
pub struct {msg_name}Offsets {{
{fields}
#fragment push msg_optional
    pub {name}_offsets: Option<{type_name}Offsets>,
#fragment pop
#fragment push msg
    pub {name}_offsets: {type_name}Offsets,
#fragment pop
#fragment push field
    pub {name}: bp3d_proto::message::FieldOffset,
#fragment pop
}}
#fragment pop

#fragment push impl
impl<'a> bp3d_proto::message::FromSliceWithOffsets<'a> for {msg_name}{generics} {{
    type Offsets = {msg_name}Offsets;

    fn from_slice_with_offsets(slice: &'a [u8]) -> bp3d_proto::message::Result<bp3d_proto::message::Message<(Self, Self::Offsets)>> {{
        use bp3d_proto::message::FromSlice;
        let mut offsets = Self::Offsets::default();
        let mut byte_offset: usize = 0;
{fields}
#fragment push field
        let {name}_msg = {type}::from_slice(&slice[byte_offset..])?;
        offsets.{name}.start = byte_offset;
        byte_offset += {name}_msg.size();
        offsets.{name}.end = byte_offset;
        let {name} = {name}_msg.into_inner();
#fragment pop
#fragment push field_msg
        let {name}_msg = {type}::from_slice_with_offsets(&slice[byte_offset..])?;
        offsets.{name}.start = byte_offset;
        byte_offset += {name}_msg.size();
        offsets.{name}.end = byte_offset;
        let ({name}, {name}_offsets) = {name}_msg.into_inner();
        offsets.{name}_offsets = {name}_offsets;
#fragment pop
#fragment push field_union
        let {name}_msg = {type}::from_slice(&slice[byte_offset..], &{on_name})?;
        offsets.{name}.start = byte_offset;
        byte_offset += {name}_msg.size();
        offsets.{name}.end = byte_offset;
        let {name} = {name}_msg.into_inner();
#fragment pop
        let data = {msg_name} {{
{field_names}
#fragment push field_name
            {name},
#fragment pop
        }};
        Ok(bp3d_proto::message::Message::new(byte_offset, (data, offsets)))
    }}
}}
#fragment pop

#fragment push varchar
bp3d_proto::message::util::VarcharString::<{codec}>
#fragment pop

#fragment push array
bp3d_proto::message::util::Array::<&'a [u8], {codec}, {type_name}<&'a [u8]>>
#fragment pop

#fragment push list
bp3d_proto::message::util::List::<&'a [u8], {codec}, {type_name}>
#fragment pop

#fragment push unsized
bp3d_proto::message::util::list::Unsized::<{codec}, {type_name}>
#fragment pop
"

/-- `compiler/src/gen/swift/structure.template` 1-41. -/
def swiftStructure : Bytes := b!"#fragment push new
#fragment pop

#fragment push decl
#[derive(Copy, Clone, Default, Debug)]
public struct {name}<T>: BP3DProto.FixedSize {{
    data: T

    public static var size: Int {{ {byte_size} }}

    public init(_ data: T) {{
        self.data = data;
    }}
}}
#fragment pop

#fragment push fixed_size
#fragment pop

#fragment push write_to
extension {name}: BP3DProto.WriteTo where T: BP3DProto.Buffer {{
    public associatedtype Input = {name};

    public static func write<B: BP3DProto.WritableBuffer>(input: Input, to out: inout B) throws {{
        out.write(bytes: input.data.toData());
    }}
}}
#fragment pop

#fragment push from_slice
extension {name}: BP3DProto.FromSlice where T: BP3DProto.Buffer {{
    public associatedtype Output = {name};

    public static func from<B: BP3DProto.Buffer>(slice: B) throws -> BP3DProto.Message<Output> {{
        if slice.size < {byte_size} {{
            throw BP3DProto.Error.truncated;
        }}
        return BP3DProto.Message(size: {byte_size}, data: {name}(slice[...{byte_size}]));
    }}
}}
#fragment pop
"

/-- `compiler/src/gen/swift/structure.field.template` 1-124. -/
def swiftStructureField : Bytes := b!"#fragment push getters
extension {struct_name} where T: BP3DProto.Buffer {{
{fields}
#fragment push fixed
    public raw_{name}: {raw_type} {{
{fragment}
#fragment push bit
        BP3DProto.{codec}.{function_name}({raw_type}.self, self.data[{start}...{end}], bitOffset: {bit_offset}, bitSize: {bit_size})
#fragment pop
#fragment push byte
        BP3DProto.{codec}.{function_name}({raw_type}.self, self.data[{start}...{end}])
#fragment pop
    }}
#fragment pop
#fragment push array
    public {name}: BP3DProto.ArrayCodec<T, {codec}, {raw_type}> {{
        BP3DProto.ArrayCodec(buffer: self.data[{start}...{end}], itemBitSize: {bit_size})
    }}
#fragment pop
#fragment push struct
    public {name}: {type_name}<T> {{
        {type_name}(self.data[{start}...{end}])
    }}
#fragment pop
#fragment push view_float
    public {name}: {view_type} {{
        let raw_value = self.raw_{name} as {view_type};
        return raw_value * {a} + {b};
    }}
#fragment pop
#fragment push view_enum
    public {name}: {view_type}? {{
        let raw_value = self.raw_{name};
        return {view_type}(raw: raw_value);
    }}
#fragment pop
#fragment push view_transmute
    public {name}: {view_type} {{
{fragment}
#fragment push bool
        if self.raw_{name} != 0 {{
            return true;
        }} else {{
            return false;
        }}
#fragment pop
#fragment push other
        {view_type}(bitPattern: self.raw_{name})
#fragment pop
    }}
#fragment pop
#fragment push view_signed
    public {name}: {view_type} {{
        let raw_value = self.raw_{name};
        if raw_value > {max_positive} {{
            return -((((~raw_value) & {max_positive}) + 1) as {view_type});
        }} else {{
            return (raw_value & {max_positive}) as {view_type};
        }}
    }}
#fragment pop
#fragment push view_none
    public {name}: {view_type} {{
        self.raw_{name}
    }}
#fragment pop
}}
#fragment pop

#fragment push setters
impl<T: AsMut<[u8]>> {struct_name}<T> {{
{fields}
#fragment push fixed
    pub fn set_raw_{name}(&mut self, value: {raw_type}) {{
{fragment}
#fragment push bit
        unsafe {{ {codec}::{function_name}::<{raw_type}, {bit_offset}, {bit_size}>(&mut self.data.as_mut()[{start}..{end}], value) }}
#fragment pop
#fragment push byte
        unsafe {{ {codec}::{function_name}::<{raw_type}>(&mut self.data.as_mut()[{start}..{end}], value) }}
#fragment pop
    }}
#fragment pop
#fragment push array
#fragment pop
#fragment push struct
#fragment pop
#fragment push view_float
    pub fn set_{name}(&mut self, value: {view_type}) -> &mut Self {{
        let raw_value = value * {a_inv} + {b_inv};
        self.set_raw_{name}(raw_value as {raw_type});
        self
    }}
#fragment pop
#fragment push view_enum
    pub fn set_{name}(&mut self, value: {view_type}) -> &mut Self {{
        self.set_raw_{name}(value as {raw_type});
        self
    }}
#fragment pop
#fragment push view_transmute
    pub fn set_{name}(&mut self, value: {view_type}) -> &mut Self {{
{fragment}
#fragment push bool
        if value {{
            self.set_raw_{name}(1);
        }} else {{
            self.set_raw_{name}(0);
        }}
#fragment pop
#fragment push other
        self.set_raw_{name}(unsafe {{ std::mem::transmute::<{view_type}, {raw_type}>(value) }});
#fragment pop
        self
    }}
#fragment pop
#fragment push view_none
    pub fn set_{name}(&mut self, value: {view_type}) -> &mut Self {{
        self.set_raw_{name}(value);
        self
    }}
#fragment pop
}}
#fragment pop
"

end Proto.Tmpl
