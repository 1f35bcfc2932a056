import Verif.Spec.Rust

/-!
# The generated Swift source, as text

What the Swift generator writes, written out as in `Spec/Rust.lean`.  The setters are Rust.
-/

namespace Proto.Text.Swift

/-- The Swift type of a fixed size value. -/
def typeName : FixedTy → Bytes
  | .i8 => b!"Int8" | .i16 => b!"Int16" | .i32 => b!"Int32" | .i64 => b!"Int64"
  | .u8 => b!"UInt8" | .u16 => b!"UInt16" | .u32 => b!"UInt32" | .u64 => b!"UInt64"
  | .f32 => b!"Float32" | .f64 => b!"Float64" | .bool => b!"Bool"

/-- The smallest unsigned integer type that holds `bits` bits. -/
def rawName (bits : Nat) : Bytes :=
  if bits ≤ 8 then b!"UInt8" else if bits ≤ 16 then b!"UInt16" else if bits ≤ 32 then b!"UInt32"
  else b!"UInt64"

/-- The codec of a bit field. -/
def bitCodec (e : Endian) : Bytes := t!"BP3DProto.BitCodec{suffix e}"

/-- The codec of a whole number of bytes. -/
def byteCodec (e : Endian) : Bytes := t!"BP3DProto.ByteCodec{suffix e}"

/-- The raw getter of a scalar field. -/
def rawGetter (f : FixedField) : Bytes :=
  let raw := rawName f.loc.bitSize
  let read := if Exact f.loc then b!"readAligned" else b!"readUnaligned"
  let body : Bytes := if f.loc.bitSize % 8 = 0 then
      t!"        BP3DProto.{byteCodec f.endian}.{read}({raw}.self, self.data[{first f.loc}...{last f.loc}])
"
    else
      t!"        BP3DProto.{bitCodec f.endian}.{read}({raw}.self, self.data[{first f.loc}...{last f.loc}], bitOffset: {display f.loc.bitOffset}, bitSize: {display f.loc.bitSize})
"
  t!"    public raw_{Name.utf8 f.name}: {raw} \{
{body}
    }
"

/-- The raw setter of a scalar field. -/
def rawSetter (f : FixedField) : Bytes :=
  let raw := rawName f.loc.bitSize
  let write := if Exact f.loc then b!"writeAligned" else b!"writeUnaligned"
  let body : Bytes := if f.loc.bitSize % 8 = 0 then
      t!"        unsafe \{ {byteCodec f.endian}::{write}::<{raw}>(&mut self.data.as_mut()[{first f.loc}..{last f.loc}], value) }
"
    else
      t!"        unsafe \{ {bitCodec f.endian}::{write}::<{raw}, {display f.loc.bitOffset}, {display f.loc.bitSize}>(&mut self.data.as_mut()[{first f.loc}..{last f.loc}], value) }
"
  t!"    pub fn set_raw_{Name.utf8 f.name}(&mut self, value: {raw}) \{
{body}
    }
"

/-- The getter of a scalar field. -/
def viewGetter (lib : Lib) (paths : List (Name × Name)) (f : FixedField) : Bytes :=
  let n := Name.utf8 f.name
  let ty := typeName f.ty
  match f.view with
  | .none =>
    t!"    public {n}: {ty} \{
        self.raw_{n}
    }
"
  | .transmute =>
    let body : Bytes := if f.ty = .bool then
        t!"        if self.raw_{n} != 0 \{
            return true;
        } else \{
            return false;
        }
"
      else
        t!"        {ty}(bitPattern: self.raw_{n})
"
    t!"    public {n}: {ty} \{
{body}
    }
"
  | .signedCast m =>
    t!"    public {n}: {ty} \{
        let raw_value = self.raw_{n};
        if raw_value > {display m} \{
            return -((((~raw_value) & {display m}) + 1) as {ty});
        } else \{
            return (raw_value & {display m}) as {ty};
        }
    }
"
  | .enum e =>
    t!"    public {n}: {pathOf paths e.name}? \{
        let raw_value = self.raw_{n};
        return {pathOf paths e.name}(raw: raw_value);
    }
"
  | .float a b _ _ =>
    t!"    public {n}: {ty} \{
        let raw_value = self.raw_{n} as {ty};
        return raw_value * {lib.debugF64 a} + {lib.debugF64 b};
    }
"

/-- The setter of a scalar field. -/
def viewSetter (lib : Lib) (paths : List (Name × Name)) (f : FixedField) : Bytes :=
  let n := Name.utf8 f.name
  let ty := typeName f.ty
  let raw := rawName f.loc.bitSize
  let body : Bytes := if f.ty = .bool then
      t!"        if value \{
            self.set_raw_{n}(1);
        } else \{
            self.set_raw_{n}(0);
        }
"
    else
      t!"        self.set_raw_{n}(unsafe \{ std::mem::transmute::<{ty}, {raw}>(value) });
"
  let bits : Bytes :=
    t!"    pub fn set_{n}(&mut self, value: {ty}) -> &mut Self \{
{body}
        self
    }
"
  match f.view with
  | .none =>
    t!"    pub fn set_{n}(&mut self, value: {ty}) -> &mut Self \{
        self.set_raw_{n}(value);
        self
    }
"
  | .transmute => bits
  | .signedCast _ => bits
  | .enum e =>
    t!"    pub fn set_{n}(&mut self, value: {pathOf paths e.name}) -> &mut Self \{
        self.set_raw_{n}(value as {raw});
        self
    }
"
  | .float _ _ aInv bInv =>
    t!"    pub fn set_{n}(&mut self, value: {ty}) -> &mut Self \{
        let raw_value = value * {lib.debugF64 aInv} + {lib.debugF64 bInv};
        self.set_raw_{n}(raw_value as {raw});
        self
    }
"

/-- The getters of a field. -/
def fieldGetter (lib : Lib) (paths : List (Name × Name)) : SField → Bytes
  | .fixed f => rawGetter f ++ viewGetter lib paths f
  | .array f =>
    t!"    public {Name.utf8 f.name}: BP3DProto.ArrayCodec<T, {byteCodec f.endian}, {typeName f.ty}> \{
        BP3DProto.ArrayCodec(buffer: self.data[{first f.loc}...{last f.loc}], itemBitSize: {display (f.loc.bitSize / f.arrayLen)})
    }
"
  | .struct n r l =>
    t!"    public {Name.utf8 n}: {pathOf paths r.name}<T> \{
        {pathOf paths r.name}(self.data[{first l}...{last l}])
    }
"

/-- The setters of a field: arrays and structures have none. -/
def fieldSetter (lib : Lib) (paths : List (Name × Name)) : SField → Bytes
  | .fixed f => rawSetter f ++ viewSetter lib paths f
  | .array _ => []
  | .struct _ _ _ => []

/-- The declarations of a structure that do not depend on its fields. -/
def structureHead (s : Structure) : Bytes :=
  let n := Name.utf8 s.name
  let size := display s.byteSize
  t!"#[derive(Copy, Clone, Default, Debug)]
public struct {n}<T>: BP3DProto.FixedSize \{
    data: T
    public static var size: Int \{ {size} }
    public init(_ data: T) \{
        self.data = data;
    }
}
extension {n}: BP3DProto.WriteTo where T: BP3DProto.Buffer \{
    public associatedtype Input = {n};
    public static func write<B: BP3DProto.WritableBuffer>(input: Input, to out: inout B) throws \{
        out.write(bytes: input.data.toData());
    }
}
extension {n}: BP3DProto.FromSlice where T: BP3DProto.Buffer \{
    public associatedtype Output = {n};
    public static func from<B: BP3DProto.Buffer>(slice: B) throws -> BP3DProto.Message<Output> \{
        if slice.size < {size} \{
            throw BP3DProto.Error.truncated;
        }
        return BP3DProto.Message(size: {size}, data: {n}(slice[...{size}]));
    }
}
"

/-- Everything generated for a structure. -/
def structureText (lib : Lib) (paths : List (Name × Name)) (s : Structure) : Bytes :=
  structureHead s ++
  t!"extension {Name.utf8 s.name} where T: BP3DProto.Buffer \{
{all (fieldGetter lib paths) s.fields}
}
" ++
  t!"impl<T: AsMut<[u8]>> {Name.utf8 s.name}<T> \{
{all (fieldSetter lib paths) s.fields}
}
"

end Proto.Text.Swift
