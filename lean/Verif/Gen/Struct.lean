import Verif.Compiler.Structure

/-!
# Meaning of the generated structure accessors

The Rust generator instantiates `compiler/src/gen/rust/structure.field.template`; the functions below
are the bodies of the instantiated `get_raw_x`, `set_raw_x`, `get_x`, `set_x`, with the template
variables supplied as `compiler/src/gen/base/structure.rs` supplies them.  A setter returns the buffer
after the call.
-/

namespace Proto

/-- `{start}` and `{end}` (`gen/base/structure.rs` 46-47, 78-79). -/
def Loc.stop (l : Loc) : Nat := l.byteOffset + l.byteSize

/-- `size_of::<{raw_type}>()`: `gen/base/structure.rs` 51-52, 83-84 with `gen/rust/util.rs` 94-96.
When `get_unsigned_integer_type` panics no code is generated; the model then uses `0`. -/
def Loc.rawSize (l : Loc) : Nat :=
  match l.unsignedTy with
  | .ok t => t.byteSize
  | _ => 0

namespace FixedField

/-- `{function_name}` (`gen/rust/util.rs` 98-114): the unaligned variant is used when the raw integer
type and the byte range differ in size. -/
def unaligned (f : FixedField) : Bool := f.loc.rawSize ≠ f.loc.byteSize

/-- Body of `get_raw_{name}` (`structure.field.template` fragments `getters.fixed.bit`,
`getters.fixed.byte`; selection in `gen/base/structure.rs` 55-63). -/
def getRaw (p : Profile) (f : FixedField) (buf : Bytes) : R Nat := do
  let s ← slice buf f.loc.byteOffset f.loc.stop
  if f.loc.bitSize % 8 ≠ 0 then
    if f.unaligned then
      BitCodec.readUnaligned p f.endian f.loc.rawSize f.loc.bitOffset f.loc.bitSize s
    else BitCodec.readAligned p f.endian f.loc.rawSize f.loc.bitOffset f.loc.bitSize s
  else
    if f.unaligned then ByteCodec.readUnaligned f.endian f.loc.rawSize s
    else ByteCodec.readAligned f.endian f.loc.rawSize s

/-- Body of `set_raw_{name}` (`structure.field.template` fragments `setters.fixed.bit`,
`setters.fixed.byte`; selection in `gen/base/structure.rs` 87-95). -/
def setRaw (p : Profile) (f : FixedField) (buf : Bytes) (value : Nat) : R Bytes := do
  let s ← slice buf f.loc.byteOffset f.loc.stop
  let s' ←
    if f.loc.bitSize % 8 ≠ 0 then
      if f.unaligned then
        BitCodec.writeUnaligned p f.endian f.loc.rawSize f.loc.bitOffset f.loc.bitSize s value
      else BitCodec.writeAligned p f.endian f.loc.rawSize f.loc.bitOffset f.loc.bitSize s value
    else
      if f.unaligned then ByteCodec.writeUnaligned f.endian f.loc.rawSize s value
      else ByteCodec.writeAligned f.endian f.loc.rawSize s value
  pure (splice buf f.loc.byteOffset s')

end FixedField

namespace ArrayField

/-- `get_{name}().get_raw(index)` for an array field (`structure.field.template` fragment
`getters.array`; `gen/base/structure.rs` 68-70): the item type is the declared element type. -/
def getItem (p : Profile) (f : ArrayField) (buf : Bytes) (index : Nat) : R Nat := do
  let s ← slice buf f.loc.byteOffset f.loc.stop
  ArrayCodec.getRaw p f.endian f.ty.byteSize f.itemBitSize s index

/-- `get_{name}_mut().set_raw(index, value)` (`structure.field.template` fragment `setters.array`;
`gen/base/structure.rs` 100-102). -/
def setItem (p : Profile) (f : ArrayField) (buf : Bytes) (index value : Nat) : R Bytes := do
  let s ← slice buf f.loc.byteOffset f.loc.stop
  let s' ← ArrayCodec.setRaw p f.endian f.ty.byteSize f.itemBitSize s index value
  pure (splice buf f.loc.byteOffset s')

/-- `get_{name}().len()`.  `gen/rust/structure.field.template` 15-19 and `runtime/src/codec/arrays.rs`.
-/
def getLen (f : ArrayField) (buf : Bytes) : R Nat := do
  let s ← slice buf f.loc.byteOffset f.loc.stop
  ArrayCodec.len f.itemBitSize s

/-- `get_{name}().iter_raw()`, collected.  `gen/rust/structure.field.template` 15-19 and
`runtime/src/codec/arrays.rs` 62-65. -/
def getIter (f : ArrayField) (buf : Bytes) : R (List Nat) := do
  let s ← slice buf f.loc.byteOffset f.loc.stop
  ArrayCodec.iterRaw f.endian f.ty.byteSize f.itemBitSize s

end ArrayField

/-- A chain of generated accessor calls ending on an integer: `get_raw_x()`, `get_x().get_raw(k)`, or
either of them behind `get_y()` / `get_y_mut()` of a nested structure.
`gen/rust/structure.field.template` 5, 16, 21, 78, 89, 94. -/
inductive Access where
  | fixed (f : FixedField)
  | item (f : ArrayField) (index : Nat)
  | nested (loc : Loc) (rest : Access)
deriving DecidableEq

/-- The accessor chain exists on the structure: every field named belongs to it and every array index is
below the declared length.  `gen/rust/structure.field.template` 5, 16, 21, 78, 89, 94. -/
inductive Structure.HasAccess : Structure → Access → Prop where
  | fixed {s : Structure} {f : FixedField} : SField.fixed f ∈ s.fields → HasAccess s (.fixed f)
  | item {s : Structure} {f : ArrayField} {k : Nat} : SField.array f ∈ s.fields → k < f.arrayLen →
      HasAccess s (.item f k)
  | nested {s : Structure} {n : Name} {r : Structure} {loc : Loc} {a : Access} :
      SField.struct n r loc ∈ s.fields → HasAccess r a → HasAccess s (.nested loc a)

namespace Access

/-- Reading through the chain; a nested step is `get_{name}()` of fragment `getters.struct`
(`gen/base/structure.rs` 71-72). -/
def get (p : Profile) : Access → Bytes → R Nat
  | fixed f, buf => f.getRaw p buf
  | item f k, buf => f.getItem p buf k
  | nested loc rest, buf => do
    let s ← slice buf loc.byteOffset loc.stop
    rest.get p s

/-- Writing through the chain; a nested step is `get_{name}_mut()` of fragment `setters.struct`
(`gen/base/structure.rs` 103-104). -/
def set (p : Profile) : Access → Bytes → Nat → R Bytes
  | fixed f, buf, v => f.setRaw p buf v
  | item f k, buf, v => f.setItem p buf k v
  | nested loc rest, buf, v => do
    let s ← slice buf loc.byteOffset loc.stop
    let s' ← rest.set p s v
    pure (splice buf loc.byteOffset s')

end Access

/-- `new_on_stack()` (`gen/rust/structure.template` 8-12): an all-zero buffer of the declared size. -/
def Structure.newOnStack (s : Structure) : Bytes := List.replicate s.byteSize 0

/-! ## Views -/

/-- Two's complement reinterpretation `uN → iN` (`transmute` / `as`) at `bits` bits.  Rust;
`gen/rust/structure.field.template` 52, 60, 62. -/
def toSigned (bits n : Nat) : Int :=
  if n < 2 ^ (bits - 1) then (n : Int) else (n : Int) - (2 ^ bits : Nat)

/-- Two's complement reinterpretation `iN → uN` at `bits` bits.  Rust;
`gen/rust/structure.field.template` 122. -/
def ofSigned (bits : Nat) (v : Int) : Nat := (v % (2 ^ bits : Nat)).toNat

/-- `-x` on a signed integer of `bits` bits.  Rust; `gen/rust/structure.field.template` 60. -/
def negS (p : Profile) (bits : Nat) (x : Int) : R Int :=
  if x = -(2 ^ (bits - 1) : Nat) then
    match p with
    | .checked => .panic
    | .wrapping => .ok x
  else .ok (-x)

/-- Float to unsigned `as` cast: truncation towards zero, saturating (`q as uN`).  Rust;
`gen/rust/structure.field.template` 101. -/
def satCast (bits : Nat) (q : Rat) : Nat := min q.floor.toNat (2 ^ bits - 1)

/-- The value of a view getter.  The results of `gen/rust/structure.field.template` 26, 32, 42, 57, 67.
-/
inductive ViewVal where
  | uint (n : Nat)
  | int (i : Int)
  | float (q : Rat)
  | floatBits (n : Nat)
  | bool (b : Bool)
  | enum (discriminant : Option Nat)
deriving DecidableEq

namespace FixedField

/-- Bits of the raw integer type.  `{raw_type}` of `gen/rust/structure.field.template`. -/
def rawBits (f : FixedField) : Nat := 8 * f.loc.rawSize

/-- Fragment `getters.view_float`.  `gen/rust/structure.field.template` 25-30. -/
def viewFloatGet (p : Profile) (f : FixedField) (a b : Rat) (buf : Bytes) : R Rat := do
  let raw ← f.getRaw p buf
  pure ((raw : Rat) * a + b)

/-- Fragment `getters.view_enum`: `None` above the largest value, otherwise the raw value reinterpreted
as the enum.  `gen/rust/structure.field.template` 31-40. -/
def viewEnumGet (p : Profile) (f : FixedField) (e : Enum) (buf : Bytes) : R (Option Nat) := do
  let raw ← f.getRaw p buf
  pure (if raw > e.largest then none else some raw)

/-- Fragment `getters.view_transmute.bool`.  `gen/rust/structure.field.template` 41-50. -/
def viewBoolGet (p : Profile) (f : FixedField) (buf : Bytes) : R Bool := do
  let raw ← f.getRaw p buf
  pure (if raw ≠ 0 then true else false)

/-- Fragment `getters.view_transmute.other`, for a signed type.  `gen/rust/structure.field.template`
41-55. -/
def viewTransmuteGet (p : Profile) (f : FixedField) (buf : Bytes) : R Int := do
  let raw ← f.getRaw p buf
  pure (toSigned f.rawBits raw)

/-- Fragment `getters.view_signed`.  `gen/rust/structure.field.template` 56-65. -/
def viewSignedGet (p : Profile) (f : FixedField) (maxPositive : Nat) (buf : Bytes) : R Int := do
  let raw ← f.getRaw p buf
  if raw > maxPositive then do
    let x ← addU p f.rawBits (notU f.rawBits raw &&& maxPositive) 1
    negS p f.rawBits (toSigned f.rawBits x)
  else pure (toSigned f.rawBits (raw &&& maxPositive))

/-- The view getter `get_{name}` (`gen/base/structure.rs` 108-130). -/
def getView (p : Profile) (f : FixedField) (buf : Bytes) : R ViewVal :=
  match f.view with
  | .float a b _ _ => do let q ← f.viewFloatGet p a b buf; pure (.float q)
  | .enum e => do let o ← f.viewEnumGet p e buf; pure (.enum o)
  | .transmute =>
    if f.ty = .bool then do let b ← f.viewBoolGet p buf; pure (.bool b)
    else if f.ty = .f32 ∨ f.ty = .f64 then do let raw ← f.getRaw p buf; pure (.floatBits raw)
    else do let i ← f.viewTransmuteGet p buf; pure (.int i)
  | .signedCast m => do let i ← f.viewSignedGet p m buf; pure (.int i)
  | .none => do let raw ← f.getRaw p buf; pure (.uint raw)

/-- Fragment `setters.view_float`: `(value * a_inv + b_inv) as raw_type`.
`gen/rust/structure.field.template` 98-104. -/
def viewFloatSet (p : Profile) (f : FixedField) (aInv bInv : Rat) (buf : Bytes) (v : Rat) :
    R Bytes :=
  f.setRaw p buf (satCast f.rawBits (v * aInv + bInv))

/-- Fragment `setters.view_enum`: `value as raw_type`.  `gen/rust/structure.field.template` 105-110. -/
def viewEnumSet (p : Profile) (f : FixedField) (buf : Bytes) (v : Nat) : R Bytes :=
  f.setRaw p buf (v % 2 ^ f.rawBits)

/-- Fragment `setters.view_transmute.bool`.  `gen/rust/structure.field.template` 111-120. -/
def viewBoolSet (p : Profile) (f : FixedField) (buf : Bytes) (v : Bool) : R Bytes :=
  if v then f.setRaw p buf 1 else f.setRaw p buf 0

/-- Fragment `setters.view_transmute.other`, for a signed type.  `gen/rust/structure.field.template`
111-126. -/
def viewSignedSet (p : Profile) (f : FixedField) (buf : Bytes) (v : Int) : R Bytes :=
  f.setRaw p buf (ofSigned f.rawBits v)

/-- The view setter `set_{name}` (`gen/base/structure.rs` 132-152); `none` when the argument does not
have the setter's parameter type. -/
def setView (p : Profile) (f : FixedField) (buf : Bytes) (v : ViewVal) : Option (R Bytes) :=
  match f.view, v with
  | .float _ _ aInv bInv, .float q => some (f.viewFloatSet p aInv bInv buf q)
  | .enum _, .enum (some d) => some (f.viewEnumSet p buf d)
  | .transmute, .bool b => if f.ty = .bool then some (f.viewBoolSet p buf b) else none
  | .transmute, .floatBits n =>
    if f.ty = .f32 ∨ f.ty = .f64 then some (f.setRaw p buf n) else none
  | .transmute, .int i =>
    if f.ty = .bool ∨ f.ty = .f32 ∨ f.ty = .f64 then none else some (f.viewSignedSet p buf i)
  | .signedCast _, .int i => some (f.viewSignedSet p buf i)
  | .none, .uint n => some (f.setRaw p buf n)
  | _, _ => none

end FixedField

end Proto
