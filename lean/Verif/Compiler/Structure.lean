import Verif.Compiler.Types

/-!
# `compiler/src/compiler/structure.rs` and `enum.rs`
-/

namespace Proto

namespace FixedTy

open Model (SimpleTy)

/-- `structure.rs` 51-58. -/
def mapNumeric (ty : SimpleTy) (signed unsigned float : FixedTy) : Option FixedTy :=
  match ty with
  | .signed => some signed
  | .unsigned => some unsigned
  | .float => some float
  | _ => none

/-- `structure.rs` 61-75. -/
def byteSize : FixedTy → Nat
  | i8 => 1
  | i16 => 2
  | i32 => 4
  | i64 => 8
  | u8 => 1
  | u16 => 2
  | u32 => 4
  | u64 => 8
  | f32 => 4
  | f64 => 8
  | bool => 1

/-- `structure.rs` 90-115. -/
def fromModel (ty1 : Model.FieldTy) : C FixedTy := do
  let ty := ty1.simple
  let bits ← Res.ofOption (.unsupportedType ty1) ty1.bitSize?
  if ty = .boolean then .ok bool
  else if ty = .float ∧ bits = 32 then .ok f32
  else if ty = .float ∧ bits = 64 then .ok f64
  else if bits > 32 ∧ bits ≤ 64 then
    Res.ofOption (.unsupportedType ty1) (mapNumeric ty i64 u64 f64)
  else if bits > 16 ∧ bits ≤ 32 then
    Res.ofOption (.unsupportedType ty1) (mapNumeric ty i32 u32 f64)
  else if bits > 8 ∧ bits ≤ 16 then
    Res.ofOption (.unsupportedType ty1) (mapNumeric ty i16 u16 f32)
  else if bits > 0 ∧ bits ≤ 8 then
    Res.ofOption (.unsupportedType ty1) (mapNumeric ty i8 u8 f32)
  else .err (.unsupportedBitSize bits)

/-- `structure.rs` 77-88. -/
def fromMaxValue (maxValue : Nat) : C FixedTy :=
  let bits :=
    if maxValue > 2 ^ 32 - 1 then 64
    else if maxValue > 2 ^ 16 - 1 then 32
    else if maxValue > 2 ^ 8 - 1 then 16
    else 8
  fromModel (.unsigned bits)

end FixedTy

namespace Loc

/-- `structure.rs` 127-139. -/
def fromModel (bitSize bitOffset : Nat) : Loc :=
  let byteOffset := bitOffset / 8
  { byteOffset
    bitOffset := bitOffset - byteOffset * 8
    bitSize
    byteSize := if bitSize % 8 ≠ 0 then bitSize / 8 + 1 else bitSize / 8 }

/-- `structure.rs` 141-143 (`get_unsigned_integer_type`): `unwrap` panics on the error. -/
def unsignedTy (l : Loc) : C FixedTy :=
  match FixedTy.fromModel (.unsigned l.bitSize) with
  | .ok t => .ok t
  | _ => .panic

end Loc

namespace View

/-- `structure.rs` 171-177. -/
def isTransmute : View → Bool
  | transmute => true
  | none => true
  | _ => false

/-- `structure.rs` 179-223.  `1.0 / a` and `max / raw_max` are exact; division by zero is `0`
instead of an infinity. -/
def fromModel (p : Profile) (enums : List (Name × Enum)) (ty : Model.SimpleTy) (bitSize : Nat) :
    Option Model.FieldView → C View
  | some (.enum name) =>
    if ty ≠ .unsigned then .err (.unsupportedViewType ty)
    else do
      let r ← Res.ofOption (.undefinedReference name) (enums.lookup name)
      pure (.enum r)
  | some (.floatRange min max) =>
    if ty ≠ .float then .err (.unsupportedViewType ty)
    else do
      let s ← shlU p usizeBits 1 bitSize
      let rawMax ← subU p usizeBits s 1
      let a := max / (rawMax : Rat)
      let b := min
      pure (.float a b (1 / a) (-b))
  | some (.floatMultiplier multiplier) =>
    if ty ≠ .float then .err (.unsupportedViewType ty)
    else pure (.float multiplier 0 (1 / multiplier) 0)
  | Option.none =>
    if ty = .float ∧ bitSize ≠ 32 ∧ bitSize ≠ 64 then .err (.unsupportedViewType ty)
    else if ty = .signed ∧ bitSize ≠ 8 ∧ bitSize ≠ 16 ∧ bitSize ≠ 32 ∧ bitSize ≠ 64 then do
      let sh ← subU p usizeBits bitSize 1
      let maxValue ← shlU p usizeBits 1 sh
      let m ← subU p usizeBits maxValue 1
      pure (.signedCast m)
    else if ty = .unsigned then pure .none
    else pure .transmute

end View

/-- `structure.rs` 245-247 (`item_bit_size`); division by zero panics. -/
def ArrayField.itemBitSize (f : ArrayField) : Nat := f.loc.bitSize / f.arrayLen

namespace SField

/-- `structure.rs` 288-327: the compiled field and the next free bit.  `structs` and `enums` are the
protocol's maps, `endian` its byte order. -/
def fromModel (p : Profile) (structs : List (Name × Structure)) (enums : List (Name × Enum))
    (endian : Endian) (last : Nat) (value : Model.SField) : C (SField × Nat) :=
  match value.info with
  | .struct itemType => do
    let r ← Res.ofOption (.undefinedReference itemType) (structs.lookup itemType)
    let next ← addU p usizeBits last r.bitSize
    pure (.struct value.name r (Loc.fromModel r.bitSize last), next)
  | _ => do
    let arrayLen := value.arrayLen.getD 1
    let bits ← Res.ofOption .missingBitSize value.info.bitSize?
    let view ← View.fromModel p enums value.info.simple bits value.view
    let bitSize ← mulU p usizeBits bits arrayLen
    let ty ← FixedTy.fromModel value.info
    let loc := Loc.fromModel bitSize last
    if arrayLen > 1 then
      if bitSize % 8 ≠ 0 then .err .unalignedArrayCodec
      else do
        let next ← addU p usizeBits last bitSize
        pure (.array { name := value.name, endian, arrayLen, ty, loc }, next)
    else do
      let next ← addU p usizeBits last bitSize
      pure (.fixed { name := value.name, endian, ty, loc, view }, next)

/-- The `map`/`collect` loop of `structure.rs` 340-349: compiles the fields in order, threading the
next free bit. -/
def fromModels (p : Profile) (structs : List (Name × Structure)) (enums : List (Name × Enum))
    (endian : Endian) : Nat → List Model.SField → C (List SField × Nat)
  | last, [] => pure ([], last)
  | last, v :: vs => do
    let (f, next) ← fromModel p structs enums endian last v
    let (fs, final) ← fromModels p structs enums endian next vs
    pure (f :: fs, final)

end SField

namespace Structure

/-- `structure.rs` 339-358; `id` is the identity of the `Rc` created by the caller. -/
def fromModel (p : Profile) (structs : List (Name × Structure)) (enums : List (Name × Enum))
    (endian : Endian) (id : Nat) (value : Model.Structure) : C Structure := do
  let (fields, last) ← SField.fromModels p structs enums endian 0 value.fields
  pure (.mk id value.name fields (if last % 8 ≠ 0 then last / 8 + 1 else last / 8) last)

end Structure

namespace Enum

/-- `compiler/src/compiler/enum.rs` 41-55; `sort_by` is a stable merge sort on the value. -/
def fromModel (value : Model.Enum) : C Enum := do
  let variants := value.variants.mergeSort (fun a b => a.2 ≤ b.2)
  let largest ← Res.ofOption .zeroEnum (variants.getLast?.map Prod.snd)
  pure { name := value.name, largest, variants }

end Enum

end Proto
