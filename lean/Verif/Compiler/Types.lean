import Verif.Compiler.Model

/-!
# Compiled types of `compiler/src/compiler`

`Rc` identity is a number: `Structure.id` and `Message.id` stand for the allocation.
-/

namespace Proto

/-- `compiler/src/compiler/error.rs` 31-49. -/
inductive CError where
  | multiPayload
  | varsizeAfterPayload
  | unsupportedBitSize (bits : Nat)
  | unsupportedType (ty : Model.FieldTy)
  | unsupportedViewType (ty : Model.SimpleTy)
  | missingBitSize
  | undefinedReference (name : Name)
  | unalignedArrayCodec
  | solverError
  | zeroEnum
  | invalidUnionDiscriminant
  | floatInUnionDiscriminant
  | invalidUnionCase (case : Name)
  | unionTypeMismatch
deriving DecidableEq

/-- `Result<_, compiler::Error>`, plus panics.  `compiler/src/compiler/error.rs`. -/
abbrev C (α : Type) := Res CError α

/-- `compiler/src/compiler/structure.rs` 37-49 (`FixedFieldType`). -/
inductive FixedTy where
  | i8 | i16 | i32 | i64
  | u8 | u16 | u32 | u64
  | f32 | f64
  | bool
deriving DecidableEq, Repr

/-- `compiler/src/compiler/structure.rs` 119-124. -/
structure Loc where
  byteOffset : Nat
  bitOffset : Nat
  byteSize : Nat
  bitSize : Nat
deriving DecidableEq, Repr

/-- `compiler/src/compiler/enum.rs` 33-38; `variants_map` is represented by lookups in
`variants`. -/
structure Enum where
  name : Name
  largest : Nat
  variants : List (Name × Nat)
deriving DecidableEq

/-- `compiler/src/compiler/structure.rs` 147-168 (`FieldView`); `f64` simplified to rationals. -/
inductive View where
  | float (a b aInv bInv : Rat)
  | enum (e : Enum)
  | transmute
  | signedCast (maxPositive : Nat)
  | none
deriving DecidableEq

/-- `compiler/src/compiler/structure.rs` 227-233. -/
structure FixedField where
  name : Name
  ty : FixedTy
  loc : Loc
  view : View
  endian : Endian
deriving DecidableEq

/-- `compiler/src/compiler/structure.rs` 236-242. -/
structure ArrayField where
  name : Name
  ty : FixedTy
  arrayLen : Nat
  loc : Loc
  endian : Endian
deriving DecidableEq

mutual
/-- `compiler/src/compiler/structure.rs` 251-262 (`StructField`, `Field`). -/
inductive SField where
  | fixed (f : FixedField)
  | array (f : ArrayField)
  | struct (name : Name) (r : Structure) (loc : Loc)

/-- `compiler/src/compiler/structure.rs` 331-336, plus the identity of its `Rc`. -/
inductive Structure where
  | mk (id : Nat) (name : Name) (fields : List SField) (byteSize bitSize : Nat)
end

namespace Structure
/-- Identity of the `Rc<Structure>` allocation (`Rc::ptr_eq`).  `compiler/message.rs` 252. -/
def id : Structure → Nat | mk i _ _ _ _ => i
/-- Field `name` (`structure.rs` 332). -/
def name : Structure → Name | mk _ n _ _ _ => n
/-- Field `fields` (`structure.rs` 333). -/
def fields : Structure → List SField | mk _ _ f _ _ => f
/-- Field `byte_size` (`structure.rs` 334). -/
def byteSize : Structure → Nat | mk _ _ _ b _ => b
/-- Field `bit_size` (`structure.rs` 335). -/
def bitSize : Structure → Nat | mk _ _ _ _ b => b
end Structure

namespace SField
/-- `structure.rs` 272-278. -/
def loc : SField → Loc
  | fixed f => f.loc
  | array f => f.loc
  | struct _ _ l => l
/-- `structure.rs` 280-286. -/
def name : SField → Name
  | fixed f => f.name
  | array f => f.name
  | struct n _ _ => n
/-- `structure.rs` 265-270. -/
def asFixed : SField → Option FixedField
  | fixed f => some f
  | _ => none
end SField

/-- `compiler/src/compiler/message.rs` 113-116. -/
structure SizeInfo where
  isDynSized : Bool
  isElementDynSized : Bool
deriving DecidableEq, Repr

/-- `compiler/src/compiler/union.rs` 63-68. -/
structure Discriminant where
  root : Structure
  leaf : Structure
  leafIndex : Nat
  indexList : List Nat

mutual
/-- `compiler/src/compiler/message.rs` 39-42 (`Referenced`). -/
inductive Referenced where
  | struct (s : Structure)
  | message (m : Message)

/-- `compiler/src/compiler/message.rs` 60-98 (`FieldType` and its payload structs). -/
inductive MFieldTy where
  | fixed (ty : FixedTy)
  | ref (r : Referenced)
  | nullTerminatedString
  | varcharString (ty : FixedTy)
  | array (ty : FixedTy) (itemType : Structure)
  | union (u : Union) (onName : Name) (onIndex : Nat)
  | list (ty : FixedTy) (itemType : Message)
  | payload

/-- `compiler/src/compiler/message.rs` 119-125. -/
inductive MField where
  | mk (name : Name) (ty : MFieldTy) (optional : Bool) (size : SizeInfo) (endian : Endian)

/-- `compiler/src/compiler/message.rs` 291-296; the `embedded` cell lives in `World`. -/
inductive Message where
  | mk (id : Nat) (name : Name) (fields : List MField) (size : SizeInfo)

/-- `compiler/src/compiler/union.rs` 35-39. -/
inductive UCase where
  | mk (name : Name) (case : Nat) (itemType : Option Referenced)

/-- `compiler/src/compiler/union.rs` 132-137. -/
inductive Union where
  | mk (name : Name) (discriminant : Discriminant) (cases : List UCase) (size : SizeInfo)
end

namespace MField
/-- Field `name` (`message.rs` 120). -/
def name : MField → Name | mk n _ _ _ _ => n
/-- Field `ty` (`message.rs` 121). -/
def ty : MField → MFieldTy | mk _ t _ _ _ => t
/-- Field `optional` (`message.rs` 122). -/
def optional : MField → Bool | mk _ _ o _ _ => o
/-- Field `size` (`message.rs` 123). -/
def size : MField → SizeInfo | mk _ _ _ s _ => s
/-- Field `endianness` (`message.rs` 124). -/
def endian : MField → Endian | mk _ _ _ _ e => e
end MField

namespace Message
/-- Identity of the `Rc<Message>` allocation.  `compiler/message.rs` 194, 295. -/
def id : Message → Nat | mk i _ _ _ => i
/-- Field `name` (`message.rs` 292). -/
def name : Message → Name | mk _ n _ _ => n
/-- Field `fields` (`message.rs` 293). -/
def fields : Message → List MField | mk _ _ f _ => f
/-- Field `size` (`message.rs` 294). -/
def size : Message → SizeInfo | mk _ _ _ s => s
end Message

namespace UCase
/-- Field `name` (`union.rs` 36). -/
def name : UCase → Name | mk n _ _ => n
/-- Field `case` (`union.rs` 37). -/
def case : UCase → Nat | mk _ c _ => c
/-- Field `item_type` (`union.rs` 38). -/
def itemType : UCase → Option Referenced | mk _ _ t => t
end UCase

namespace Union
/-- Field `name` (`union.rs` 133). -/
def name : Union → Name | mk n _ _ _ => n
/-- Field `discriminant` (`union.rs` 134). -/
def discriminant : Union → Discriminant | mk _ d _ _ => d
/-- Field `cases` (`union.rs` 135). -/
def cases : Union → List UCase | mk _ _ c _ => c
/-- Field `size` (`union.rs` 136). -/
def size : Union → SizeInfo | mk _ _ _ s => s
end Union

/-- `compiler/src/compiler/protocol.rs` 40-52.  Each `HashMap` is an association list whose first
entry for a key is the current one (`insert` conses). -/
structure Protocol where
  name : Name
  endianness : Endian
  typePathByName : List (Name × Name)
  structsByName : List (Name × Structure)
  messagesByName : List (Name × Message)
  enumsByName : List (Name × Enum)
  unionsByName : List (Name × Union)
  structs : List Structure
  messages : List Message
  enums : List Enum
  unions : List Union

end Proto
