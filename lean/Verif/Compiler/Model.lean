import Verif.Runtime.Codec

/-!
# `compiler/src/model`: the input description of a protocol

Strings are `List Char` (`Name`); `f64` parameters are exact rationals; a `HashMap` is an association
list.
-/

namespace Proto

/-- A Rust `String` in the compiler (as its characters).  For example `model/protocol.rs` 51. -/
abbrev Name := List Char

namespace Model

/-- `compiler/src/model/structure.rs` 34-45 (`f64` simplified to rationals). -/
inductive FieldView where
  | enum (name : Name)
  | floatRange (min max : Rat)
  | floatMultiplier (multiplier : Rat)
deriving DecidableEq

/-- `compiler/src/model/structure.rs` 50-66 (`StructFieldType`). -/
inductive FieldTy where
  | signed (bits : Nat)
  | unsigned (bits : Nat)
  | float (bits : Nat)
  | boolean (bits : Nat)
  | struct (itemType : Name)
deriving DecidableEq

/-- `compiler/src/model/structure.rs` 69-75. -/
inductive SimpleTy where
  | signed
  | unsigned
  | float
  | boolean
  | struct
deriving DecidableEq

/-- `compiler/src/model/structure.rs` 78-86. -/
def FieldTy.simple : FieldTy → SimpleTy
  | .signed _ => .signed
  | .unsigned _ => .unsigned
  | .float _ => .float
  | .boolean _ => .boolean
  | .struct _ => .struct

/-- `compiler/src/model/structure.rs` 88-96. -/
def FieldTy.bitSize? : FieldTy → Option Nat
  | .signed bits => some bits
  | .unsigned bits => some bits
  | .float bits => some bits
  | .boolean bits => some bits
  | .struct _ => none

/-- `compiler/src/model/structure.rs` 100-105. -/
structure SField where
  name : Name
  info : FieldTy
  view : Option FieldView := none
  arrayLen : Option Nat := none
deriving DecidableEq

/-- `compiler/src/model/structure.rs` 108-111. -/
structure Structure where
  name : Name
  fields : List SField
deriving DecidableEq

/-- `compiler/src/model/message.rs` 34-50. -/
inductive MFieldTy where
  | item (itemType : Name)
  | list (maxLen : Nat) (itemType : Name)
  | string (maxLen : Option Nat)
  | payload
  | union (on itemType : Name)
deriving DecidableEq

/-- `compiler/src/model/message.rs` 53-57. -/
structure MField where
  name : Name
  info : MFieldTy
  optional : Option Bool := none
deriving DecidableEq

/-- `compiler/src/model/message.rs` 60-63. -/
structure Message where
  name : Name
  fields : List MField
deriving DecidableEq

/-- `compiler/src/model/union.rs` 32-36. -/
structure UCase where
  name : Name
  case : Name
  itemType : Option Name := none
deriving DecidableEq

/-- `compiler/src/model/union.rs` 39-43. -/
structure Union where
  name : Name
  discriminant : Name
  cases : List UCase
deriving DecidableEq

/-- `compiler/src/model/protocol.rs` 43-47. -/
structure Import where
  protocol : Name
  typeName : Name
deriving DecidableEq

/-- `compiler/src/model/protocol.rs` 50-53; `variants` lists the entries of the `HashMap` in its
iteration order (arbitrary). -/
structure Enum where
  name : Name
  variants : List (Name × Nat)
deriving DecidableEq

/-- `compiler/src/model/protocol.rs` 56-64; absent lists are empty lists (`if let Some(..)`). -/
structure Protocol where
  name : Name
  endianness : Option Endian := none
  imports : List Import := []
  structs : List Structure := []
  messages : List Message := []
  enums : List Enum := []
  unions : List Union := []
deriving DecidableEq

end Model

end Proto
