import Verif.Gen.Template
import Verif.Gen.Templates

/-!
# The template files, compiled

The result of `Template.compile` on each template file, written out at elaboration, with the
equation checked by the kernel.
-/

open Lean

namespace Proto

deriving instance ToExpr for Component
deriving instance ToExpr for Fragment
deriving instance ToExpr for Fn
deriving instance ToExpr for Template

namespace Tmpl

/-- The template a text compiles to (empty when it does not). -/
def compiled (text : Bytes) : Template Fn :=
  match Template.compile text with
  | .ok t => t
  | _ => ⟨[], []⟩

set_option maxRecDepth 100000

/-- `gen/rust/enum.template` 1-9, compiled. -/
def rustEnumT : Template Fn := by_elab return toExpr (compiled rustEnum)

theorem rustEnum_compile : Template.compile rustEnum = .ok rustEnumT := by krfl

/-- `gen/rust/structure.template` 1-71, compiled. -/
def rustStructureT : Template Fn := by_elab return toExpr (compiled rustStructure)

theorem rustStructure_compile : Template.compile rustStructure = .ok rustStructureT := by krfl

/-- `gen/rust/structure.field.template` 1-134, compiled. -/
def rustStructureFieldT : Template Fn := by_elab return toExpr (compiled rustStructureField)

theorem rustStructureField_compile : Template.compile rustStructureField = .ok rustStructureFieldT := by krfl

/-- `gen/rust/union.template` 1-122, compiled. -/
def rustUnionT : Template Fn := by_elab return toExpr (compiled rustUnion)

theorem rustUnion_compile : Template.compile rustUnion = .ok rustUnionT := by krfl

/-- `gen/rust/message.template` 1-17, compiled. -/
def rustMessageT : Template Fn := by_elab return toExpr (compiled rustMessage)

theorem rustMessage_compile : Template.compile rustMessage = .ok rustMessageT := by krfl

/-- `gen/rust/message.ext.template` 1-7, compiled. -/
def rustMessageExtT : Template Fn := by_elab return toExpr (compiled rustMessageExt)

theorem rustMessageExt_compile : Template.compile rustMessageExt = .ok rustMessageExtT := by krfl

/-- `gen/rust/message.from_slice.template` 1-48, compiled. -/
def rustMessageFromSliceT : Template Fn := by_elab return toExpr (compiled rustMessageFromSlice)

theorem rustMessageFromSlice_compile : Template.compile rustMessageFromSlice = .ok rustMessageFromSliceT := by krfl

/-- `gen/rust/message.write.template` 1-32, compiled. -/
def rustMessageWriteT : Template Fn := by_elab return toExpr (compiled rustMessageWrite)

theorem rustMessageWrite_compile : Template.compile rustMessageWrite = .ok rustMessageWriteT := by krfl

/-- `gen/rust/message.offsets.template` 1-73, compiled. -/
def rustMessageOffsetsT : Template Fn := by_elab return toExpr (compiled rustMessageOffsets)

theorem rustMessageOffsets_compile : Template.compile rustMessageOffsets = .ok rustMessageOffsetsT := by krfl

/-- `gen/swift/structure.template` 1-41, compiled. -/
def swiftStructureT : Template Fn := by_elab return toExpr (compiled swiftStructure)

theorem swiftStructure_compile : Template.compile swiftStructure = .ok swiftStructureT := by krfl

/-- `gen/swift/structure.field.template` 1-124, compiled. -/
def swiftStructureFieldT : Template Fn := by_elab return toExpr (compiled swiftStructureField)

theorem swiftStructureField_compile : Template.compile swiftStructureField = .ok swiftStructureFieldT := by krfl

end Tmpl

end Proto
