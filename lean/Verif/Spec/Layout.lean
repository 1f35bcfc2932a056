import Verif.Gen.Struct
import Verif.Spec.Bits

/-!
# Specification of structure layouts

`Loc.abs` is the position of a field counted in bits from the start of the structure.  `WF` says that
fields are packed without gap; `WellPlaced` is the placement condition under which the generated
accessors address exactly the bits of their field.
-/

namespace Proto

/-- Position of a field, in bits from the start of its structure. -/
def Loc.abs (l : Loc) : Nat := 8 * l.byteOffset + l.bitOffset

/-- Number of bytes needed for `n` bits. -/
def ceil8 (n : Nat) : Nat := (n + 7) / 8

/-- Width in bits of the slot a field occupies. -/
def SField.width : SField → Nat
  | .fixed f => f.loc.bitSize
  | .array f => f.loc.bitSize
  | .struct _ r _ => r.bitSize

mutual
/-- The field sits at bit `o`, its location record is consistent, and (for a nested structure) the
nested structure is itself packed. -/
def SField.WF : SField → Nat → Prop
  | .fixed f, o => f.loc = ⟨o / 8, o % 8, ceil8 f.loc.bitSize, f.loc.bitSize⟩
  | .array f, o => f.loc = ⟨o / 8, o % 8, ceil8 f.loc.bitSize, f.loc.bitSize⟩ ∧
      f.loc.bitSize % 8 = 0 ∧ 1 < f.arrayLen ∧ ∃ w, f.loc.bitSize = w * f.arrayLen
  | .struct _ r loc, o => loc = ⟨o / 8, o % 8, ceil8 r.bitSize, r.bitSize⟩ ∧ r.WF

/-- The fields fill the bits from `o` to `e` in order, without gap or overlap. -/
def SField.listWF : List SField → Nat → Nat → Prop
  | [], o, e => o = e
  | f :: fs, o, e => f.WF o ∧ SField.listWF fs (o + f.width) e

/-- The structure is packed from bit 0 and its byte size is its bit size rounded up. -/
def Structure.WF : Structure → Prop
  | .mk _ _ fields byteSize bitSize => SField.listWF fields 0 bitSize ∧ byteSize = ceil8 bitSize
end

/-- Width in bits a declared field asks for: bits times array length, or the total of the nested
structure. -/
def declWidth (structs : List (Name × Structure)) (v : Model.SField) : Nat :=
  match v.info with
  | .struct t => ((structs.lookup t).map Structure.bitSize).getD 0
  | .signed b => b * v.arrayLen.getD 1
  | .unsigned b => b * v.arrayLen.getD 1
  | .float b => b * v.arrayLen.getD 1
  | .boolean b => b * v.arrayLen.getD 1

/-- The sum of the declared widths. -/
def declTotal (structs : List (Name × Structure)) (vs : List Model.SField) : Nat :=
  (vs.map (declWidth structs)).sum

/-- The compiled field `f` has the kind, name, element type, view, length and byte order the declared
field `v` asks for. -/
def Describes (p : Profile) (structs : List (Name × Structure)) (enums : List (Name × Enum))
    (endian : Endian) (v : Model.SField) : SField → Prop
  | .struct n r _ => n = v.name ∧ ∃ t, v.info = .struct t ∧ structs.lookup t = some r
  | .array a => a.name = v.name ∧ v.arrayLen = some a.arrayLen ∧ 1 < a.arrayLen ∧
      FixedTy.fromModel v.info = .ok a.ty ∧ a.endian = endian
  | .fixed f => f.name = v.name ∧ v.arrayLen.getD 1 ≤ 1 ∧ FixedTy.fromModel v.info = .ok f.ty ∧
      f.endian = endian ∧ ∃ bits, v.info.bitSize? = some bits ∧
        View.fromModel p enums v.info.simple bits v.view = .ok f.view

mutual
/-- Placement condition of one field: a scalar of 1 to 64 bits must not extend beyond the bytes its
own width occupies, an array has whole-byte items and starts on a byte boundary, a nested structure
starts on a byte boundary. -/
def SField.WellPlaced : SField → Prop
  | .fixed f => 1 ≤ f.loc.bitSize ∧ f.loc.bitSize ≤ 64 ∧ f.endian = .little ∧
      f.loc.bitOffset + f.loc.bitSize ≤ 8 * f.loc.byteSize
  | .array f => f.endian = .little ∧ f.loc.bitOffset = 0 ∧ f.itemBitSize % 8 = 0 ∧
      f.itemBitSize ≤ 8 * f.ty.byteSize
  | .struct _ r loc => loc.bitOffset = 0 ∧ r.WellPlaced

/-- Every field of the list is well placed. -/
def SField.listWellPlaced : List SField → Prop
  | [] => True
  | f :: fs => f.WellPlaced ∧ SField.listWellPlaced fs

/-- Every field of the structure, at any depth, is well placed. -/
def Structure.WellPlaced : Structure → Prop
  | .mk _ _ fields _ _ => SField.listWellPlaced fields
end

mutual
/-- The field has a width the generator supports: 1 to 64 bits per scalar or array item,
little-endian (the only byte order the compiler assigns). -/
def SField.Sized : SField → Prop
  | .fixed f => 1 ≤ f.loc.bitSize ∧ f.loc.bitSize ≤ 64 ∧ f.endian = .little
  | .array f => 1 ≤ f.itemBitSize ∧ f.itemBitSize ≤ 64 ∧ f.endian = .little
  | .struct _ r _ => r.Sized

/-- Every field of the list is of a supported width. -/
def SField.listSized : List SField → Prop
  | [] => True
  | f :: fs => f.Sized ∧ SField.listSized fs

/-- Every field of the structure, at any depth, is of a supported width. -/
def Structure.Sized : Structure → Prop
  | .mk _ _ fields _ _ => SField.listSized fields
end

namespace Access

/-- Every step of the accessor chain is well placed: a scalar fits the bytes its width occupies, an
array starts on a byte boundary and has whole-byte items no wider than the item type, a nested
structure starts on a byte boundary. -/
def Placed : Access → Prop
  | fixed f => f.loc.bitOffset + f.loc.bitSize ≤ 8 * f.loc.byteSize
  | item f _ => f.loc.bitOffset = 0 ∧ f.itemBitSize % 8 = 0 ∧ f.itemBitSize ≤ 8 * f.ty.byteSize
  | nested loc rest => loc.bitOffset = 0 ∧ rest.Placed

/-- Position, in bits from the start of the outermost structure, of the integer an accessor chain
denotes. -/
def offset : Access → Nat
  | fixed f => f.loc.abs
  | item f k => f.loc.abs + k * f.itemBitSize
  | nested loc rest => loc.abs + rest.offset

/-- Width in bits of the integer an accessor chain denotes. -/
def width : Access → Nat
  | fixed f => f.loc.bitSize
  | item f _ => f.itemBitSize
  | nested _ rest => rest.width

end Access

end Proto
