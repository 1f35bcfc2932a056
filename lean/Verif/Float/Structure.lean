import Verif.Float.Ieee

/-!
# Structures whose float views have the parameters computed in `f64`
-/

namespace Proto.Ieee

open Proto

/-- A field as compiled, with the parameters of a float view computed in `f64`; `none` when one of them is
not finite.  Nested structures have accessors of their own.  `compiler/src/compiler/structure.rs` 183-208. -/
def roundedField (m : Model.SField) : SField → Option SField
  | .fixed f =>
    match m.info, m.view with
    | .float n, some w => do
      let (a, b, aInv, bInv) ← params n w
      some (.fixed { f with view := .float a b aInv bInv })
    | _, _ => some (.fixed f)
  | f => some f

/-- The fields of a structure, declared and compiled.  `compiler/src/compiler/structure.rs` 341-350. -/
def roundedFields : List Model.SField → List SField → Option (List SField)
  | m :: ms, f :: fs => do
    let g ← roundedField m f
    let gs ← roundedFields ms fs
    some (g :: gs)
  | _, fs => some fs

/-- A structure as compiled, with the parameters of its float views computed in `f64`.
`compiler/src/compiler/structure.rs` 183-208, 338-359. -/
def rounded (d : Model.Structure) (s : Structure) : Option Structure := do
  let fs ← roundedFields d.fields s.fields
  some (.mk s.id s.name fs s.byteSize s.bitSize)

end Proto.Ieee
