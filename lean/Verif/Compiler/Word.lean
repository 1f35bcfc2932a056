import Verif.Compiler.Protocol

/-!
# The compiler on a host whose `usize` has another width

The functions of `compiler/src/compiler` and `compiler/src/interface.rs` that compute in `usize`, on a
host whose `usize` has `w` bits, and the functions that call them.  The others are those of
`Compiler/Structure.lean`, `Compiler/Message.lean` and `Compiler/Protocol.lean`: they compare and copy
`usize` values without arithmetic that can overflow.  `u32::MAX as usize` (`structure.rs` 78) is taken
to be `2^32 - 1`, so hosts have at least 32 bits.
-/

namespace Proto

/-- `structure.rs` 179-223 on a host of `w` bits; same simplification of `f64` as `View.fromModel`. -/
def View.fromModelAt (w : Nat) (p : Profile) (enums : List (Name × Enum)) (ty : Model.SimpleTy)
    (bitSize : Nat) : Option Model.FieldView → C View
  | some (.enum name) =>
    if ty ≠ .unsigned then .err (.unsupportedViewType ty)
    else do
      let r ← Res.ofOption (.undefinedReference name) (enums.lookup name)
      pure (.enum r)
  | some (.floatRange min max) =>
    if ty ≠ .float then .err (.unsupportedViewType ty)
    else do
      let s ← shlU p w 1 bitSize
      let rawMax ← subU p w s 1
      let a := max / (rawMax : Rat)
      let b := min
      pure (.float a b (1 / a) (-b))
  | some (.floatMultiplier multiplier) =>
    if ty ≠ .float then .err (.unsupportedViewType ty)
    else pure (.float multiplier 0 (1 / multiplier) 0)
  | Option.none =>
    if ty = .float ∧ bitSize ≠ 32 ∧ bitSize ≠ 64 then .err (.unsupportedViewType ty)
    else if ty = .signed ∧ bitSize ≠ 8 ∧ bitSize ≠ 16 ∧ bitSize ≠ 32 ∧ bitSize ≠ 64 then do
      let sh ← subU p w bitSize 1
      let maxValue ← shlU p w 1 sh
      let m ← subU p w maxValue 1
      pure (.signedCast m)
    else if ty = .unsigned then pure .none
    else pure .transmute

/-- `structure.rs` 288-327 on a host of `w` bits. -/
def SField.fromModelAt (w : Nat) (p : Profile) (structs : List (Name × Structure))
    (enums : List (Name × Enum)) (endian : Endian) (last : Nat) (value : Model.SField) :
    C (SField × Nat) :=
  match value.info with
  | .struct itemType => do
    let r ← Res.ofOption (.undefinedReference itemType) (structs.lookup itemType)
    let next ← addU p w last r.bitSize
    pure (.struct value.name r (Loc.fromModel r.bitSize last), next)
  | _ => do
    let arrayLen := value.arrayLen.getD 1
    let bits ← Res.ofOption .missingBitSize value.info.bitSize?
    let view ← View.fromModelAt w p enums value.info.simple bits value.view
    let bitSize ← mulU p w bits arrayLen
    let ty ← FixedTy.fromModel value.info
    let loc := Loc.fromModel bitSize last
    if arrayLen > 1 then
      if bitSize % 8 ≠ 0 then .err .unalignedArrayCodec
      else do
        let next ← addU p w last bitSize
        pure (.array { name := value.name, endian, arrayLen, ty, loc }, next)
    else do
      let next ← addU p w last bitSize
      pure (.fixed { name := value.name, endian, ty, loc, view }, next)

/-- The `map`/`collect` loop of `structure.rs` 340-349 on a host of `w` bits. -/
def SField.fromModelsAt (w : Nat) (p : Profile) (structs : List (Name × Structure))
    (enums : List (Name × Enum)) (endian : Endian) : Nat → List Model.SField → C (List SField × Nat)
  | last, [] => pure ([], last)
  | last, v :: vs => do
    let (f, next) ← SField.fromModelAt w p structs enums endian last v
    let (fs, final) ← SField.fromModelsAt w p structs enums endian next vs
    pure (f :: fs, final)

/-- `structure.rs` 339-358 on a host of `w` bits. -/
def Structure.fromModelAt (w : Nat) (p : Profile) (structs : List (Name × Structure))
    (enums : List (Name × Enum)) (endian : Endian) (id : Nat) (value : Model.Structure) :
    C Structure := do
  let (fields, last) ← SField.fromModelsAt w p structs enums endian 0 value.fields
  pure (.mk id value.name fields (if last % 8 ≠ 0 then last / 8 + 1 else last / 8) last)

/-- `str::parse::<usize>` (std) where `usize` has `w` bits.  `compiler/union.rs` 50. -/
def parseUsizeAt (w : Nat) (s : List Char) : Option Nat :=
  let digits := match s with
    | '+' :: cs => cs
    | cs => cs
  match parseNat digits with
  | some n => if n < 2 ^ w then some n else none
  | none => none

/-- `str::parse::<isize>` (std) where `isize` has `w` bits.  `compiler/union.rs` 47. -/
def parseIsizeAt (w : Nat) (s : List Char) : Option Int :=
  match s with
  | '-' :: cs =>
    match parseNat cs with
    | some n => if n ≤ 2 ^ (w - 1) then some (-(n : Int)) else none
    | none => none
  | '+' :: cs =>
    match parseNat cs with
    | some n => if n < 2 ^ (w - 1) then some (n : Int) else none
    | none => none
  | cs =>
    match parseNat cs with
    | some n => if n < 2 ^ (w - 1) then some (n : Int) else none
    | none => none

/-- `isize as usize` where both have `w` bits.  `compiler/union.rs` 48. -/
def isizeAsUsizeAt (w : Nat) (i : Int) : Nat := (i % 2 ^ w).toNat

/-- The value of a case (`union.rs` 43-51) on a host of `w` bits. -/
def UCase.caseValueAt (w : Nat) (view : View) (case : Name) : C Nat :=
  match view with
  | .float _ _ _ _ => .err .floatInUnionDiscriminant
  | .enum e => Res.ofOption (.invalidUnionCase case) (e.variants.lookup case)
  | .transmute => Res.ofOption (.invalidUnionCase case) ((parseIsizeAt w case).map (isizeAsUsizeAt w))
  | .signedCast _ =>
    Res.ofOption (.invalidUnionCase case) ((parseIsizeAt w case).map (isizeAsUsizeAt w))
  | .none => Res.ofOption (.invalidUnionCase case) (parseUsizeAt w case)

/-- `union.rs` 42-59 on a host of `w` bits. -/
def UCase.fromModelAt (w : Nat) (proto : Protocol) (discriminant : FixedField) (value : Model.UCase) :
    C UCase := do
  let case ← UCase.caseValueAt w discriminant.view value.case
  let itemType ← UCase.content proto value.itemType
  pure (.mk value.name case itemType)

/-- The `map`/`collect` over the cases (`union.rs` 142-143) on a host of `w` bits. -/
def Union.casesFromModelAt (w : Nat) (proto : Protocol) (d : Discriminant) :
    List Model.UCase → C (List UCase)
  | [] => pure []
  | v :: vs => do
    let leaf ← d.getLeaf
    let k ← UCase.fromModelAt w proto leaf v
    let ks ← Union.casesFromModelAt w proto d vs
    pure (k :: ks)

/-- `union.rs` 140-161 on a host of `w` bits. -/
def Union.fromModelAt (w : Nat) (proto : Protocol) (value : Model.Union) : C Union := do
  let discriminant ← Discriminant.fromModel proto value.discriminant
  let cases ← Union.casesFromModelAt w proto discriminant value.cases
  pure (.mk value.name discriminant cases
    ⟨Union.anySize SizeInfo.isDynSized cases, Union.anySize SizeInfo.isElementDynSized cases⟩)

namespace Protocol

/-- `for v in structs` (`protocol.rs` 116-122) on a host of `w` bits. -/
def addStructsAt (w : Nat) (p : Profile) : Nat → Protocol → List Model.Structure → C (Protocol × Nat)
  | next, proto, [] => pure (proto, next)
  | next, proto, v :: vs => do
    let s ← Structure.fromModelAt w p proto.structsByName proto.enumsByName proto.endianness next v
    addStructsAt w p (next + 1) { proto with structsByName := (s.name, s) :: proto.structsByName
                                             structs := proto.structs ++ [s] } vs

/-- `for v in unions` (`protocol.rs` 123-129) on a host of `w` bits. -/
def addUnionsAt (w : Nat) : Protocol → List Model.Union → C Protocol
  | proto, [] => pure proto
  | proto, v :: vs => do
    let u ← Union.fromModelAt w proto v
    addUnionsAt w { proto with unionsByName := (u.name, u) :: proto.unionsByName
                               unions := proto.unions ++ [u] } vs

/-- `protocol.rs` 55-138 on a host of `w` bits. -/
def fromModelAt (w : Nat) (p : Profile) (solver : Resolver) (world : World) (value : Model.Protocol) :
    C (Protocol × World) := do
  let proto ← addImports solver (empty value) value.imports
  let proto ← addEnums proto value.enums
  let (proto, next) ← addStructsAt w p world.next proto value.structs
  let proto ← addUnionsAt w proto value.unions
  addMessages ⟨next, world.embedded⟩ proto value.messages

end Protocol

namespace Loader

/-- The loop over the imports (`interface.rs` 66-69) on a host of `w` bits. -/
def compileImportsAt (w : Nat) (p : Profile) : SimpleImportSolver → World →
    List (Name × Model.Protocol) → C (SimpleImportSolver × World)
  | solver, world, [] => pure (solver, world)
  | solver, world, (path, model) :: rest => do
    let (proto, world) ← Protocol.fromModelAt w p solver.resolver world model
    compileImportsAt w p (solver.register path proto) world rest

/-- The `map`/`collect` over the models (`interface.rs` 70-72) on a host of `w` bits. -/
def compileModelsAt (w : Nat) (p : Profile) (solver : Resolver) : World → List Model.Protocol →
    C (List Protocol × World)
  | world, [] => pure ([], world)
  | world, model :: rest => do
    let (proto, world) ← Protocol.fromModelAt w p solver world model
    let (protos, world) ← compileModelsAt w p solver world rest
    pure (proto :: protos, world)

/-- `interface.rs` 65-74 on a host of `w` bits. -/
def compileAt (w : Nat) (p : Profile) (l : Loader) (solver : SimpleImportSolver) (world : World) :
    C (List Protocol × World) := do
  let (solver, world) ← compileImportsAt w p solver world l.importedModels
  compileModelsAt w p solver.resolver world l.models

end Loader

end Proto
