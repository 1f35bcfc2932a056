import Verif.Compiler.Message

/-!
# `compiler/src/compiler/protocol.rs`, `compiler/src/compiler/util.rs`, `compiler/src/util.rs`, and the
loader of `compiler/src/interface.rs`
-/

namespace Proto

/-- Mutable state shared by all compilations: the next fresh `Rc` identity, and the messages whose
`embedded` cell is set.  `compiler/message.rs` 194, 252, 295. -/
structure World where
  next : Nat
  embedded : List Nat

/-- `compiler/util.rs` 33-36 (`ImportResolver`), as the two functions it provides. -/
structure Resolver where
  protocolByName : Name → Option Protocol
  fullTypePath : Name → Name → Option Name

/-- `compiler/util.rs` 69-77 (`ImportResolver for ()`). -/
def Resolver.none : Resolver := ⟨fun _ => Option.none, fun _ _ => Option.none⟩

/-- `compiler/src/util.rs` 34-37; the map is an association list whose first entry for a key is the
current one. -/
structure SimpleImportSolver where
  importMap : List (Name × Name × Protocol)
  separator : Name

namespace SimpleImportSolver

/-- `compiler/src/util.rs` 46-51. -/
def new (separator : Name) : SimpleImportSolver := ⟨[], separator⟩

/-- `compiler/src/util.rs` 54-58. -/
def default : SimpleImportSolver := new "::".toList

/-- `compiler/src/util.rs` 40-42. -/
def register (s : SimpleImportSolver) (baseImportPath : Name) (protocol : Protocol) :
    SimpleImportSolver :=
  { s with importMap := (protocol.name, baseImportPath, protocol) :: s.importMap }

/-- `compiler/src/util.rs` 60-69. -/
def resolver (s : SimpleImportSolver) : Resolver where
  protocolByName name := (s.importMap.lookup name).map Prod.snd
  fullTypePath protocol typeName :=
    (s.importMap.lookup protocol).map fun v => v.1 ++ s.separator ++ typeName

end SimpleImportSolver

/-- `TypePathMap::get` (`compiler/util.rs` 54-59). -/
def typePath (paths : List (Name × Name)) (itemType : Name) : Name := (paths.lookup itemType).getD itemType

/-- `TypePathMap::get_with_default_prefix` (`compiler/util.rs` 61-66). -/
def typePathWithPrefix (paths : List (Name × Name)) (itemType defaultPrefix : Name) : Name :=
  match paths.lookup itemType with
  | some v => v
  | none => defaultPrefix ++ itemType

namespace Protocol

/-- `protocol.rs` 56-68: the declared endianness is not used. -/
def empty (value : Model.Protocol) : Protocol :=
  { name := value.name, endianness := .little, typePathByName := [], structsByName := [],
    messagesByName := [], enumsByName := [], unionsByName := [], structs := [], messages := [],
    enums := [], unions := [] }

/-- One iteration over the imports (`protocol.rs` 71-106). -/
def addImport (solver : Resolver) (proto : Protocol) (v : Model.Import) : C Protocol := do
  let r ← Res.ofOption (.undefinedReference v.protocol) (solver.protocolByName v.protocol)
  match r.structsByName.lookup v.typeName with
  | some s => do
    let path ← Res.ofOption .solverError (solver.fullTypePath v.protocol v.typeName)
    pure { proto with structsByName := (v.typeName, s) :: proto.structsByName
                      typePathByName := (s.name, path) :: proto.typePathByName }
  | none =>
    match r.enumsByName.lookup v.typeName with
    | some e => do
      let path ← Res.ofOption .solverError (solver.fullTypePath v.protocol v.typeName)
      pure { proto with enumsByName := (v.typeName, e) :: proto.enumsByName
                        typePathByName := (e.name, path) :: proto.typePathByName }
    | none =>
      match r.unionsByName.lookup v.typeName with
      | some u => do
        let path ← Res.ofOption .solverError (solver.fullTypePath v.protocol v.typeName)
        pure { proto with unionsByName := (v.typeName, u) :: proto.unionsByName
                          typePathByName := (u.name, path) :: proto.typePathByName }
      | none => do
        let m ← Res.ofOption (.undefinedReference (v.protocol ++ "::".toList ++ v.typeName))
          (r.messagesByName.lookup v.typeName)
        let path ← Res.ofOption .solverError (solver.fullTypePath v.protocol v.typeName)
        pure { proto with messagesByName := (v.typeName, m) :: proto.messagesByName
                          typePathByName := (m.name, path) :: proto.typePathByName }

/-- `for v in imports` (`protocol.rs` 70-108). -/
def addImports (solver : Resolver) : Protocol → List Model.Import → C Protocol
  | proto, [] => pure proto
  | proto, v :: vs => do
    let proto ← addImport solver proto v
    addImports solver proto vs

/-- `for v in enums` (`protocol.rs` 109-115). -/
def addEnums : Protocol → List Model.Enum → C Protocol
  | proto, [] => pure proto
  | proto, v :: vs => do
    let e ← Enum.fromModel v
    addEnums { proto with enumsByName := (e.name, e) :: proto.enumsByName
                          enums := proto.enums ++ [e] } vs

/-- `for v in structs` (`protocol.rs` 116-122); `next` is the identity of the next `Rc`. -/
def addStructs (p : Profile) : Nat → Protocol → List Model.Structure → C (Protocol × Nat)
  | next, proto, [] => pure (proto, next)
  | next, proto, v :: vs => do
    let s ← Structure.fromModel p proto.structsByName proto.enumsByName proto.endianness next v
    addStructs p (next + 1) { proto with structsByName := (s.name, s) :: proto.structsByName
                                         structs := proto.structs ++ [s] } vs

/-- `for v in unions` (`protocol.rs` 123-129). -/
def addUnions : Protocol → List Model.Union → C Protocol
  | proto, [] => pure proto
  | proto, v :: vs => do
    let u ← Union.fromModel proto v
    addUnions { proto with unionsByName := (u.name, u) :: proto.unionsByName
                           unions := proto.unions ++ [u] } vs

/-- `for v in messages` (`protocol.rs` 130-136). -/
def addMessages : World → Protocol → List Model.Message → C (Protocol × World)
  | w, proto, [] => pure (proto, w)
  | w, proto, v :: vs => do
    let (m, emb) ← Message.fromModel proto w.embedded w.next v
    addMessages ⟨w.next + 1, emb⟩ { proto with messagesByName := (m.name, m) :: proto.messagesByName
                                               messages := proto.messages ++ [m] } vs

/-- `protocol.rs` 55-138. -/
def fromModel (p : Profile) (solver : Resolver) (w : World) (value : Model.Protocol) :
    C (Protocol × World) := do
  let proto ← addImports solver (empty value) value.imports
  let proto ← addEnums proto value.enums
  let (proto, next) ← addStructs p w.next proto value.structs
  let proto ← addUnions proto value.unions
  addMessages ⟨next, w.embedded⟩ proto value.messages

end Protocol

/-! ## Loading -/

/-- `interface.rs` 38-41, after parsing of the files. -/
structure Loader where
  models : List Model.Protocol
  importedModels : List (Name × Model.Protocol)

namespace Loader

/-- `interface.rs` 44-49. -/
def new : Loader := ⟨[], []⟩

/-- `interface.rs` 51-56; reading and parsing the file is in `Compiler/Input.lean`. -/
def load (l : Loader) (model : Model.Protocol) : Loader := { l with models := l.models ++ [model] }

/-- `interface.rs` 58-63; reading and parsing the file is in `Compiler/Input.lean`. -/
def import' (l : Loader) (model : Model.Protocol) (importPath : Name) : Loader :=
  { l with importedModels := l.importedModels ++ [(importPath, model)] }

/-- The loop over the imports (`interface.rs` 66-69). -/
def compileImports (p : Profile) : SimpleImportSolver → World → List (Name × Model.Protocol) →
    C (SimpleImportSolver × World)
  | solver, w, [] => pure (solver, w)
  | solver, w, (path, model) :: rest => do
    let (proto, w) ← Protocol.fromModel p solver.resolver w model
    compileImports p (solver.register path proto) w rest

/-- The `map`/`collect` over the models (`interface.rs` 70-72). -/
def compileModels (p : Profile) (solver : Resolver) : World → List Model.Protocol →
    C (List Protocol × World)
  | w, [] => pure ([], w)
  | w, model :: rest => do
    let (proto, w) ← Protocol.fromModel p solver w model
    let (protos, w) ← compileModels p solver w rest
    pure (proto :: protos, w)

/-- `interface.rs` 65-74 with the solver of `util.rs`; the world starts empty. -/
def compile (p : Profile) (l : Loader) (solver : SimpleImportSolver) (w : World) :
    C (List Protocol × World) := do
  let (solver, w) ← compileImports p solver w l.importedModels
  compileModels p solver.resolver w l.models

end Loader

end Proto
