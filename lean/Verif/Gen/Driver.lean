import Verif.Compiler.Protocol
import Verif.Runtime.Message

/-!
# `compiler/src/gen/mod.rs`, `Protoc` of `compiler/src/interface.rs`, `compiler/src/build_script.rs`

The file system is an environment deciding, from the operations done so far, whether the next one
succeeds; a run is the list of operations done, oldest first, and an outcome.  Text and paths are
bytes.
-/

namespace Proto

/-- The bytes of a Rust `String`.  Rust, not in `/repo`. -/
def Name.utf8 (n : Name) : Bytes := n.flatMap String.utf8EncodeChar

/-- `gen/mod.rs` 38-46. -/
inductive FileType where
  | messageWriting
  | messageReading
  | message
  | structure
  | enum
  | union
deriving DecidableEq, Repr

/-- `gen/mod.rs` 48-52. -/
structure File where
  name : Bytes
  data : Bytes
  ty : FileType
deriving DecidableEq, Repr

/-- `Path::join` on Unix: an absolute second path replaces the first one, and a separator is added
unless the first path is empty or ends with one.  Rust; `interface.rs` 140, 166, `gen/mod.rs` 71, 73. -/
def Path.join (a b : Bytes) : Bytes :=
  if b.head? = some 0x2f then b
  else if a = [] ∨ a.getLast? = some 0x2f then a ++ b
  else a ++ [0x2f] ++ b

/-- File system operations.  `interface.rs` 141-142, 167, `gen/mod.rs` 71, 74. -/
inductive FsOp where
  | exists (path : Bytes)
  | createDir (path : Bytes)
  | write (path data : Bytes)
deriving DecidableEq, Repr

/-- Whether the next operation succeeds (for `exists`: its answer), given those done before.  The
environment, not in `/repo`. -/
abbrev Fs := List FsOp → FsOp → Bool

/-- `compiler/src/error.rs` 30-37 (`Error`), as far as generation is concerned. -/
inductive PError where
  | io
  | generator
deriving DecidableEq, Repr

/-- A computation using the file system.  `interface.rs` 135, `gen/mod.rs` 66. -/
abbrev FsM (α : Type) := List FsOp → List FsOp × Res PError α

namespace FsM

/-- Returning a value.  Rust, not in `/repo`. -/
def pure (a : α) : FsM α := fun t => (t, .ok a)

/-- Sequencing; errors and panics abort.  The `?` of `interface.rs` 142, 167, `gen/mod.rs` 71, 74. -/
def bind (x : FsM α) (f : α → FsM β) : FsM β := fun t =>
  match x t with
  | (t, .ok a) => f a t
  | (t, .err e) => (t, .err e)
  | (t, .panic) => (t, .panic)

instance : Monad FsM where
  pure := pure
  bind := bind

/-- Code that does not use the file system.  `interface.rs` 139, 164. -/
def lift (x : Res PError α) : FsM α := fun t => (t, x)

/-- An operation whose failure is an I/O error.  `interface.rs` 142, 167, `gen/mod.rs` 71, 74. -/
def op (fs : Fs) (o : FsOp) : FsM Unit := fun t =>
  (t ++ [o], if fs t o then .ok () else .err .io)

/-- `Path::exists`.  `interface.rs` 141. -/
def existsPath (fs : Fs) (path : Bytes) : FsM Bool := fun t =>
  (t ++ [.exists path], .ok (fs t (.exists path)))

end FsM

/-- `str::find("/")` and the slice up to it (`gen/mod.rs` 69). -/
def subFolder : Bytes → Option Bytes
  | [] => none
  | c :: rest => if c = 0x2f then some [] else (subFolder rest).map (c :: ·)

/-- `File::write` (`gen/mod.rs` 67-79). -/
def File.write (fs : Fs) (f : File) (outDirectory : Bytes) : FsM (Option Bytes) :=
  if f.data.length > 1 then do
    match subFolder f.name with
    | some sub => FsM.op fs (.createDir (Path.join outDirectory sub))
    | none => pure ()
    let path := Path.join outDirectory f.name
    FsM.op fs (.write path f.data)
    pure (some path)
  else pure none

/-- `gen/mod.rs` 82-89 (`Generator`), as the two functions it provides; an error's text is
dropped. -/
structure Generator where
  generate : Protocol → Res PError (List File)
  umbrella : Bytes → List Bytes → Res PError Bytes

/-- The default `generate_umbrella` (`gen/mod.rs` 86-88). -/
def Generator.noUmbrella : Bytes → List Bytes → Res PError Bytes := fun _ _ => .ok []

/-- `interface.rs` 77-80. -/
structure Proto where
  name : Bytes
  path : Bytes
deriving DecidableEq, Repr

/-- `interface.rs` 82-90. -/
structure Protoc where
  protocols : List Protocol
  writeMessages : Bool
  readMessages : Bool
  useEnums : Bool
  useStructs : Bool
  useMessages : Bool
  useUnions : Bool

namespace Protoc

/-- `interface.rs` 93-103. -/
def new (protocols : List Protocol) : Protoc :=
  { protocols, writeMessages := false, readMessages := false, useEnums := true, useStructs := true,
    useMessages := true, useUnions := true }

/-- `interface.rs` 105-108. -/
def setReadsMessages (c : Protoc) (flag : Bool) : Protoc := { c with readMessages := flag }
/-- `interface.rs` 110-113. -/
def setWritesMessages (c : Protoc) (flag : Bool) : Protoc := { c with writeMessages := flag }
/-- `interface.rs` 115-118. -/
def setUseEnums (c : Protoc) (flag : Bool) : Protoc := { c with useEnums := flag }
/-- `interface.rs` 120-123. -/
def setUseStructs (c : Protoc) (flag : Bool) : Protoc := { c with useStructs := flag }
/-- `interface.rs` 125-128. -/
def setUseMessages (c : Protoc) (flag : Bool) : Protoc := { c with useMessages := flag }
/-- `interface.rs` 130-133. -/
def setUseUnions (c : Protoc) (flag : Bool) : Protoc := { c with useUnions := flag }

/-- The filter of `interface.rs` 145-152. -/
def enabled (c : Protoc) : FileType → Bool
  | .messageWriting => c.writeMessages
  | .messageReading => c.readMessages
  | .message => c.useMessages
  | .structure => c.useStructs
  | .enum => c.useEnums
  | .union => c.useUnions

/-- `interface.rs` 154-162: writing stops at the first error. -/
def writeFiles (fs : Fs) (outPath : Bytes) : List File → FsM (List Bytes)
  | [] => pure []
  | f :: files => do
    let o ← f.write fs outPath
    let rest ← writeFiles fs outPath files
    match o with
    | some path => pure (path :: rest)
    | none => pure rest

/-- The name of the umbrella file (`interface.rs` 166): `umbrella.rs`. -/
def umbrellaName : Bytes := [0x75, 0x6d, 0x62, 0x72, 0x65, 0x6c, 0x6c, 0x61, 0x2e, 0x72, 0x73]

/-- One iteration of the loop of `generate` (`interface.rs` 137-175). -/
def generateOne (g : Generator) (fs : Fs) (outDirectory : Bytes) (c : Protoc) (proto : Protocol) :
    FsM Proto := do
  let name := Name.utf8 proto.name
  let files ← FsM.lift (g.generate proto)
  let outPath := Path.join outDirectory name
  let e ← FsM.existsPath fs outPath
  if !e then FsM.op fs (.createDir outPath)
  let paths ← writeFiles fs outPath (files.filter fun f => c.enabled f.ty)
  let umbrella ← FsM.lift (g.umbrella name paths)
  if umbrella.length > 1 then do
    let umbrellaPath := Path.join outPath umbrellaName
    FsM.op fs (.write umbrellaPath umbrella)
    pure ⟨name, umbrellaPath⟩
  else pure ⟨name, outPath⟩

/-- The loop of `generate` (`interface.rs` 137-176). -/
def generateAll (g : Generator) (fs : Fs) (outDirectory : Bytes) (c : Protoc) :
    List Protocol → FsM (List Proto)
  | [] => pure []
  | p :: ps => do
    let x ← generateOne g fs outDirectory c p
    let xs ← generateAll g fs outDirectory c ps
    pure (x :: xs)

/-- `generate` (`interface.rs` 135-178). -/
def generate (g : Generator) (fs : Fs) (outDirectory : Bytes) (c : Protoc) : FsM (List Proto) :=
  generateAll g fs outDirectory c c.protocols

end Protoc

/-- `u8::to_ascii_uppercase` of each byte (`str::to_ascii_uppercase`).  `build_script.rs` 62. -/
def asciiUpperAll (s : Bytes) : Bytes :=
  s.map fun c => if 0x61 ≤ c ∧ c ≤ 0x7a then c - 0x20 else c

/-- The text printed before the name (`build_script.rs` 62): `cargo::rustc-env=BP3D_PROTOC_`. -/
def envPrefix : Bytes :=
  [0x63, 0x61, 0x72, 0x67, 0x6f, 0x3a, 0x3a, 0x72, 0x75, 0x73, 0x74, 0x63, 0x2d, 0x65, 0x6e, 0x76,
   0x3d, 0x42, 0x50, 0x33, 0x44, 0x5f, 0x50, 0x52, 0x4f, 0x54, 0x4f, 0x43, 0x5f]

/-- `generate_rust` (`build_script.rs` 45-64): the lines printed.  `load` is the outcome of `load_fn`
on a new loader (`none` for an error), `outDir` the environment variable.  The world of `Rc`s starts
empty; the path is printed as is. -/
def generateRust (p : Profile) (g : Generator) (fs : Fs) (load : Option Loader)
    (configure : Protoc → Protoc) (outDir : Option Bytes) : List FsOp × Res Empty (List Bytes) :=
  match load with
  | none => ([], .panic)
  | some loader =>
    match loader.compile p SimpleImportSolver.default ⟨0, []⟩ with
    | .err _ => ([], .panic)
    | .panic => ([], .panic)
    | .ok (protocols, _) =>
      let protoc := configure (Protoc.new protocols)
      match outDir with
      | none => ([], .panic)
      | some outDir =>
        match protoc.generate g fs outDir [] with
        | (t, .ok generated) =>
          (t, .ok (generated.map fun x => envPrefix ++ asciiUpperAll x.name ++ [0x3d] ++ x.path))
        | (t, _) => (t, .panic)

end Proto
