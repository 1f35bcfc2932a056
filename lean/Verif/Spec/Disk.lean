import Verif.Spec.Driver

/-!
# A file system: what is on it, what an operation does to it, what a crash leaves
-/

namespace Proto.Drv

open Tpl

/-- What is at a path. -/
inductive Entry where
  | dir
  | file (data : Bytes)
deriving DecidableEq, Repr

/-- What is on the disk, by path. -/
abbrev Disk := Bytes → Option Entry

/-- The directory a path is in: what comes before the last separator. -/
def parentOf (path : Bytes) : Bytes := ((path.reverse.dropWhile (· ≠ 0x2f)).drop 1).reverse

namespace Disk

/-- Putting something at a path. -/
def put (d : Disk) (path : Bytes) (e : Entry) : Disk := fun q => if q = path then some e else d q

/-- Making a directory needs its parent and nothing at its path; writing a file needs its parent and no
directory at its path. -/
def ok (d : Disk) : FsOp → Bool
  | .exists path => (d path).isSome
  | .createDir path => (d path).isNone && decide (d (parentOf path) = some .dir)
  | .write path _ => decide (d path ≠ some .dir) && decide (d (parentOf path) = some .dir)

/-- What an operation leaves on the disk; one that fails changes nothing. -/
def after (d : Disk) (o : FsOp) : Disk :=
  match o with
  | .exists _ => d
  | .createDir path => if d.ok o then d.put path .dir else d
  | .write path data => if d.ok o then d.put path (.file data) else d

/-- Operations one after the other. -/
def run (d : Disk) (ops : List FsOp) : Disk := ops.foldl after d

/-- The environment a disk makes. -/
def fs (d : Disk) : Fs := fun t o => (d.run t).ok o

end Disk

/-- What a crash while doing operations leaves: it comes between two of them, or during a write, which
then leaves anything at all in the file. -/
inductive Left (d : Disk) (ops : List FsOp) : Disk → Prop
  | between (k : Nat) : Left d ops (d.run (ops.take k))
  | during (k : Nat) {path data : Bytes} (junk : Bytes) (h : ops[k]? = some (.write path data))
      (hok : (d.run (ops.take k)).ok (.write path data) = true) :
      Left d ops ((d.run (ops.take k)).put path (.file junk))

/-- The name of a single entry of a directory. -/
def EntryName (n : Bytes) : Prop := n ≠ [] ∧ (0x2f : UInt8) ∉ n ∧ n ≠ utf8 "." ∧ n ≠ utf8 ".."

/-- A directory path as the environment gives it: not empty, no separator at its end. -/
def DirPath (out : Bytes) : Prop := out ≠ [] ∧ out.getLast? ≠ some 0x2f

/-- A generator of files lying directly in the directory of the protocol. -/
def Flat (g : Generator) : Prop := ∀ p files, g.generate p = .ok files → ∀ f ∈ files, EntryName f.name

/-- A path in a directory. -/
def sub (dir name : Bytes) : Bytes := dir ++ 0x2f :: name

/-- The output directory is there; under the names of protocols there is nothing or a directory, in
which there is no directory. -/
structure Ready (names : List Bytes) (out : Bytes) (d : Disk) : Prop where
  here : d out = some .dir
  protos : ∀ n ∈ names, d (sub out n) = none ∨ d (sub out n) = some .dir
  files : ∀ n ∈ names, ∀ f, EntryName f → d (sub (sub out n) f) ≠ some .dir

/-- Builds in the same output directory, each of them left anywhere between its start and its end. -/
inductive History (names : List Bytes) (out : Bytes) (d0 : Disk) : Disk → Prop
  | start : History names out d0 d0
  | build {d d' : Disk} (g : Generator) (c : Protoc) (before : History names out d0 d) (hg : Flat g)
      (hn : ∀ p ∈ c.protocols, Name.utf8 p.name ∈ names)
      (h : Left d (Protoc.generate g d.fs out c []).1 d') : History names out d0 d'

/-- The files of a protocol, and its umbrella. -/
def produces (g : Generator) (out : Bytes) (c : Protoc) (p : Protocol) : List (Bytes × Bytes) :=
  let dir := sub out (Name.utf8 p.name)
  match g.generate p with
  | .ok files =>
    let chosen := nonTrivial (files.filter fun f => c.enabled f.ty)
    chosen.map (fun f => (sub dir f.name, f.data)) ++
      match g.umbrella (Name.utf8 p.name) (chosen.map fun f => sub dir f.name) with
      | .ok u => if 1 < u.length then [(sub dir (utf8 "umbrella.rs"), u)] else []
      | _ => []
  | _ => []

/-- A disk with directories made and files written, the last one at a path winning. -/
def settled (d : Disk) (dirs : List Bytes) (files : List (Bytes × Bytes)) : Disk := fun path =>
  if path ∈ dirs then some .dir
  else match files.reverse.lookup path with
    | some data => some (.file data)
    | none => d path

end Proto.Drv
