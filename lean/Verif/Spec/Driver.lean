import Verif.Gen.Driver
import Verif.Spec.Template

/-!
# What generating files means
-/

namespace Proto.Drv

open Tpl

/-- The files worth writing: more than one byte. -/
def nonTrivial (files : List File) : List File := files.filter fun f => 1 < f.data.length

/-- A file in a folder: the folder is made first. -/
def fileOps (out : Bytes) (f : File) : List FsOp :=
  (match subFolder f.name with
    | some d => [.createDir (Path.join out d)]
    | none => []) ++ [.write (Path.join out f.name) f.data]

/-- Everything done for one protocol when nothing fails; `there` tells whether its directory
exists. -/
def plan (g : Generator) (out : Bytes) (c : Protoc) (p : Protocol) (there : Bool) : List FsOp :=
  let dir := Path.join out (Name.utf8 p.name)
  match g.generate p with
  | .ok files =>
    let chosen := nonTrivial (files.filter fun f => c.enabled f.ty)
    .exists dir :: ((if there then [] else [.createDir dir]) ++ chosen.flatMap (fileOps dir) ++
      match g.umbrella (Name.utf8 p.name) (chosen.map fun f => Path.join dir f.name) with
      | .ok u => if 1 < u.length then [.write (Path.join dir (utf8 "umbrella.rs")) u] else []
      | _ => [])
  | _ => []

/-- What one protocol ends with when no operation fails. -/
def outcome (g : Generator) (out : Bytes) (c : Protoc) (p : Protocol) : Res PError Proto :=
  let dir := Path.join out (Name.utf8 p.name)
  match g.generate p with
  | .ok files =>
    let chosen := nonTrivial (files.filter fun f => c.enabled f.ty)
    match g.umbrella (Name.utf8 p.name) (chosen.map fun f => Path.join dir f.name) with
    | .ok u => .ok ⟨Name.utf8 p.name,
        if 1 < u.length then Path.join dir (utf8 "umbrella.rs") else dir⟩
    | .err e => .err e
    | .panic => .panic
  | .err e => .err e
  | .panic => .panic

/-- All operations succeed when done one after the other after those of `t`; the answer to `exists`
does not matter. -/
def AllOk (fs : Fs) (t : List FsOp) : List FsOp → Prop
  | [] => True
  | .exists d :: ops => AllOk fs (t ++ [.exists d]) ops
  | o :: ops => fs t o = true ∧ AllOk fs (t ++ [o]) ops

/-- Several protocols generated one after the other: the operations done and what is reported. -/
inductive Plans (g : Generator) (fs : Fs) (out : Bytes) (c : Protoc) :
    List FsOp → List Protocol → List FsOp → List Proto → Prop
  | nil (t) : Plans g fs out c t [] [] []
  | cons {t p ps ops r rs} (there : Bool)
      (ht : there = fs t (.exists (Path.join out (Name.utf8 p.name))))
      (hr : outcome g out c p = .ok r) (hok : AllOk fs t (plan g out c p there))
      (rest : Plans g fs out c (t ++ plan g out c p there) ps ops rs) :
      Plans g fs out c t (p :: ps) (plan g out c p there ++ ops) (r :: rs)

end Proto.Drv
