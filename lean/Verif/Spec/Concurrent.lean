import Verif.Spec.Disk

/-!
# Builds running at the same time in one output directory
-/

namespace Proto.Drv

/-- A build: what is generated, with what options. -/
structure Build where
  gen : Generator
  conf : Protoc

/-- What builds did, oldest first, each operation with the number of the build doing it. -/
abbrev Schedule := List (Nat × FsOp)

/-- The operations of one of the builds. -/
def Schedule.of (e : Schedule) (i : Nat) : List FsOp :=
  e.filterMap fun x => if x.1 = i then some x.2 else none

/-- The operations of all of them. -/
def Schedule.ops (e : Schedule) : List FsOp := e.map Prod.snd

/-- Builds running at the same time from a disk, each of them anywhere between its start and its end.
Every build runs in an environment of its own; what this environment answers is what the disk, as
everything done before by all the builds has left it, answers. -/
structure Runs (bs : List Build) (out : Bytes) (d : Disk) (envs : Nat → Fs) (e : Schedule) : Prop where
  known : ∀ x ∈ e, x.1 < bs.length
  program : ∀ i b, bs[i]? = some b → e.of i <+: (Protoc.generate b.gen (envs i) out b.conf []).1
  answers : ∀ (before after : Schedule) (i : Nat) (o : FsOp), e = before ++ (i, o) :: after →
    envs i (before.of i) o = (d.run before.ops).ok o

/-- A build has ended, with a result. -/
def Ended (bs : List Build) (out : Bytes) (envs : Nat → Fs) (e : Schedule) (i : Nat)
    (r : Res PError (List Proto)) : Prop :=
  ∃ b, bs[i]? = some b ∧ Protoc.generate b.gen (envs i) out b.conf [] = (e.of i, r)

/-- Builds that could be done one at a time: files lie directly in the directory of their protocol,
protocols have names from a list, and the generator generates. -/
structure Sound (names : List Bytes) (out : Bytes) (b : Build) : Prop where
  flat : Flat b.gen
  named : ∀ p ∈ b.conf.protocols, Name.utf8 p.name ∈ names
  good : ∀ p ∈ b.conf.protocols, ∃ r, outcome b.gen out b.conf p = .ok r

/-- Everything a build produces. -/
def Build.files (b : Build) (out : Bytes) : List (Bytes × Bytes) :=
  b.conf.protocols.flatMap (produces b.gen out b.conf)

/-- The directories a build needs. -/
def Build.dirs (b : Build) (out : Bytes) : List Bytes :=
  b.conf.protocols.map fun p => sub out (Name.utf8 p.name)

/-- Writing a file in steps: it is emptied, then parts of the contents are written where the writer is. -/
inductive Step where
  | empty
  | part (data : Bytes)

/-- A file, and where each of its writers is. -/
structure Opened where
  content : Bytes
  pos : Nat → Nat

/-- Writing at a position; a gap is filled with zeros. -/
def writeAt (c : Bytes) (k : Nat) (x : Bytes) : Bytes :=
  if x = [] then c else c.take k ++ List.replicate (k - c.length) 0 ++ x ++ c.drop (k + x.length)

/-- A step of one of the writers. -/
def Opened.step (s : Opened) (ev : Nat × Step) : Opened :=
  match ev.2 with
  | .empty => ⟨[], fun j => if j = ev.1 then 0 else s.pos j⟩
  | .part x => ⟨writeAt s.content (s.pos ev.1) x, fun j => if j = ev.1 then s.pos j + x.length else s.pos j⟩

/-- The steps of one of the writers. -/
def stepsOf (e : List (Nat × Step)) (i : Nat) : List Step :=
  e.filterMap fun x => if x.1 = i then some x.2 else none

/-- A writer writes given contents, from start to end. -/
def Writes (steps : List Step) (data : Bytes) : Prop :=
  ∃ parts : List Bytes, steps = .empty :: parts.map .part ∧ parts.flatten = data

end Proto.Drv
