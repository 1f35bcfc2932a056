import Verif.Compiler.Protocol
import Mathlib.Data.List.Forall2

/-!
# A schema to which declarations are added

What was declared stays as it was and in the same order; between the declarations there may be new ones, and
between the files new files.
-/

namespace Proto

namespace Model

/-- The names of types a declaration mentions, its own included. -/
def SField.typeNames (v : SField) : List Name :=
  (match v.info with
    | .struct t => [t]
    | _ => []) ++
  match v.view with
    | some (.enum n) => [n]
    | _ => []

def Structure.typeNames (v : Structure) : List Name := v.name :: v.fields.flatMap SField.typeNames

def MField.typeNames (v : MField) : List Name :=
  match v.info with
  | .item t => [t]
  | .list _ t => [t]
  | .union _ t => [t]
  | _ => []

def Message.typeNames (v : Message) : List Name := v.name :: v.fields.flatMap MField.typeNames

/-- A discriminant begins with the name of a structure, up to the first dot. -/
def Union.typeNames (v : Union) : List Name :=
  v.name :: v.discriminant.takeWhile (· ≠ '.') :: v.cases.flatMap (fun k => k.itemType.toList)

def Protocol.typeNames (v : Protocol) : List Name :=
  v.imports.map Import.typeName ++ v.enums.map Enum.name ++ v.structs.flatMap Structure.typeNames ++
    v.unions.flatMap Union.typeNames ++ v.messages.flatMap Message.typeNames

/-- The types of list items. -/
def Message.listed (v : Message) : List Name :=
  v.fields.flatMap fun f => match f.info with
    | .list _ t => [t]
    | _ => []

end Model

/-- The second list is the first with other items inserted, all satisfying `new`. -/
inductive Adds {α : Type} (new : α → Prop) : List α → List α → Prop
  | nil : Adds new [] []
  | keep {a l l'} : Adds new l l' → Adds new (a :: l) (a :: l')
  | add {a l l'} : new a → Adds new l l' → Adds new l (a :: l')

/-- The same file with declarations and imports added, none of them under an old name, and only messages for which
`ok` holds. -/
structure Model.Protocol.Grown (old : List Name) (ok : Message → Prop) (v v' : Protocol) : Prop where
  name : v'.name = v.name
  imports : Adds (fun i => i.typeName ∉ old) v.imports v'.imports
  enums : Adds (fun e => e.name ∉ old) v.enums v'.enums
  structs : Adds (fun s => s.name ∉ old) v.structs v'.structs
  unions : Adds (fun u => u.name ∉ old) v.unions v'.unions
  messages : Adds (fun m => m.name ∉ old ∧ ok m) v.messages v'.messages

/-- Files with others inserted between them; `new` tells which. -/
inductive Files {α : Type} (grown : α → α → Prop) (new : α → Prop) : List α → List α → Prop
  | nil : Files grown new [] []
  | keep {a a' l l'} : grown a a' → Files grown new l l' → Files grown new (a :: l) (a' :: l')
  | add {a l l'} : new a → Files grown new l l' → Files grown new l (a :: l')

/-- A new file. -/
def Model.Protocol.New (ok : Message → Prop) (v : Protocol) : Prop := ∀ m ∈ v.messages, ok m

/-- All names of types in a build. -/
def Loader.typeNames (l : Loader) : List Name :=
  l.importedModels.flatMap (fun a => a.2.typeNames) ++ l.models.flatMap Model.Protocol.typeNames

/-- The second build is the first with declarations and files added, and only messages for which `ok` holds. -/
structure Loader.Grown (l : Loader) (ok : Model.Message → Prop) (l' : Loader) : Prop where
  imported : Files (fun a b => b.1 = a.1 ∧ a.2.Grown l.typeNames ok b.2)
    (fun b => b.2.name ∉ l.importedModels.map (fun a => a.2.name) ∧ b.2.New ok)
    l.importedModels l'.importedModels
  models : Files (Model.Protocol.Grown l.typeNames ok) (Model.Protocol.New ok) l.models l'.models

/-- The message has no list of a type of the build. -/
def Loader.Unlisted (l : Loader) (m : Model.Message) : Prop := ∀ t ∈ m.listed, t ∉ l.typeNames

end Proto
