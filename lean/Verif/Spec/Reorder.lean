import Verif.Spec.Grow
import Mathlib.Logic.Relation

/-!
# A schema in which declarations and files are put in another order

One step exchanges neighbours that do not mention each other, any number of them at a time; a schema is reordered
by any number of steps.
-/

namespace Proto

/-- Some neighbours are exchanged, all of them satisfying `ok`. -/
inductive Near {α : Type} (ok : α → α → Prop) : List α → List α → Prop
  | nil : Near ok [] []
  | keep {a l l'} : Near ok l l' → Near ok (a :: l) (a :: l')
  | swap {a b l l'} : ok a b → Near ok l l' → Near ok (a :: b :: l) (b :: a :: l')

/-- Neighbours of a file are exchanged: imports, enums and unions under different names, structures and messages
that do not mention each other. -/
structure Model.Protocol.Near (v v' : Protocol) : Prop where
  name : v'.name = v.name
  imports : Proto.Near (fun a b => a.typeName ≠ b.typeName) v.imports v'.imports
  enums : Proto.Near (fun a b => a.name ≠ b.name) v.enums v'.enums
  structs : Proto.Near (fun a b => a.name ∉ b.typeNames ∧ b.name ∉ a.typeNames) v.structs v'.structs
  unions : Proto.Near (fun a b => a.name ≠ b.name) v.unions v'.unions
  messages : Proto.Near (fun a b => a.name ∉ b.typeNames ∧ b.name ∉ a.typeNames) v.messages v'.messages

/-- Files that change as told by `near`, or are exchanged as they are. -/
inductive FilesNear {α : Type} (near ok : α → α → Prop) : List α → List α → Prop
  | nil : FilesNear near ok [] []
  | keep {a a' l l'} : near a a' → FilesNear near ok l l' → FilesNear near ok (a :: l) (a' :: l')
  | swap {a b l l'} : ok a b → FilesNear near ok l l' → FilesNear near ok (a :: b :: l) (b :: a :: l')

/-- Neighbours are exchanged in a build: declarations in its files, imported files of different names that do not
import from each other, and the files to generate code for. -/
structure Loader.Near (l l' : Loader) : Prop where
  imported : FilesNear (fun a b => b.1 = a.1 ∧ a.2.Near b.2)
    (fun a b => a.2.name ≠ b.2.name ∧ (∀ i ∈ a.2.imports, i.protocol ≠ b.2.name) ∧
      ∀ i ∈ b.2.imports, i.protocol ≠ a.2.name) l.importedModels l'.importedModels
  models : FilesNear Model.Protocol.Near (fun _ _ => True) l.models l'.models

/-- The second build is the first in another order. -/
def Loader.Reordered : Loader → Loader → Prop := Relation.ReflTransGen Loader.Near

/-- The items of the first list are those of the second, in some order. -/
def Matched {α : Type} (R : α → α → Prop) (l l' : List α) : Prop := ∃ k, k.Perm l' ∧ List.Forall₂ R l k

end Proto
