import Verif.Compiler.Protocol
import Mathlib.Data.List.Forall2

/-!
# What of a description reaches the wire

Relations between two descriptions that may differ in everything else: kinds and views of structure fields,
their names, names of union cases, variants of enums, limits of the same width, the declared byte order.
-/

namespace Proto

namespace Model

/-- What the kind of a structure field says about its place: its bits, or the structure it nests. -/
def FieldTy.wire : FieldTy → Nat ⊕ Name
  | .signed n => .inl n
  | .unsigned n => .inl n
  | .float n => .inl n
  | .boolean n => .inl n
  | .struct t => .inr t

/-- Bytes of the Rust number that is the value of a field of this kind. -/
def FieldTy.bytes : FieldTy → Nat
  | .signed n => if n ≤ 8 then 1 else if n ≤ 16 then 2 else if n ≤ 32 then 4 else 8
  | .unsigned n => if n ≤ 8 then 1 else if n ≤ 16 then 2 else if n ≤ 32 then 4 else 8
  | .float n => if n ≤ 16 ∨ n = 32 then 4 else 8
  | .boolean _ => 1
  | .struct _ => 0

/-- Bytes of the length in front of a string or list with this limit. -/
def limitBytes (n : Nat) : Nat := if n < 2 ^ 8 then 1 else if n < 2 ^ 16 then 2 else if n < 2 ^ 32 then 4 else 8

/-- The value of the field is the stored number itself, or its bits read as another type of the same size. -/
def SField.plain (v : SField) : Bool :=
  v.view.isNone &&
    match v.info with
    | .signed n => n == 8 || n == 16 || n == 32 || n == 64
    | _ => true

/-- The two fields take the same place.  Items of arrays are handled as numbers of their Rust type. -/
structure SField.Like (v v' : SField) : Prop where
  wire : v'.info.wire = v.info.wire
  arrayLen : v'.arrayLen = v.arrayLen
  items : 1 < v.arrayLen.getD 1 → v'.info.bytes = v.info.bytes

/-- Fields of the same places in the same order.  Structures of a single plain field become numbers in
messages, so a single field has to stay plain and of the same size, or stay not plain. -/
structure Structure.Like (v v' : Structure) : Prop where
  name : v'.name = v.name
  fields : List.Forall₂ SField.Like v.fields v'.fields
  single : ∀ f f', v.fields = [f] → v'.fields = [f'] →
    f'.plain = f.plain ∧ (f.plain = true → f'.info.bytes = f.info.bytes)

/-- The same field, with a limit of the same width. -/
inductive MFieldTy.Like : MFieldTy → MFieldTy → Prop
  | item {t} : MFieldTy.Like (.item t) (.item t)
  | list {n n' t} : limitBytes n' = limitBytes n → MFieldTy.Like (.list n t) (.list n' t)
  | cstring : MFieldTy.Like (.string none) (.string none)
  | string {n n'} : limitBytes n' = limitBytes n → MFieldTy.Like (.string (some n)) (.string (some n'))
  | payload : MFieldTy.Like .payload .payload
  | union {on t} : MFieldTy.Like (.union on t) (.union on t)

/-- The same field, with a limit of the same width; a field that does not say whether it is optional is not. -/
structure MField.Like (v v' : MField) : Prop where
  name : v'.name = v.name
  info : v.info.Like v'.info
  optional : v'.optional.getD false = v.optional.getD false

/-- The same fields in the same order. -/
structure Message.Like (v v' : Message) : Prop where
  name : v'.name = v.name
  fields : List.Forall₂ MField.Like v.fields v'.fields

/-- A discriminant in the same structure, and cases of the same contents in the same order. -/
structure Union.Like (v v' : Union) : Prop where
  name : v'.name = v.name
  root : v'.discriminant.takeWhile (· ≠ '.') = v.discriminant.takeWhile (· ≠ '.')
  cases : v'.cases.map UCase.itemType = v.cases.map UCase.itemType

/-- The same declarations in the same order, up to what does not reach the wire. -/
structure Protocol.Like (v v' : Protocol) : Prop where
  name : v'.name = v.name
  imports : v'.imports = v.imports
  enums : v'.enums.map Enum.name = v.enums.map Enum.name
  structs : List.Forall₂ Structure.Like v.structs v'.structs
  unions : List.Forall₂ Union.Like v.unions v'.unions
  messages : List.Forall₂ Message.Like v.messages v'.messages

end Model

/-- Two builds of descriptions that are alike, in the same order and under the same paths. -/
structure Loader.Like (l l' : Loader) : Prop where
  models : List.Forall₂ Model.Protocol.Like l.models l'.models
  imported : List.Forall₂ (fun a b => b.1 = a.1 ∧ Model.Protocol.Like a.2 b.2) l.importedModels l'.importedModels

/-- The discriminants of the compiled unions lead to fields of the same numbers, and their cases have the same
values. -/
structure Union.SameChoices (u u' : Union) : Prop where
  path : u'.discriminant.indexList = u.discriminant.indexList
  values : u'.cases.map UCase.case = u.cases.map UCase.case

/-- All unions the two protocols declare, in order. -/
def Protocol.SameChoices (q q' : Protocol) : Prop := List.Forall₂ Union.SameChoices q.unions q'.unions

end Proto
