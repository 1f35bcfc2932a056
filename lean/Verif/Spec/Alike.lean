import Verif.Compiler.Protocol
import Mathlib.Data.List.Forall2

/-!
# Two revisions of a schema

`ρ.type` gives every type its name in the second revision, `ρ.id` every declaration its identity there.
Enums may gain variants.
-/

namespace Proto

/-- What may differ between the two revisions. -/
structure Revision where
  type : Name → Name
  id : Nat → Nat

/-- Different types and declarations stay different, and no dots come into the names of types. -/
structure Revision.Faithful (ρ : Revision) : Prop where
  type : ∀ x y, ρ.type x = ρ.type y → x = y
  dots : ∀ x, '.' ∉ x → '.' ∉ ρ.type x
  id : ∀ x y, ρ.id x = ρ.id y → x = y

/-- Every variant that can be found by name is found in the second enum with the same value. -/
def Enum.Keeps (e e' : Enum) : Prop := ∀ x n, e.variants.lookup x = some n → e'.variants.lookup x = some n

/-- The second enum is the first, perhaps with another name and with more variants. -/
def Enum.Alike (ρ : Revision) (e e' : Enum) : Prop := e'.name = ρ.type e.name ∧ e.Keeps e'

/-- The same view; the enums need only be alike. -/
inductive View.Alike (ρ : Revision) : View → View → Prop
  | enum {e e'} : e.Alike ρ e' → View.Alike ρ (.enum e) (.enum e')
  | same {v} : (∀ e, v ≠ .enum e) → View.Alike ρ v v

/-- The same fields at the same places in a structure of the same size. -/
inductive Structure.Alike (ρ : Revision) : Structure → Structure → Prop
  | nil {id n bytes bits} : Structure.Alike ρ (.mk id n [] bytes bits) (.mk (ρ.id id) (ρ.type n) [] bytes bits)
  | fixed {id n bytes bits fs fs' name ty loc view view' endian} : view.Alike ρ view' →
      Structure.Alike ρ (.mk id n fs bytes bits) (.mk (ρ.id id) (ρ.type n) fs' bytes bits) →
      Structure.Alike ρ (.mk id n (.fixed ⟨name, ty, loc, view, endian⟩ :: fs) bytes bits)
        (.mk (ρ.id id) (ρ.type n) (.fixed ⟨name, ty, loc, view', endian⟩ :: fs') bytes bits)
  | array {id n bytes bits fs fs' a} :
      Structure.Alike ρ (.mk id n fs bytes bits) (.mk (ρ.id id) (ρ.type n) fs' bytes bits) →
      Structure.Alike ρ (.mk id n (.array a :: fs) bytes bits) (.mk (ρ.id id) (ρ.type n) (.array a :: fs') bytes bits)
  | struct {id n bytes bits fs fs' name r r' loc} : Structure.Alike ρ r r' →
      Structure.Alike ρ (.mk id n fs bytes bits) (.mk (ρ.id id) (ρ.type n) fs' bytes bits) →
      Structure.Alike ρ (.mk id n (.struct name r loc :: fs) bytes bits)
        (.mk (ρ.id id) (ρ.type n) (.struct name r' loc :: fs') bytes bits)

/-- The same path through structures that are alike. -/
structure Discriminant.Alike (ρ : Revision) (d d' : Discriminant) : Prop where
  root : d.root.Alike ρ d'.root
  leaf : d.leaf.Alike ρ d'.leaf
  leafIndex : d'.leafIndex = d.leafIndex
  indexList : d'.indexList = d.indexList

mutual

/-- References to structures or messages that are alike. -/
inductive Referenced.Alike (ρ : Revision) : Referenced → Referenced → Prop
  | struct {s s'} : s.Alike ρ s' → Referenced.Alike ρ (.struct s) (.struct s')
  | message {m m'} : Message.Alike ρ m m' → Referenced.Alike ρ (.message m) (.message m')

/-- The same kind of field of types that are alike. -/
inductive MFieldTy.Alike (ρ : Revision) : MFieldTy → MFieldTy → Prop
  | fixed {t} : MFieldTy.Alike ρ (.fixed t) (.fixed t)
  | ref {r r'} : Referenced.Alike ρ r r' → MFieldTy.Alike ρ (.ref r) (.ref r')
  | nul : MFieldTy.Alike ρ .nullTerminatedString .nullTerminatedString
  | varchar {t} : MFieldTy.Alike ρ (.varcharString t) (.varcharString t)
  | array {t s s'} : s.Alike ρ s' → MFieldTy.Alike ρ (.array t s) (.array t s')
  | union {u u' on i} : Union.Alike ρ u u' → MFieldTy.Alike ρ (.union u on i) (.union u' on i)
  | list {t m m'} : Message.Alike ρ m m' → MFieldTy.Alike ρ (.list t m) (.list t m')
  | payload : MFieldTy.Alike ρ .payload .payload

/-- The same fields in the same order, under the same names. -/
inductive MField.AllAlike (ρ : Revision) : List MField → List MField → Prop
  | nil : MField.AllAlike ρ [] []
  | cons {n t t' o sz e fs fs'} : MFieldTy.Alike ρ t t' → MField.AllAlike ρ fs fs' →
      MField.AllAlike ρ (.mk n t o sz e :: fs) (.mk n t' o sz e :: fs')

/-- Messages whose fields are alike. -/
inductive Message.Alike (ρ : Revision) : Message → Message → Prop
  | mk {id n fs fs' sz} : MField.AllAlike ρ fs fs' → Message.Alike ρ (.mk id n fs sz) (.mk (ρ.id id) (ρ.type n) fs' sz)

/-- The same cases in the same order, with contents that are alike. -/
inductive UCase.AllAlike (ρ : Revision) : List UCase → List UCase → Prop
  | nil : UCase.AllAlike ρ [] []
  | bare {n k cs cs'} : UCase.AllAlike ρ cs cs' → UCase.AllAlike ρ (.mk n k none :: cs) (.mk n k none :: cs')
  | content {n k r r' cs cs'} : Referenced.Alike ρ r r' → UCase.AllAlike ρ cs cs' →
      UCase.AllAlike ρ (.mk n k (some r) :: cs) (.mk n k (some r') :: cs')

/-- Unions whose cases are alike. -/
inductive Union.Alike (ρ : Revision) : Union → Union → Prop
  | mk {n d d' cs cs' sz} : d.Alike ρ d' → UCase.AllAlike ρ cs cs' →
      Union.Alike ρ (.mk n d cs sz) (.mk (ρ.type n) d' cs' sz)

end

/-- Maps from names that give entries that are alike for a name and its counterpart; the second map may have
entries for other names. -/
def MapAlike (ρ : Revision) (R : α → α → Prop) (l l' : List (Name × α)) : Prop :=
  ∀ n, (l.lookup n = none ∧ l'.lookup (ρ.type n) = none) ∨
    ∃ a a', l.lookup n = some a ∧ l'.lookup (ρ.type n) = some a' ∧ R a a'

/-- Compiled protocols that know the same types, up to what the revisions may differ in; import paths are not
compared. -/
structure Protocol.Known (ρ : Revision) (q q' : Protocol) : Prop where
  name : q'.name = q.name
  endianness : q'.endianness = q.endianness
  structsByName : MapAlike ρ (Structure.Alike ρ) q.structsByName q'.structsByName
  messagesByName : MapAlike ρ (Message.Alike ρ) q.messagesByName q'.messagesByName
  enumsByName : MapAlike ρ (Enum.Alike ρ) q.enumsByName q'.enumsByName
  unionsByName : MapAlike ρ (Union.Alike ρ) q.unionsByName q'.unionsByName

/-- Compiled protocols that also declare the same types. -/
structure Protocol.Alike (ρ : Revision) (q q' : Protocol) : Prop extends q.Known ρ q' where
  structs : List.Forall₂ (Structure.Alike ρ) q.structs q'.structs
  messages : List.Forall₂ (Message.Alike ρ) q.messages q'.messages
  enums : List.Forall₂ (Enum.Alike ρ) q.enums q'.enums
  unions : List.Forall₂ (Union.Alike ρ) q.unions q'.unions

/-! ## Declarations -/

namespace Model

/-- The declaration with the names of the types it mentions replaced. -/
def SField.revised (f : Name → Name) (v : SField) : SField :=
  { v with
    info := match v.info with
      | .struct t => .struct (f t)
      | i => i
    view := match v.view with
      | some (.enum n) => some (.enum (f n))
      | w => w }

def Structure.revised (f : Name → Name) (v : Structure) : Structure :=
  ⟨f v.name, v.fields.map (SField.revised f)⟩

def MField.revised (f : Name → Name) (v : MField) : MField :=
  { v with
    info := match v.info with
      | .item t => .item (f t)
      | .list n t => .list n (f t)
      | .union on t => .union on (f t)
      | i => i }

def Message.revised (f : Name → Name) (v : Message) : Message :=
  ⟨f v.name, v.fields.map (MField.revised f)⟩

def UCase.revised (f : Name → Name) (v : UCase) : UCase :=
  { v with itemType := v.itemType.map f }

/-- A discriminant is a type followed by fields, separated by dots. -/
def discriminantRevised (f : Name → Name) (d : Name) : Name :=
  f (d.takeWhile (· ≠ '.')) ++ d.dropWhile (· ≠ '.')

def Union.revised (f : Name → Name) (v : Union) : Union :=
  ⟨f v.name, discriminantRevised f v.discriminant, v.cases.map (UCase.revised f)⟩

def Import.revised (f : Name → Name) (v : Import) : Import := ⟨v.protocol, f v.typeName⟩

/-- The same variants and perhaps others; names of variants are different, as they are keys of a map. -/
structure Enum.Extends (f : Name → Name) (v v' : Enum) : Prop where
  name : v'.name = f v.name
  old : (v.variants.map Prod.fst).Nodup
  new : (v'.variants.map Prod.fst).Nodup
  kept : ∀ x ∈ v.variants, x ∈ v'.variants

/-- The second protocol is the first with types renamed and variants added to enums. -/
structure Protocol.Revised (f : Name → Name) (v v' : Protocol) : Prop where
  name : v'.name = v.name
  imports : v'.imports = v.imports.map (Import.revised f)
  structs : v'.structs = v.structs.map (Structure.revised f)
  messages : v'.messages = v.messages.map (Message.revised f)
  enums : List.Forall₂ (Enum.Extends f) v.enums v'.enums
  unions : v'.unions = v.unions.map (Union.revised f)

end Model

end Proto
