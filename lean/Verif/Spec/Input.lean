import Verif.Compiler.Input
import Mathlib.Data.List.Forall2

/-!
# What a protocol description means

Which document describes which protocol, member by member.
-/

namespace Proto.Spec.Input

open Proto.Input (Json Entry Serde)

variable {w : Nat}

/-- Exactly one member is called `k`; its value is `v`. -/
def Has (es : List Entry) (k : String) (v : Json) : Prop :=
  ∃ pre post, es = pre ++ (k.toList, v) :: post ∧ ∀ e ∈ pre ++ post, e.1 ≠ k.toList

/-- No member is called `k`. -/
def Lacks (es : List Entry) (k : String) : Prop := ∀ e ∈ es, e.1 ≠ k.toList

/-- A member that may be left out or be `null`. -/
def May {α : Type} (es : List Entry) (k : String) (P : Json → α → Prop) : Option α → Prop
  | none => Lacks es k ∨ Has es k .null
  | some a => ∃ v, v ≠ .null ∧ Has es k v ∧ P v a

/-- A list, entry by entry. -/
def Items {α : Type} (P : Json → α → Prop) (v : Json) (l : List α) : Prop :=
  ∃ xs, v = .arr xs ∧ List.Forall₂ P xs l

/-- A list that may be left out or be `null`. -/
def MayItems {α : Type} (es : List Entry) (k : String) (P : Json → α → Prop) (l : List α) : Prop :=
  l = [] ∧ (Lacks es k ∨ Has es k .null) ∨ ∃ v, Has es k v ∧ Items P v l

/-- The members of an object, or of an array that gives them by position. -/
def Members (s : Serde w) (keys : List String) (j : Json) (es : List Entry) : Prop :=
  j = .obj es ∨
  ∃ xs, j = .arr xs ∧ (xs.length = keys.length ∨ s.trailing = true ∧ keys.length < xs.length) ∧
    es = (keys.map String.toList).zip xs

/-- The members of an object with the member `type`, or of an array that starts with the type. -/
def Variant (tag : String) (keys : List String) (j : Json) (es : List Entry) : Prop :=
  (j = .obj es ∧ Has es "type" (.str tag.toList)) ∨
  ∃ xs, j = .arr (.str tag.toList :: xs) ∧ xs.length = keys.length ∧
    es = (keys.map String.toList).zip xs

/-- A description of a view. -/
def IsView (j : Json) : Model.FieldView → Prop
  | .enum n => ∃ es, Variant "enum" ["name"] j es ∧ Has es "name" (.str n)
  | .floatRange a b => ∃ es, Variant "float-range" ["min", "max"] j es ∧ Has es "min" (.num a) ∧
      Has es "max" (.num b)
  | .floatMultiplier m => ∃ es, Variant "float-multiplier" ["multiplier"] j es ∧
      Has es "multiplier" (.num m)

/-- A number of bits. -/
def IsBits (s : Serde w) (tag : String) (j : Json) (bits : Nat) : Prop :=
  ∃ es q, Variant tag ["bits"] j es ∧ Has es "bits" (.num q) ∧ s.usizeBuffered q = some bits

/-- A description of the type of a structure's field. -/
def IsTy (s : Serde w) (j : Json) : Model.FieldTy → Prop
  | .signed n => IsBits s "signed" j n
  | .unsigned n => IsBits s "unsigned" j n
  | .float n => IsBits s "float" j n
  | .boolean n => IsBits s "boolean" j n
  | .struct t => ∃ es, Variant "struct" ["item_type"] j es ∧ Has es "item_type" (.str t)

/-- A number, read outside of a tagged object. -/
def IsNumber (s : Serde w) (v : Json) (n : Nat) : Prop := ∃ q, v = .num q ∧ s.usize q = some n

/-- A description of a structure's field. -/
def IsSField (s : Serde w) (j : Json) (f : Model.SField) : Prop :=
  ∃ es, Members s ["name", "info", "view", "array_len"] j es ∧ Has es "name" (.str f.name) ∧
    (∃ v, Has es "info" v ∧ IsTy s v f.info) ∧ May es "view" IsView f.view ∧
    May es "array_len" (IsNumber s) f.arrayLen

/-- A description of a structure. -/
def IsStructure (s : Serde w) (j : Json) (m : Model.Structure) : Prop :=
  ∃ es, Members s ["name", "fields"] j es ∧ Has es "name" (.str m.name) ∧
    ∃ v, Has es "fields" v ∧ Items (IsSField s) v m.fields

/-- A description of the type of a message's field. -/
def IsMTy (s : Serde w) (j : Json) : Model.MFieldTy → Prop
  | .item t => ∃ es, Variant "item" ["item_type"] j es ∧ Has es "item_type" (.str t)
  | .list n t => ∃ es q, Variant "list" ["max_len", "item_type"] j es ∧ Has es "max_len" (.num q) ∧
      s.usizeBuffered q = some n ∧ Has es "item_type" (.str t)
  | .string n => ∃ es, Variant "string" ["max_len"] j es ∧
      May es "max_len" (fun v k => ∃ q, v = .num q ∧ s.usizeBuffered q = some k) n
  | .payload => ∃ es, Variant "payload" [] j es
  | .union on t => ∃ es, Variant "union" ["on", "item_type"] j es ∧ Has es "on" (.str on) ∧
      Has es "item_type" (.str t)

/-- A description of a message's field. -/
def IsMField (s : Serde w) (j : Json) (f : Model.MField) : Prop :=
  ∃ es, Members s ["name", "info", "optional"] j es ∧ Has es "name" (.str f.name) ∧
    (∃ v, Has es "info" v ∧ IsMTy s v f.info) ∧
    May es "optional" (fun v b => v = .bool b) f.optional

/-- A description of a message. -/
def IsMessage (s : Serde w) (j : Json) (m : Model.Message) : Prop :=
  ∃ es, Members s ["name", "fields"] j es ∧ Has es "name" (.str m.name) ∧
    ∃ v, Has es "fields" v ∧ Items (IsMField s) v m.fields

/-- A description of a union's case. -/
def IsCase (s : Serde w) (j : Json) (c : Model.UCase) : Prop :=
  ∃ es, Members s ["name", "case", "item_type"] j es ∧ Has es "name" (.str c.name) ∧
    Has es "case" (.str c.case) ∧ May es "item_type" (fun v t => v = .str t) c.itemType

/-- A description of a union. -/
def IsUnion (s : Serde w) (j : Json) (u : Model.Union) : Prop :=
  ∃ es, Members s ["name", "discriminant", "cases"] j es ∧ Has es "name" (.str u.name) ∧
    Has es "discriminant" (.str u.discriminant) ∧ ∃ v, Has es "cases" v ∧ Items (IsCase s) v u.cases

/-- A description of an import. -/
def IsImport (s : Serde w) (j : Json) (i : Model.Import) : Prop :=
  ∃ es, Members s ["protocol", "type"] j es ∧ Has es "protocol" (.str i.protocol) ∧
    Has es "type" (.str i.typeName)

/-- Every variant is a number; the last one counts when a name is repeated. -/
def IsVariants (s : Serde w) (v : Json) (l : List (Name × Nat)) : Prop :=
  ∃ vs, v = .obj vs ∧ (∀ e ∈ vs, ∃ x, IsNumber s e.2 x) ∧ (l.map Prod.fst).Nodup ∧
    ∀ n x, (n, x) ∈ l ↔ ∃ pre v post, vs = pre ++ (n, v) :: post ∧ IsNumber s v x ∧ ∀ e ∈ post, e.1 ≠ n

/-- A description of an enum. -/
def IsEnum (s : Serde w) (j : Json) (m : Model.Enum) : Prop :=
  ∃ es, Members s ["name", "variants"] j es ∧ Has es "name" (.str m.name) ∧
    ∃ v, Has es "variants" v ∧ IsVariants s v m.variants

/-- A byte order. -/
def IsEndian (s : Serde w) (v : Json) (e : Endian) : Prop :=
  (v = .str "little".toList ∧ e = .little) ∨ (v = .str "big".toList ∧ e = .big) ∨
  ((∀ n, v ≠ .str n) ∧ s.endianness v = some e)

/-- A description of a protocol. -/
def IsProtocol (s : Serde w) (j : Json) (m : Model.Protocol) : Prop :=
  ∃ es, Members s ["name", "endianness", "imports", "structs", "messages", "enums", "unions"] j es ∧
    Has es "name" (.str m.name) ∧ May es "endianness" (IsEndian s) m.endianness ∧
    MayItems es "imports" (IsImport s) m.imports ∧ MayItems es "structs" (IsStructure s) m.structs ∧
    MayItems es "messages" (IsMessage s) m.messages ∧ MayItems es "enums" (IsEnum s) m.enums ∧
    MayItems es "unions" (IsUnion s) m.unions

/-- Equal enums, but for the order of their variants. -/
def SameEnum (a b : Model.Enum) : Prop := a.name = b.name ∧ a.variants.Perm b.variants

/-- Equal protocols, but for the order of enum variants. -/
def Same (a b : Model.Protocol) : Prop :=
  a.name = b.name ∧ a.endianness = b.endianness ∧ a.imports = b.imports ∧ a.structs = b.structs ∧
  a.messages = b.messages ∧ List.Forall₂ SameEnum a.enums b.enums ∧ a.unions = b.unions

/-! ## Writing a description -/

/-- An object. -/
def object (es : List (String × Json)) : Json := .obj (es.map fun e => (e.1.toList, e.2))

/-- A value that may be left out. -/
def maybe {α : Type} (f : α → Json) : Option α → Json
  | none => .null
  | some a => f a

/-- A view. -/
def ofView : Model.FieldView → Json
  | .enum n => object [("type", .str "enum".toList), ("name", .str n)]
  | .floatRange a b => object [("type", .str "float-range".toList), ("min", .num a), ("max", .num b)]
  | .floatMultiplier m => object [("type", .str "float-multiplier".toList), ("multiplier", .num m)]

/-- The type of a structure's field. -/
def ofTy : Model.FieldTy → Json
  | .signed n => object [("type", .str "signed".toList), ("bits", .num n)]
  | .unsigned n => object [("type", .str "unsigned".toList), ("bits", .num n)]
  | .float n => object [("type", .str "float".toList), ("bits", .num n)]
  | .boolean n => object [("type", .str "boolean".toList), ("bits", .num n)]
  | .struct t => object [("type", .str "struct".toList), ("item_type", .str t)]

/-- A structure. -/
def ofStructure (m : Model.Structure) : Json :=
  object [("name", .str m.name), ("fields", .arr (m.fields.map fun f =>
    object [("name", .str f.name), ("info", ofTy f.info), ("view", maybe ofView f.view),
      ("array_len", maybe (fun n => .num (n : Nat)) f.arrayLen)]))]

/-- The type of a message's field. -/
def ofMTy : Model.MFieldTy → Json
  | .item t => object [("type", .str "item".toList), ("item_type", .str t)]
  | .list n t => object [("type", .str "list".toList), ("max_len", .num n), ("item_type", .str t)]
  | .string n => object [("type", .str "string".toList), ("max_len", maybe (fun n => .num (n : Nat)) n)]
  | .payload => object [("type", .str "payload".toList)]
  | .union on t => object [("type", .str "union".toList), ("on", .str on), ("item_type", .str t)]

/-- A message. -/
def ofMessage (m : Model.Message) : Json :=
  object [("name", .str m.name), ("fields", .arr (m.fields.map fun f =>
    object [("name", .str f.name), ("info", ofMTy f.info), ("optional", maybe .bool f.optional)]))]

/-- A union. -/
def ofUnion (u : Model.Union) : Json :=
  object [("name", .str u.name), ("discriminant", .str u.discriminant), ("cases", .arr (u.cases.map fun c =>
    object [("name", .str c.name), ("case", .str c.case), ("item_type", maybe .str c.itemType)]))]

/-- An enum. -/
def ofEnum (m : Model.Enum) : Json :=
  object [("name", .str m.name), ("variants", .obj (m.variants.map fun e => (e.1, .num e.2)))]

/-- A byte order. -/
def ofEndian : Endian → Json
  | .little => .str "little".toList
  | .big => .str "big".toList

/-- A protocol. -/
def ofProtocol (m : Model.Protocol) : Json :=
  object [("name", .str m.name), ("endianness", maybe ofEndian m.endianness),
    ("imports", .arr (m.imports.map fun i =>
      object [("protocol", .str i.protocol), ("type", .str i.typeName)])),
    ("structs", .arr (m.structs.map ofStructure)), ("messages", .arr (m.messages.map ofMessage)),
    ("enums", .arr (m.enums.map ofEnum)), ("unions", .arr (m.unions.map ofUnion))]

/-- The numbers of a description are below 2⁵³, where every JSON number is exact, and variants have
distinct names. -/
def Writable (m : Model.Protocol) : Prop :=
  (∀ st ∈ m.structs, ∀ f ∈ st.fields, (∀ n, f.info.bitSize? = some n → n ≤ 2 ^ 53) ∧
    ∀ n, f.arrayLen = some n → n ≤ 2 ^ 53) ∧
  (∀ msg ∈ m.messages, ∀ f ∈ msg.fields, (∀ n t, f.info = .list n t → n ≤ 2 ^ 53) ∧
    ∀ n, f.info = .string (some n) → n ≤ 2 ^ 53) ∧
  ∀ e ∈ m.enums, (e.variants.map Prod.fst).Nodup ∧ ∀ v ∈ e.variants, v.2 ≤ 2 ^ 53

/-- The same on a host with words of `w` bits, where numbers also have to fit a word. -/
def WritableOn (w : Nat) (m : Model.Protocol) : Prop :=
  (∀ st ∈ m.structs, ∀ f ∈ st.fields, (∀ n, f.info.bitSize? = some n → n ≤ 2 ^ 53 ∧ n < 2 ^ w) ∧
    ∀ n, f.arrayLen = some n → n ≤ 2 ^ 53 ∧ n < 2 ^ w) ∧
  (∀ msg ∈ m.messages, ∀ f ∈ msg.fields, (∀ n t, f.info = .list n t → n ≤ 2 ^ 53 ∧ n < 2 ^ w) ∧
    ∀ n, f.info = .string (some n) → n ≤ 2 ^ 53 ∧ n < 2 ^ w) ∧
  ∀ e ∈ m.enums, (e.variants.map Prod.fst).Nodup ∧ ∀ v ∈ e.variants, v.2 ≤ 2 ^ 53 ∧ v.2 < 2 ^ w

end Proto.Spec.Input
