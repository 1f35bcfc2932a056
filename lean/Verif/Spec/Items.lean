import Verif.Base.Lit
import Verif.Spec.Rust

/-!
# The names a generated text declares

Read off the text line by line: a line that begins with one of some keywords declares the word that
follows.  Generated items stand at the beginning of a line, methods and fields behind four blanks.
-/

namespace Proto.Decl

/-- The lines of a text. -/
def lines (t : Bytes) : List Bytes :=
  t.foldr (fun c ls => if c = 10 then [] :: ls else (c :: ls.headD []) :: ls.tail) [[]]

/-- ASCII letters, digits, `_` and whatever is not ASCII. -/
def isWord (c : UInt8) : Bool :=
  let n := c.toNat
  (0x61 ≤ n && n ≤ 0x7a) || (0x41 ≤ n && n ≤ 0x5a) || (0x30 ≤ n && n ≤ 0x39) || n == 0x5f || 0x80 ≤ n

/-- What a line declares: the word behind the keyword it begins with. -/
def names (kws : List Bytes) (line : Bytes) : List Bytes :=
  match kws.find? (·.isPrefixOf line) with
  | some k => [(line.drop k.length).takeWhile isWord]
  | none => []

/-- What a text declares, in order. -/
def declared (kws : List Bytes) (t : Bytes) : List Bytes := (lines t).flatMap (names kws)

/-- What the items that are types begin with: the macro declares a type as well
(`runtime/src/message/macros.rs` 31). -/
def typeKeys : List Bytes :=
  [b!"pub struct ", b!"pub enum ", b!"pub type ", b!"bp3d_proto::generate_array_wrapper!("]

/-- What constants begin with. -/
def constantKeys : List Bytes := [b!"pub const "]

/-- What methods begin with. -/
def methodKeys : List Bytes := [b!"    pub fn "]

/-- What the public fields of a `struct` begin with. -/
def fieldKeys : List Bytes := [b!"    pub "]

/-- What the variants of an `enum` begin with. -/
def variantKeys : List Bytes := [b!"    "]

/-- The types a text declares. -/
def types : Bytes → List Bytes := declared typeKeys

/-- The constants a text declares. -/
def constants : Bytes → List Bytes := declared constantKeys

/-- The methods a text declares. -/
def methods : Bytes → List Bytes := declared methodKeys

/-- The public fields a text declares. -/
def fields : Bytes → List Bytes := declared fieldKeys

/-- The variants the text of an `enum` declares. -/
def variants : Bytes → List Bytes := declared variantKeys

/-- The second arguments of the calls of the macro that declares the wrapper of an array. -/
def wrapped (t : Bytes) : List Bytes :=
  (lines t).filterMap fun l =>
    if b!"bp3d_proto::generate_array_wrapper!(".isPrefixOf l then
      some (((l.dropWhile (· ≠ 0x2c)).drop 2).takeWhile (· ≠ 0x2c))
    else none

/-- A byte string made of word bytes only. -/
def Word (b : Bytes) : Prop := ∀ c ∈ b, isWord c = true

/-- A byte string without line breaks. -/
def OneLine (b : Bytes) : Prop := ∀ c ∈ b, c ≠ 10

/-- The line break is not among what the library prints for numbers, and words in capital letters are
words. -/
structure Sane (lib : Lib) : Prop where
  number : ∀ x, OneLine (lib.debugF64 x)
  upper : ∀ b, Word b → Word (lib.caseMap.upper b)

/-- The getters of a field. -/
def getters : SField → List Bytes
  | .fixed f => [t!"get_raw_{Name.utf8 f.name}", t!"get_{Name.utf8 f.name}"]
  | .array f => [t!"get_{Name.utf8 f.name}"]
  | .struct n _ _ => [t!"get_{Name.utf8 n}"]

/-- The setters of a field. -/
def setters : SField → List Bytes
  | .fixed f => [t!"set_raw_{Name.utf8 f.name}", t!"set_{Name.utf8 f.name}"]
  | .array f => [t!"get_{Name.utf8 f.name}_mut"]
  | .struct n _ _ => [t!"get_{Name.utf8 n}_mut"]

/-- The field and the types it refers to are named by words. -/
def Named (paths : List (Name × Name)) : SField → Prop
  | .fixed f => Word (Name.utf8 f.name) ∧ ∀ e, f.view = .enum e → OneLine (pathOf paths e.name)
  | .array f => Word (Name.utf8 f.name)
  | .struct n r _ => Word (Name.utf8 n) ∧ OneLine (pathOf paths r.name)

/-- The field and the types it refers to are named by words. -/
def MNamed (paths : List (Name × Name)) (f : MField) : Prop :=
  Word (Name.utf8 f.name) ∧
  match f.ty with
  | .ref (.struct s) => OneLine (pathOf paths s.name)
  | .ref (.message m) => OneLine (pathOf paths m.name)
  | .array _ s => OneLine (pathOf paths s.name)
  | .list _ m => OneLine (pathOf paths m.name)
  | .union u on _ => OneLine (pathOf paths u.name) ∧ Word (Name.utf8 on)
  | _ => True

/-- The alias declared for a field. -/
def aliases (m : Message) (f : MField) : List Bytes :=
  if Text.aliased f.ty then [t!"{Name.utf8 m.name}{Text.capital (Name.utf8 f.name)}"] else []

/-- The offsets declared for a field. -/
def offsetNames (f : MField) : List Bytes :=
  match f.ty with
  | .ref (.message _) => [Name.utf8 f.name, t!"{Name.utf8 f.name}_offsets"]
  | _ => [Name.utf8 f.name]

/-- The case and the type it refers to are named by words. -/
def CNamed (paths : List (Name × Name)) (c : UCase) : Prop :=
  Word (Name.utf8 c.name) ∧
  match c.itemType with
  | none => True
  | some (.struct s) => OneLine (pathOf paths s.name)
  | some (.message m) => OneLine (pathOf paths m.name)

/-- The accessor of a case. -/
def accessors (c : UCase) : List Bytes :=
  if c.itemType.isSome then [t!"as_{Text.lower (Name.utf8 c.name)}"] else [t!"is_{Text.lower (Name.utf8 c.name)}"]

/-- All names of a protocol are words, and all paths of types are on one line. -/
structure Tidy (proto : Protocol) : Prop where
  structs : ∀ s ∈ proto.structs, Word (Name.utf8 s.name) ∧ ∀ f ∈ s.fields, Named proto.typePathByName f
  enums : ∀ e ∈ proto.enums, Word (Name.utf8 e.name) ∧ ∀ v ∈ e.variants, Word (Name.utf8 v.1)
  unions : ∀ u ∈ proto.unions, Word (Name.utf8 u.name) ∧
    OneLine (pathOf proto.typePathByName u.discriminant.root.name) ∧
    (∀ c ∈ u.cases, CNamed proto.typePathByName c) ∧
    ∀ ns leaf, Text.Chain u.discriminant.root u.discriminant.indexList ns leaf →
      ∀ n ∈ ns ++ leaf.toList, OneLine (Name.utf8 n)
  messages : ∀ m ∈ proto.messages, Word (Name.utf8 m.name) ∧ ∀ f ∈ m.fields, MNamed proto.typePathByName f

example : types b!"pub struct A<T> {\n    pub x: u8\n}\n\npub type B = A;\n" = [b!"A", b!"B"] := by decide
example : wrapped b!"bp3d_proto::generate_array_wrapper!(X, a::B, C);\n" = [b!"a::B"] := by decide
example : methods b!"impl A {\n    pub fn get_x(&self) {\n    }\n}\n" = [b!"get_x"] := by decide

end Proto.Decl
