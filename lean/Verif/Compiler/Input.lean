import Verif.Compiler.Protocol

/-!
# `compiler/src/model`: reading a protocol description

The `Deserialize` implementations derived in `compiler/src/model/*.rs`, applied to a JSON5 document.
The grammar of JSON5 (crate `json5`) is external: a document is a `Json` value.  A description that
cannot be read is `none` (`Error::Model`, `compiler/src/error.rs` 33); error texts are not modelled.
-/

namespace Proto.Input

/-- A JSON5 document.  Numbers are finite (no `NaN`, no `Infinity`) and exact; objects list their
members in order, repeated keys included.  Crate `json5`; `interface.rs` 53, 60. -/
inductive Json where
  | null
  | bool (b : Bool)
  | num (q : Rat)
  | str (s : Name)
  | arr (xs : List Json)
  | obj (es : List (Name × Json))

/-- A member of an object.  `json5`, not in `/repo`. -/
abbrev Entry := Name × Json

/-- What the crates `serde` and `json5` decide and this repository does not, on a host whose `usize` has
`w` bits (64 unless said otherwise).  `interface.rs` 53, 60. -/
structure Serde (w : Nat := usizeBits) where
  /-- A number read as a `usize`. -/
  usize : Rat → Option Nat
  /-- A number read as a `usize` out of the buffer that holds an internally tagged enum. -/
  usizeBuffered : Rat → Option Nat
  /-- A value other than a string read as an `Endianness`. -/
  endianness : Json → Option Endian
  /-- Whether an array with too many elements can stand for a struct. -/
  trailing : Bool
  /-- The order in which a `HashMap` is iterated. -/
  order : List (Name × Nat) → List (Name × Nat)
  usize_exact : ∀ n : Nat, n ≤ 2 ^ 53 → n < 2 ^ w → usize n = some n
  usizeBuffered_exact : ∀ n : Nat, n ≤ 2 ^ 53 → n < 2 ^ w → usizeBuffered n = some n
  usize_range : ∀ q n, usize q = some n → n < 2 ^ w
  usizeBuffered_range : ∀ q n, usizeBuffered q = some n → n < 2 ^ w
  order_perm : ∀ l, (order l).Perm l

variable {w : Nat}

/-- `String`.  `serde`; for example `model/protocol.rs` 51. -/
def string : Json → Option Name
  | .str s => some s
  | _ => none

/-- `bool`.  `serde`; `model/message.rs` 56. -/
def boolean : Json → Option Bool
  | .bool b => some b
  | _ => none

/-- `usize`.  `serde`; `model/structure.rs` 104, `model/protocol.rs` 52. -/
def usize (s : Serde w) : Json → Option Nat
  | .num q => s.usize q
  | _ => none

/-- `usize` in a variant of an internally tagged enum.  `serde`; `model/structure.rs` 51-62,
`model/message.rs` 38-43. -/
def usizeBuffered (s : Serde w) : Json → Option Nat
  | .num q => s.usizeBuffered q
  | _ => none

/-- `f64` (simplified to rationals, as in `Compiler/Model.lean`).  `model/structure.rs` 39-43. -/
def float : Json → Option Rat
  | .num q => some q
  | _ => none

/-- `Option<T>`: `null` is `None`.  `serde`; for example `model/structure.rs` 103-104. -/
def nullable {α : Type} (de : Json → Option α) : Json → Option (Option α)
  | .null => some none
  | j => (de j).map some

/-- `Vec<T>`.  `serde`; for example `model/structure.rs` 110. -/
def vec {α : Type} (de : Json → Option α) : Json → Option (List α)
  | .arr xs => xs.mapM de
  | _ => none

/-- The visitor of a struct with the given field names: an object, or an array with the fields in
declaration order.  `serde`; the structs of `model/*.rs`. -/
def record (trailing : Bool) (keys : List Name) : Json → Option (List Entry)
  | .obj es => some es
  | .arr xs =>
    if xs.length = keys.length ∨ (trailing ∧ keys.length < xs.length) then some (keys.zip xs) else none
  | _ => none

/-- A field of a struct: a repeated key is an error, `absent` is the value without the key.  `serde`;
the structs of `model/*.rs`. -/
def field {α : Type} (es : List Entry) (key : Name) (de : Json → Option α) (absent : Option α) :
    Option α :=
  match es.filter (fun e => e.1 = key) with
  | [] => absent
  | [e] => de e.2
  | _ => none

/-- A field that must be there.  `serde`; for example `model/structure.rs` 101-102. -/
def requiredField {α : Type} (es : List Entry) (key : Name) (de : Json → Option α) : Option α :=
  field es key de none

/-- A field of type `Option<T>`.  `serde`; for example `model/structure.rs` 103-104. -/
def optionalField {α : Type} (es : List Entry) (key : Name) (de : Json → Option α) : Option (Option α) :=
  field es key (nullable de) (some none)

/-- `#[serde(tag = "type")]`: the tag, and what remains for the variant.  `model/structure.rs` 32, 48,
`model/message.rs` 32. -/
def tagged : Json → Option (Name × Json)
  | .obj es => do
    let tag ← requiredField es "type".toList string
    pure (tag, .obj (es.filter (fun e => e.1 ≠ "type".toList)))
  | .arr (x :: xs) => do
    let tag ← string x
    pure (tag, .arr xs)
  | _ => none

/-- A unit variant of an internally tagged enum: other members are ignored.  `serde`; `model/message.rs`
45. -/
def unit : Json → Option Unit
  | .obj _ => some ()
  | .arr [] => some ()
  | _ => none

/-- `compiler/src/model/structure.rs` 31-45: the variants are renamed, their fields are not. -/
def fieldView : Json → Option Model.FieldView := fun j => do
  let (tag, j) ← tagged j
  if tag = "enum".toList then
    let es ← record false ["name".toList] j
    let name ← requiredField es "name".toList string
    pure (.enum name)
  else if tag = "float-range".toList then
    let es ← record false ["min".toList, "max".toList] j
    let min ← requiredField es "min".toList float
    let max ← requiredField es "max".toList float
    pure (.floatRange min max)
  else if tag = "float-multiplier".toList then
    let es ← record false ["multiplier".toList] j
    let multiplier ← requiredField es "multiplier".toList float
    pure (.floatMultiplier multiplier)
  else none

/-- The variants with the single field `bits` (`compiler/src/model/structure.rs` 51-62). -/
def bits (s : Serde w) (j : Json) : Option Nat := do
  let es ← record false ["bits".toList] j
  requiredField es "bits".toList (usizeBuffered s)

/-- `compiler/src/model/structure.rs` 47-66: the variants are renamed, their fields are not. -/
def fieldTy (s : Serde w) (j : Json) : Option Model.FieldTy := do
  let (tag, j) ← tagged j
  if tag = "signed".toList then (bits s j).map .signed
  else if tag = "unsigned".toList then (bits s j).map .unsigned
  else if tag = "float".toList then (bits s j).map .float
  else if tag = "boolean".toList then (bits s j).map .boolean
  else if tag = "struct".toList then
    let es ← record false ["item_type".toList] j
    let itemType ← requiredField es "item_type".toList string
    pure (.struct itemType)
  else none

/-- `compiler/src/model/structure.rs` 99-105. -/
def sField (s : Serde w) (j : Json) : Option Model.SField := do
  let es ← record s.trailing ["name".toList, "info".toList, "view".toList, "array_len".toList] j
  let name ← requiredField es "name".toList string
  let info ← requiredField es "info".toList (fieldTy s)
  let view ← optionalField es "view".toList fieldView
  let arrayLen ← optionalField es "array_len".toList (usize s)
  pure { name, info, view, arrayLen }

/-- `compiler/src/model/structure.rs` 107-111. -/
def structure_ (s : Serde w) (j : Json) : Option Model.Structure := do
  let es ← record s.trailing ["name".toList, "fields".toList] j
  let name ← requiredField es "name".toList string
  let fields ← requiredField es "fields".toList (vec (sField s))
  pure { name, fields }

/-- `compiler/src/model/message.rs` 31-50: the variants are renamed. -/
def mFieldTy (s : Serde w) (j : Json) : Option Model.MFieldTy := do
  let (tag, j) ← tagged j
  if tag = "item".toList then
    let es ← record false ["item_type".toList] j
    let itemType ← requiredField es "item_type".toList string
    pure (.item itemType)
  else if tag = "list".toList then
    let es ← record false ["max_len".toList, "item_type".toList] j
    let maxLen ← requiredField es "max_len".toList (usizeBuffered s)
    let itemType ← requiredField es "item_type".toList string
    pure (.list maxLen itemType)
  else if tag = "string".toList then
    let es ← record false ["max_len".toList] j
    let maxLen ← optionalField es "max_len".toList (usizeBuffered s)
    pure (.string maxLen)
  else if tag = "payload".toList then (unit j).map (fun _ => .payload)
  else if tag = "union".toList then
    let es ← record false ["on".toList, "item_type".toList] j
    let on ← requiredField es "on".toList string
    let itemType ← requiredField es "item_type".toList string
    pure (.union on itemType)
  else none

/-- `compiler/src/model/message.rs` 52-57. -/
def mField (s : Serde w) (j : Json) : Option Model.MField := do
  let es ← record s.trailing ["name".toList, "info".toList, "optional".toList] j
  let name ← requiredField es "name".toList string
  let info ← requiredField es "info".toList (mFieldTy s)
  let opt ← optionalField es "optional".toList boolean
  pure { name, info, «optional» := opt }

/-- `compiler/src/model/message.rs` 59-63. -/
def message (s : Serde w) (j : Json) : Option Model.Message := do
  let es ← record s.trailing ["name".toList, "fields".toList] j
  let name ← requiredField es "name".toList string
  let fields ← requiredField es "fields".toList (vec (mField s))
  pure { name, fields }

/-- `compiler/src/model/union.rs` 31-36. -/
def uCase (s : Serde w) (j : Json) : Option Model.UCase := do
  let es ← record s.trailing ["name".toList, "case".toList, "item_type".toList] j
  let name ← requiredField es "name".toList string
  let case ← requiredField es "case".toList string
  let itemType ← optionalField es "item_type".toList string
  pure { name, case, itemType }

/-- `compiler/src/model/union.rs` 38-43. -/
def union (s : Serde w) (j : Json) : Option Model.Union := do
  let es ← record s.trailing ["name".toList, "discriminant".toList, "cases".toList] j
  let name ← requiredField es "name".toList string
  let discriminant ← requiredField es "discriminant".toList string
  let cases ← requiredField es "cases".toList (vec (uCase s))
  pure { name, discriminant, cases }

/-- `compiler/src/model/protocol.rs` 42-47. -/
def «import» (s : Serde w) (j : Json) : Option Model.Import := do
  let es ← record s.trailing ["protocol".toList, "type".toList] j
  let protocol ← requiredField es "protocol".toList string
  let typeName ← requiredField es "type".toList string
  pure { protocol, typeName }

/-- `HashMap::insert` for each member in order: a repeated key keeps the last value.  `serde`;
`model/protocol.rs` 52. -/
def insertAll : List (Name × Nat) → List (Name × Nat)
  | [] => []
  | (k, x) :: rest => if rest.any (fun e => e.1 = k) then insertAll rest else (k, x) :: insertAll rest

/-- `HashMap<String, usize>` (`compiler/src/model/protocol.rs` 52). -/
def variants (s : Serde w) : Json → Option (List (Name × Nat))
  | .obj es => do
    let l ← es.mapM (fun e => (usize s e.2).map (fun x => (e.1, x)))
    pure (s.order (insertAll l))
  | _ => none

/-- `compiler/src/model/protocol.rs` 49-53. -/
def enum (s : Serde w) (j : Json) : Option Model.Enum := do
  let es ← record s.trailing ["name".toList, "variants".toList] j
  let name ← requiredField es "name".toList string
  let vs ← requiredField es "variants".toList (variants s)
  pure { name, variants := vs }

/-- `compiler/src/model/protocol.rs` 35-40. -/
def endianness (s : Serde w) : Json → Option Endian
  | .str n => if n = "little".toList then some .little else if n = "big".toList then some .big else none
  | j => s.endianness j

/-- `compiler/src/model/protocol.rs` 55-64; an absent list is an empty list. -/
def protocol (s : Serde w) (j : Json) : Option Model.Protocol := do
  let es ← record s.trailing ["name".toList, "endianness".toList, "imports".toList, "structs".toList,
    "messages".toList, "enums".toList, "unions".toList] j
  let name ← requiredField es "name".toList string
  let endianness ← optionalField es "endianness".toList (endianness s)
  let imports ← optionalField es "imports".toList (vec («import» s))
  let structs ← optionalField es "structs".toList (vec (structure_ s))
  let messages ← optionalField es "messages".toList (vec (message s))
  let enums ← optionalField es "enums".toList (vec (enum s))
  let unions ← optionalField es "unions".toList (vec (union s))
  pure { name, endianness, imports := imports.getD [], structs := structs.getD [],
         messages := messages.getD [], enums := enums.getD [], unions := unions.getD [] }

/-- `compiler/src/error.rs` 31-36, the part raised while loading. -/
inductive LoadError where
  | io
  | model
deriving DecidableEq

/-- The files: `std::fs::read_to_string`, `none` when it fails.  `json5` parses a file's text.
`interface.rs` 52-53, 59-60. -/
structure Files where
  read : Name → Option Bytes
  json5 : Bytes → Option Json

/-- `std::fs::read_to_string(path)` and `json5::from_str(&content)` (`interface.rs` 52-53, 59-60). -/
def model (s : Serde w) (fs : Files) (path : Name) : Res LoadError Model.Protocol :=
  match fs.read path with
  | none => .err .io
  | some content =>
    match (fs.json5 content).bind (protocol s) with
    | none => .err .model
    | some m => .ok m

/-- `interface.rs` 51-56. -/
def load (s : Serde w) (fs : Files) (l : Loader) (path : Name) : Res LoadError Loader := do
  let m ← model s fs path
  pure (l.load m)

/-- `interface.rs` 58-63. -/
def «import'» (s : Serde w) (fs : Files) (l : Loader) (path importPath : Name) :
    Res LoadError Loader := do
  let m ← model s fs path
  pure (l.import' m importPath)

end Proto.Input
