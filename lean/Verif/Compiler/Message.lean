import Verif.Compiler.Structure

/-!
# `compiler/src/compiler/union.rs` and `message.rs`

`messages_by_name` and the other maps are those of the protocol under construction.  The `embedded`
cells of the messages (`message.rs` 295) are the list of the identities of the messages whose cell is
set, threaded through compilation.
-/

namespace Proto

/-- `message.rs` 52-56. -/
def Referenced.lookup (proto : Protocol) (name : Name) : Option Referenced :=
  match proto.structsByName.lookup name with
  | some s => some (.struct s)
  | none => (proto.messagesByName.lookup name).map .message

/-- `message.rs` 101-109. -/
def MFieldTy.isMessageReference : MFieldTy → Bool
  | .ref (.message _) => true
  | _ => false

/-! ## Numbers in strings -/

/-- `u32::from` of a decimal digit (`char::to_digit(10)`, std).  Used by `str::parse` in
`compiler/union.rs` 47, 50. -/
def digit? (c : Char) : Option Nat :=
  if '0'.toNat ≤ c.toNat ∧ c.toNat ≤ '9'.toNat then some (c.toNat - '0'.toNat) else none

/-- The digits of a number, most significant first, after the digits read so far.  Used by `str::parse`
in `compiler/union.rs` 47. -/
def parseDigits (acc : Nat) : List Char → Option Nat
  | [] => some acc
  | c :: cs =>
    match digit? c with
    | some d => parseDigits (10 * acc + d) cs
    | none => none

/-- At least one digit, digits only, any magnitude.  Used by `str::parse` in `compiler/union.rs` 47. -/
def parseNat : List Char → Option Nat
  | [] => none
  | cs => parseDigits 0 cs

/-- `str::parse::<usize>` (std): an optional `+`, then decimal digits, below 2^64.
`compiler/union.rs` 50. -/
def parseUsize (s : List Char) : Option Nat :=
  let digits := match s with
    | '+' :: cs => cs
    | cs => cs
  match parseNat digits with
  | some n => if n < 2 ^ 64 then some n else none
  | none => none

/-- `str::parse::<isize>` (std): an optional sign, then decimal digits, in `-2^63 .. 2^63`.
`compiler/union.rs` 47. -/
def parseIsize (s : List Char) : Option Int :=
  match s with
  | '-' :: cs =>
    match parseNat cs with
    | some n => if n ≤ 2 ^ 63 then some (-(n : Int)) else none
    | none => none
  | '+' :: cs =>
    match parseNat cs with
    | some n => if n < 2 ^ 63 then some (n : Int) else none
    | none => none
  | cs =>
    match parseNat cs with
    | some n => if n < 2 ^ 63 then some (n : Int) else none
    | none => none

/-- `isize as usize`.  `compiler/union.rs` 48. -/
def isizeAsUsize (i : Int) : Nat := (i % 2 ^ 64).toNat

/-! ## Unions -/

namespace UCase

/-- The value of a case (`union.rs` 43-51): by variant name, as a signed number or as an unsigned
number, depending on the view of the discriminant field. -/
def caseValue (view : View) (case : Name) : C Nat :=
  match view with
  | .float _ _ _ _ => .err .floatInUnionDiscriminant
  | .enum e => Res.ofOption (.invalidUnionCase case) (e.variants.lookup case)
  | .transmute => Res.ofOption (.invalidUnionCase case) ((parseIsize case).map isizeAsUsize)
  | .signedCast _ => Res.ofOption (.invalidUnionCase case) ((parseIsize case).map isizeAsUsize)
  | .none => Res.ofOption (.invalidUnionCase case) (parseUsize case)

/-- The content type of a case (`union.rs` 52-53). -/
def content (proto : Protocol) : Option Name → C (Option Referenced)
  | none => pure none
  | some n => do
    let r ← Res.ofOption (.undefinedReference n) (Referenced.lookup proto n)
    pure (some r)

/-- `union.rs` 42-59. -/
def fromModel (proto : Protocol) (discriminant : FixedField) (value : Model.UCase) : C UCase := do
  let case ← caseValue discriminant.view value.case
  let itemType ← content proto value.itemType
  pure (.mk value.name case itemType)

end UCase

/-- `str::split(".")` (std): the parts between the dots, at least one.  `compiler/union.rs` 106. -/
def splitDot : List Char → List (List Char)
  | [] => [[]]
  | c :: cs =>
    if c = '.' then [] :: splitDot cs
    else
      match splitDot cs with
      | p :: ps => (c :: p) :: ps
      | [] => [[c]]

namespace Discriminant

/-- `union.rs` 101-103; `unwrap` and the index panic. -/
def getLeaf (d : Discriminant) : C FixedField :=
  match d.leaf.fields[d.leafIndex]? with
  | some (.fixed f) => .ok f
  | _ => .panic

/-- The loop `for sub in parts` (`union.rs` 111-121): the structure reached and the indices pushed. -/
def walk (name : Name) : Structure → List Name → C (Structure × List Nat)
  | leaf, [] => pure (leaf, [])
  | leaf, sub :: parts =>
    match leaf.fields.findIdx? (fun f => f.name == sub) with
    | none => .err (.undefinedReference (name ++ '.' :: sub))
    | some index =>
      match leaf.fields[index]? with
      | some (.fixed _) => pure (leaf, [index])
      | some (.struct _ r _) => do
        let (l, is) ← walk name r parts
        pure (l, index :: is)
      | _ => .err .invalidUnionDiscriminant

/-- `union.rs` 105-128; `unwrap` of the last index panics when there is none. -/
def fromModel (proto : Protocol) (discriminant : Name) : C Discriminant :=
  match splitDot discriminant with
  | [] => .err .invalidUnionDiscriminant
  | name :: parts => do
    let root ← Res.ofOption (.undefinedReference name) (proto.structsByName.lookup name)
    let (leaf, indexList) ← walk name root parts
    match indexList.getLast? with
    | some leafIndex => pure { root, leaf, leafIndex, indexList }
    | none => .panic

end Discriminant

/-- `Referenced::Message(v) => v.size.…` (`union.rs` 144-151). -/
def Referenced.size : Referenced → SizeInfo
  | .struct _ => ⟨false, false⟩
  | .message m => m.size

namespace Union

/-- The `map`/`collect` over the cases (`union.rs` 142-143). -/
def casesFromModel (proto : Protocol) (d : Discriminant) : List Model.UCase → C (List UCase)
  | [] => pure []
  | v :: vs => do
    let leaf ← d.getLeaf
    let k ← UCase.fromModel proto leaf v
    let ks ← casesFromModel proto d vs
    pure (k :: ks)

/-- Some case has a content with the given size flag (`union.rs` 144-151). -/
def anySize (flag : SizeInfo → Bool) (cases : List UCase) : Bool :=
  cases.any fun k =>
    match k.itemType with
    | some r => flag r.size
    | none => false

/-- `union.rs` 140-161. -/
def fromModel (proto : Protocol) (value : Model.Union) : C Union := do
  let discriminant ← Discriminant.fromModel proto value.discriminant
  let cases ← casesFromModel proto discriminant value.cases
  pure (.mk value.name discriminant cases
    ⟨anySize SizeInfo.isDynSized cases, anySize SizeInfo.isElementDynSized cases⟩)

end Union

/-! ## Messages -/

/-- Condition for a structure reference to become a plain number (`message.rs` 133-136): the number's
type. -/
def Structure.asScalar (r : Structure) : Option FixedTy :=
  match r.fields with
  | [.fixed f] => if f.view.isTransmute ∧ f.loc.bitSize % 8 = 0 then some f.ty else none
  | _ => none

namespace MField

/-- `message.rs` 128-287; `emb` are the messages flagged embedded, `unsorted` the fields compiled so
far.  The warning about optional unions (`message.rs` 263-265) is not modelled. -/
def fromModel (proto : Protocol) (emb : List Nat) (unsorted : List MField) (value : Model.MField) :
    C (MField × List Nat) :=
  let optional := value.optional.getD false
  match value.info with
  | .item itemType => do
    let r ← Res.ofOption (.undefinedReference itemType) (Referenced.lookup proto itemType)
    match r with
    | .struct s =>
      match s.asScalar with
      | some ty => pure (.mk value.name (.fixed ty) optional ⟨false, false⟩ proto.endianness, emb)
      | none => pure (.mk value.name (.ref (.struct s)) optional ⟨false, false⟩ proto.endianness, emb)
    | .message m => pure (.mk value.name (.ref (.message m)) optional m.size proto.endianness, emb)
  | .list maxLen itemType => do
    let r ← Res.ofOption (.undefinedReference itemType) (Referenced.lookup proto itemType)
    let ty ← FixedTy.fromMaxValue maxLen
    match r with
    | .struct s => pure (.mk value.name (.array ty s) optional ⟨true, false⟩ proto.endianness, emb)
    | .message m => pure (.mk value.name (.list ty m) optional ⟨true, true⟩ proto.endianness, m.id :: emb)
  | .string none => pure (.mk value.name .nullTerminatedString optional ⟨true, false⟩ proto.endianness, emb)
  | .string (some maxLen) => do
    let ty ← FixedTy.fromMaxValue maxLen
    pure (.mk value.name (.varcharString ty) optional ⟨true, false⟩ proto.endianness, emb)
  | .union on itemType => do
    let onIndex ← Res.ofOption (.undefinedReference on) (unsorted.findIdx? (fun f => f.name == on))
    let onField ← Res.ofOption (.undefinedReference on) (unsorted[onIndex]?)
    let r ← Res.ofOption (.undefinedReference itemType) (proto.unionsByName.lookup itemType)
    match onField.ty with
    | .ref (.struct s) =>
      if r.discriminant.root.id = s.id then
        pure (.mk value.name (.union r onField.name onIndex) false r.size proto.endianness, emb)
      else .err .unionTypeMismatch
    | _ => .err .unionTypeMismatch
  | .payload => pure (.mk value.name .payload optional ⟨true, true⟩ proto.endianness, emb)

end MField

namespace Message

/-- The loop of `message.rs` 304-323; `count` is `dyn_sized_elem_count`, `isDyn` is `is_dyn_sized`. -/
def fieldsFromModel (proto : Protocol) : List Nat → List MField → Nat → Bool → List Model.MField →
    C (List MField × Nat × Bool × List Nat)
  | emb, fields, count, isDyn, [] => pure (fields, count, isDyn, emb)
  | emb, fields, count, isDyn, v :: vs => do
    let (field, emb) ← MField.fromModel proto emb fields v
    let isDyn := isDyn || field.size.isDynSized
    if count > 0 ∧ (field.size.isDynSized = true ∨ field.size.isElementDynSized = true) then
      .err .varsizeAfterPayload
    else do
      let count := if field.size.isElementDynSized then count + 1 else count
      if count > 1 then .err .multiPayload
      else fieldsFromModel proto emb (fields ++ [field]) count isDyn vs

/-- `message.rs` 303-332; `id` is the identity of the `Rc` created by the caller. -/
def fromModel (proto : Protocol) (emb : List Nat) (id : Nat) (value : Model.Message) :
    C (Message × List Nat) := do
  let (fields, count, isDyn, emb) ← fieldsFromModel proto emb [] 0 false value.fields
  pure (.mk id value.name fields ⟨isDyn, decide (count > 0)⟩, emb)

end Message

end Proto
