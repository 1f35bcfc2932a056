import Verif.Gen.Message
import Verif.Spec.Wire
import Verif.Spec.Layout

/-!
# Vocabulary for messages

Schema classes (which messages are self-delimiting, which have their greedy part last, ...) and the
values a schema can represent.
-/

namespace Proto

/-! ## Schema classes -/

mutual
/-- No greedy part anywhere: see `Message.delimited`. -/
def Referenced.delimited (emb : Nat → Bool) : Referenced → Bool
  | .struct _ => true
  | .message m => m.delimited emb

/-- A payload is greedy; a list is greedy unless its container message is flagged embedded (`here`),
and then its items must be self-delimiting; a union needs self-delimiting contents. -/
def MFieldTy.delimited (emb : Nat → Bool) (here : Bool) : MFieldTy → Bool
  | .fixed _ => true
  | .ref r => r.delimited emb
  | .nullTerminatedString => true
  | .varcharString _ => true
  | .array _ _ => true
  | .union u _ _ => u.delimited emb
  | .list _ m => here && m.delimited emb
  | .payload => false

/-- Every case has self-delimiting content. -/
def UCase.listDelimited (emb : Nat → Bool) : List UCase → Bool
  | [] => true
  | .mk _ _ none :: cs => UCase.listDelimited emb cs
  | .mk _ _ (some r) :: cs => r.delimited emb && UCase.listDelimited emb cs

/-- Every case has self-delimiting content. -/
def Union.delimited (emb : Nat → Bool) : Union → Bool
  | .mk _ _ cases _ => UCase.listDelimited emb cases

/-- Every field is self-delimiting. -/
def MField.listDelimited (emb : Nat → Bool) (here : Bool) : List MField → Bool
  | [] => true
  | .mk _ ty _ _ _ :: fs => ty.delimited emb here && MField.listDelimited emb here fs

/-- The message has no greedy part: no payload and no list decoded by taking the rest of the input,
at any depth. -/
def Message.delimited (emb : Nat → Bool) : Message → Bool
  | .mk id _ fields _ => MField.listDelimited emb (emb id) fields
end

mutual
/-- See `Message.tailGreedy`. -/
def Referenced.tailGreedy (emb : Nat → Bool) : Referenced → Bool
  | .struct _ => true
  | .message m => m.tailGreedy emb

/-- Greedy parts, if any, are at the end. -/
def MFieldTy.tailGreedy (emb : Nat → Bool) (here : Bool) : MFieldTy → Bool
  | .fixed _ => true
  | .ref r => r.tailGreedy emb
  | .nullTerminatedString => true
  | .varcharString _ => true
  | .array _ _ => true
  | .union u _ _ => u.tailGreedy emb
  | .list _ m => !here || m.delimited emb
  | .payload => true

/-- Greedy parts of every case, if any, are at the end. -/
def UCase.listTailGreedy (emb : Nat → Bool) : List UCase → Bool
  | [] => true
  | .mk _ _ none :: cs => UCase.listTailGreedy emb cs
  | .mk _ _ (some r) :: cs => r.tailGreedy emb && UCase.listTailGreedy emb cs

/-- Greedy parts of every case, if any, are at the end. -/
def Union.tailGreedy (emb : Nat → Bool) : Union → Bool
  | .mk _ _ cases _ => UCase.listTailGreedy emb cases

/-- Every field but the last is self-delimiting; greedy parts of the last are at its end. -/
def MField.listTailGreedy (emb : Nat → Bool) (here : Bool) : List MField → Bool
  | [] => true
  | .mk _ ty _ _ _ :: fs =>
    match fs with
    | [] => ty.tailGreedy emb here
    | _ :: _ => ty.delimited emb here && MField.listTailGreedy emb here fs

/-- The greedy part of the message, if any, comes last. -/
def Message.tailGreedy (emb : Nat → Bool) : Message → Bool
  | .mk id _ fields _ => MField.listTailGreedy emb (emb id) fields
end

mutual
/-- Every field reachable through the reference satisfies `q`. -/
def Referenced.allFields (q : MField → Bool) : Referenced → Bool
  | .struct _ => true
  | .message m => m.allFields q

/-- Every field reachable through the field type satisfies `q`. -/
def MFieldTy.allFields (q : MField → Bool) : MFieldTy → Bool
  | .ref r => r.allFields q
  | .union u _ _ => u.allFields q
  | .list _ m => m.allFields q
  | _ => true

/-- Every field reachable through the cases satisfies `q`. -/
def UCase.listAllFields (q : MField → Bool) : List UCase → Bool
  | [] => true
  | .mk _ _ none :: cs => UCase.listAllFields q cs
  | .mk _ _ (some r) :: cs => r.allFields q && UCase.listAllFields q cs

/-- Every field reachable through the union satisfies `q`. -/
def Union.allFields (q : MField → Bool) : Union → Bool
  | .mk _ _ cases _ => UCase.listAllFields q cases

/-- Every field of the list, at any depth, satisfies `q`. -/
def MField.listAllFields (q : MField → Bool) : List MField → Bool
  | [] => true
  | .mk n ty o sz e :: fs =>
    q (.mk n ty o sz e) && ty.allFields q && MField.listAllFields q fs

/-- Every field of the message, and of the messages it refers to, at any depth, satisfies `q`. -/
def Message.allFields (q : MField → Bool) : Message → Bool
  | .mk _ _ fields _ => MField.listAllFields q fields
end

/-- The field is not a length-prefixed string. -/
def MField.notVarchar (f : MField) : Bool :=
  match f.ty with
  | .varcharString _ => false
  | _ => true

/-- The field is not optional. -/
def MField.notOptional (f : MField) : Bool := !f.optional

/-- The largest total size an array field can announce fits the machine word. -/
def MField.countFits (f : MField) : Bool :=
  match f.ty with
  | .array ty s => decide ((256 ^ ty.byteSize - 1) * s.byteSize + ty.byteSize < 2 ^ 64)
  | _ => true

/-- If the field is a list, its items have no optional fields, at any depth. -/
def MField.plainItems (f : MField) : Bool :=
  match f.ty with
  | .list _ m => m.allFields MField.notOptional
  | _ => true

mutual
/-- See `Message.greedy`. -/
def Referenced.greedy (emb : Nat → Bool) : Referenced → Bool
  | .struct _ => false
  | .message m => m.greedy emb

/-- The field type takes the rest of the input. -/
def MFieldTy.greedy (emb : Nat → Bool) (here : Bool) : MFieldTy → Bool
  | .payload => true
  | .list _ _ => !here
  | .ref r => r.greedy emb
  | _ => false

/-- Some non-optional field takes the rest of the input. -/
def MField.listGreedy (emb : Nat → Bool) (here : Bool) : List MField → Bool
  | [] => false
  | .mk _ ty o _ _ :: fs => (!o && ty.greedy emb here) || MField.listGreedy emb here fs

/-- Some non-optional field, directly or through message references, takes the rest of the input. -/
def Message.greedy (emb : Nat → Bool) : Message → Bool
  | .mk id _ fields _ => MField.listGreedy emb (emb id) fields
end

mutual
/-- See `Message.nonEmpty`. -/
def Referenced.nonEmpty : Referenced → Bool
  | .struct s => decide (0 < s.byteSize)
  | .message m => m.nonEmpty

/-- Encodings of the field type have at least one byte. -/
def MFieldTy.nonEmpty : MFieldTy → Bool
  | .ref r => r.nonEmpty
  | .union _ _ _ => false
  | .payload => false
  | _ => true

/-- Some field needs at least one byte. -/
def MField.listNonEmpty : List MField → Bool
  | [] => false
  | .mk _ ty o _ _ :: fs => o || ty.nonEmpty || MField.listNonEmpty fs

/-- Some field of the message needs at least one byte. -/
def Message.nonEmpty : Message → Bool
  | .mk _ _ fields _ => MField.listNonEmpty fields
end

mutual
/-- See `Message.AllMessages`. -/
def Referenced.AllMessages (q : Message → Prop) : Referenced → Prop
  | .struct _ => True
  | .message m => m.AllMessages q

/-- Every message reachable through the field type satisfies `q`. -/
def MFieldTy.AllMessages (q : Message → Prop) : MFieldTy → Prop
  | .ref r => r.AllMessages q
  | .union u _ _ => u.AllMessages q
  | .list _ m => m.AllMessages q
  | _ => True

/-- Every message reachable through the cases satisfies `q`. -/
def UCase.ListAllMessages (q : Message → Prop) : List UCase → Prop
  | [] => True
  | .mk _ _ none :: cs => UCase.ListAllMessages q cs
  | .mk _ _ (some r) :: cs => r.AllMessages q ∧ UCase.ListAllMessages q cs

/-- Every message reachable through the union satisfies `q`. -/
def Union.AllMessages (q : Message → Prop) : Union → Prop
  | .mk _ _ cases _ => UCase.ListAllMessages q cases

/-- Every message reachable through the fields satisfies `q`. -/
def MField.ListAllMessages (q : Message → Prop) : List MField → Prop
  | [] => True
  | .mk _ ty _ _ _ :: fs => ty.AllMessages q ∧ MField.ListAllMessages q fs

/-- The message, and every message it refers to at any depth, satisfies `q`. -/
def Message.AllMessages (q : Message → Prop) : Message → Prop
  | .mk id n fields sz => q (.mk id n fields sz) ∧ MField.ListAllMessages q fields
end

/-- The structure is packed, has supported widths and an addressable size. -/
def Structure.Usable (s : Structure) : Prop := s.WF ∧ s.Sized ∧ s.byteSize < 2 ^ 64

/-- If the field is a union, the first earlier field it is keyed on is present (not optional) and
holds the structure the discriminant path starts from, and that path leads to an integer field. -/
def MField.Keyed (before : List MField) (f : MField) : Prop :=
  match f.ty with
  | .union u on _ => ∃ g, before.find? (fun g => g.name == on) = some g ∧ g.optional = false ∧
      g.ty = .ref (.struct u.discriminant.root) ∧ u.discriminant.root.Usable ∧
      u.discriminant.access ≠ none
  | _ => True

/-- Every union field of the message is keyed. -/
def Message.Keyed (m : Message) : Prop :=
  ∀ before f after, m.fields = before ++ f :: after → f.Keyed before

/-! ## Representable values -/

mutual
/-- A structure reference is a slice of exactly the structure's size. -/
def Referenced.Repr (c : Ctx) : Referenced → Value → Prop
  | .struct s, v => ∃ b, v = .struct b ∧ b.length = s.byteSize
  | .message m, v => m.Repr c v

/-- Numbers fit their type; strings are UTF-8 (without NUL when NUL-terminated); lengths and counts
fit their prefix; an array has the bytes its count announces; a list of a message flagged embedded
was built from representable items; `env` holds the fields before this one. -/
def MFieldTy.Repr (c : Ctx) (emb : Bool) : MFieldTy → Env → Value → Prop
  | .fixed ty, _, v => ∃ n, v = .num n ∧ n < 256 ^ ty.byteSize
  | .ref r, _, v => r.Repr c v
  | .nullTerminatedString, _, v => ∃ s, v = .str s ∧ IsUtf8 s ∧ 0 ∉ s
  | .varcharString ty, _, v =>
    ∃ s, v = .str s ∧ IsUtf8 s ∧ s.length < 256 ^ ty.byteSize ∧ ty.byteSize + s.length < 2 ^ 64
  | .array ty s, _, v =>
    ∃ l, v = .seq l ∧ l.len < 256 ^ ty.byteSize ∧ l.data.length = l.len * s.byteSize ∧
      ty.byteSize + l.data.length < 2 ^ 64
  | .union u on _, env, v => u.Repr c env on v
  | .list ty m, _, v =>
    ∃ l, v = .seq l ∧ l.len < 256 ^ ty.byteSize ∧
      (emb = true → ∃ items : List Value, items.length = l.len ∧ (∀ x ∈ items, m.Repr c x) ∧
        l.data = items.flatMap fun x => (m.write c x).bytes)
  | .payload, _, v => ∃ b, v = .buf b

/-- Case number `i` is the first one whose declared value is `d`, and `x` is a value of its
content. -/
def UCase.ReprCase (c : Ctx) : List UCase → Nat → Nat → Value → Prop
  | [], _, _, _ => False
  | .mk _ case none :: cs, i, d, x =>
    if i = 0 then d = case ∧ x = .unit else d ≠ case ∧ UCase.ReprCase c cs (i - 1) d x
  | .mk _ case (some r) :: cs, i, d, x =>
    if i = 0 then d = case ∧ r.Repr c x else d ≠ case ∧ UCase.ReprCase c cs (i - 1) d x

/-- The union value is of the case the key structure in `env` announces. -/
def Union.Repr (c : Ctx) : Union → Env → Name → Value → Prop
  | .mk _ disc cases _, env, on, v =>
    ∃ i x d, v = .union i x ∧ disc.read c.p env on = .ok d ∧ UCase.ReprCase c cases i d x

/-- An optional field is absent or has a representable value. -/
def MField.Repr (c : Ctx) (emb : Bool) : MField → Env → Value → Prop
  | .mk _ ty optional _ _, env, v =>
    if optional then v = .none ∨ ∃ x, v = .some x ∧ ty.Repr c emb env x
    else ty.Repr c emb env v

/-- The fields are named as declared and representable, each in the environment of the previous
ones. -/
def MField.ListRepr (c : Ctx) (emb : Bool) : List MField → Env → Env → Prop
  | [], _, vs => vs = []
  | f :: fs, env, vs =>
    ∃ v rest, vs = (f.name, v) :: rest ∧ f.Repr c emb env v ∧
      MField.ListRepr c emb fs (env ++ [(f.name, v)]) rest

/-- The values a message type can hold and encode faithfully. -/
def Message.Repr (c : Ctx) : Message → Value → Prop
  | .mk id _ fields _, v => ∃ vs, v = .msg vs ∧ MField.ListRepr c (c.emb id) fields [] vs
end

/-! ## Wire format -/

mutual
/-- The bytes of the structure, or the wire form of the message. -/
def Referenced.wire : Referenced → Value → Bytes
  | .struct _, v =>
    match v with
    | .struct b => b
    | _ => []
  | .message m, v => m.wire v

/-- A number has its width in the field's byte order; a string its bytes and a NUL, or its length and
its bytes; an array or list its count and its data; a union only the content of its case; a payload
its bytes. -/
def MFieldTy.wire (e : Endian) : MFieldTy → Value → Bytes
  | .fixed ty, v =>
    match v with
    | .num n => wireInt e ty.byteSize n
    | _ => []
  | .ref r, v => r.wire v
  | .nullTerminatedString, v =>
    match v with
    | .str s => s ++ [0]
    | _ => []
  | .varcharString ty, v =>
    match v with
    | .str s => wireInt e ty.byteSize s.length ++ s
    | _ => []
  | .array ty _, v =>
    match v with
    | .seq l => wireInt e ty.byteSize l.len ++ l.data
    | _ => []
  | .union u _ _, v =>
    match v with
    | .union i x => u.wire i x
    | _ => []
  | .list ty _, v =>
    match v with
    | .seq l => wireInt e ty.byteSize l.len ++ l.data
    | _ => []
  | .payload, v =>
    match v with
    | .buf b => b
    | _ => []

/-- The content of case number `i`. -/
def UCase.wireAt : List UCase → Nat → Value → Bytes
  | [], _, _ => []
  | .mk _ _ none :: cs, i, x => if i = 0 then [] else UCase.wireAt cs (i - 1) x
  | .mk _ _ (some r) :: cs, i, x => if i = 0 then r.wire x else UCase.wireAt cs (i - 1) x

/-- The content of case number `i`. -/
def Union.wire : Union → Nat → Value → Bytes
  | .mk _ _ cases _, i, x => UCase.wireAt cases i x

/-- An optional field is a 0 byte, or a 1 byte and its value. -/
def MField.wire : MField → Value → Bytes
  | .mk _ ty optional _ e, v =>
    if optional then
      match v with
      | .some x => 1 :: ty.wire e x
      | _ => [0]
    else ty.wire e v

/-- The fields one after the other. -/
def MField.listWire : List MField → List (Name × Value) → Bytes
  | [], _ => []
  | f :: fs, vs =>
    match vs with
    | (_, v) :: vs => f.wire v ++ MField.listWire fs vs
    | [] => []

/-- The fields one after the other, without anything between, before or after them. -/
def Message.wire : Message → Value → Bytes
  | .mk _ _ fields _, v =>
    match v with
    | .msg vs => MField.listWire fields vs
    | _ => []
end

/-! ## Offsets -/

mutual
/-- A field that refers to a message has that message's offsets, if it is there; other fields have
none. -/
def MField.offsetsOf : MField → Value → Offsets
  | .mk _ (.ref (.message m)) optional _ _, v =>
    if optional then
      match v with
      | .some x => .present (m.offsetsOf x)
      | _ => .absent
    else m.offsetsOf v
  | _, _ => .unit

/-- Each field begins at `off`, or where the one before it ends, and is as long as its wire form. -/
def MField.listOffsets : List MField → Nat → List (Name × Value) → OffEnv
  | [], _, _ => []
  | f :: fs, off, vs =>
    match vs with
    | (_, v) :: vs =>
      (f.name, ⟨off, off + (f.wire v).length⟩, f.offsetsOf v) ::
        MField.listOffsets fs (off + (f.wire v).length) vs
    | [] => []

/-- Where the fields of the message are in its wire form. -/
def Message.offsetsOf : Message → Value → Offsets
  | .mk _ _ fields _, v =>
    match v with
    | .msg vs => .msg (MField.listOffsets fields 0 vs)
    | _ => .unit
end

/-! ## Values whose encoding has no end of its own -/

mutual
/-- See `Message.Open`. -/
def Referenced.Open (emb : Nat → Bool) : Referenced → Value → Prop
  | .struct _, _ => False
  | .message m, v => m.Open emb v

/-- Payloads, and lists of a message that is not flagged embedded. -/
def MFieldTy.Open (emb : Nat → Bool) (here : Bool) : MFieldTy → Value → Prop
  | .fixed _, _ => False
  | .ref r, v => r.Open emb v
  | .nullTerminatedString, _ => False
  | .varcharString _, _ => False
  | .array _ _, _ => False
  | .union u _ _, v => u.Open emb v
  | .list _ _, _ => here = false
  | .payload, _ => True

/-- The content of case number `i` is open. -/
def UCase.OpenAt (emb : Nat → Bool) : List UCase → Nat → Value → Prop
  | [], _, _ => False
  | .mk _ _ none :: cs, i, x => i ≠ 0 ∧ UCase.OpenAt emb cs (i - 1) x
  | .mk _ _ (some r) :: cs, i, x =>
    (i = 0 ∧ r.Open emb x) ∨ (i ≠ 0 ∧ UCase.OpenAt emb cs (i - 1) x)

/-- The content of the case is open. -/
def Union.Open (emb : Nat → Bool) : Union → Value → Prop
  | .mk _ _ cases _, v =>
    match v with
    | .union i x => UCase.OpenAt emb cases i x
    | _ => False

/-- An absent optional field is not open. -/
def MField.Open (emb : Nat → Bool) (here : Bool) : MField → Value → Prop
  | .mk _ ty optional _ _, v =>
    if optional then
      match v with
      | .some x => ty.Open emb here x
      | _ => False
    else ty.Open emb here v

/-- The last field is open. -/
def MField.ListOpen (emb : Nat → Bool) (here : Bool) : List MField → List (Name × Value) → Prop
  | [], _ => False
  | f :: fs, vs =>
    match vs with
    | [] => False
    | (_, v) :: vs =>
      match fs with
      | [] => f.Open emb here v
      | _ :: _ => MField.ListOpen emb here fs vs

/-- The encoding of the value ends with a part that takes whatever follows. -/
def Message.Open (emb : Nat → Bool) : Message → Value → Prop
  | .mk id _ fields _, v =>
    match v with
    | .msg vs => MField.ListOpen emb (emb id) fields vs
    | _ => False
end

/-! ## Inputs that make a decoder panic -/

/-- Decoding up to `n` items in a row reaches one that is `bad`. -/
def Parser.Reaches (f : Parser α) (bad : Bytes → Prop) : Nat → Bytes → Prop
  | 0, _ => False
  | n + 1, b => bad b ∨ ∃ size v, f b = .ok ⟨size, v⟩ ∧ Parser.Reaches f bad n (b.drop size)

/-- The size of an array of `n` items of `isz` bytes behind a prefix of `sz` bytes is not computed:
it exceeds 64 bits or, without overflow checks, the truncated size of the items leaves no room for the
prefix. -/
def SizeLost (p : Profile) (sz isz n : Nat) : Prop :=
  match p with
  | .checked => 2 ^ 64 ≤ sz + n * isz
  | .wrapping => 2 ^ 64 ≤ sz + n * isz % 2 ^ 64

mutual
/-- Inputs on which the decoder of a reference panics. -/
def Referenced.Stuck (c : Ctx) : Referenced → Bytes → Prop
  | .struct _, _ => False
  | .message m, b => m.Stuck c b

/-- Inputs on which the decoder of a field type panics: a string shorter than announced, an array whose
size is lost, a scanned list that reaches a bad item, a union whose key cannot be read or whose selected
content is bad, a bad message. -/
def MFieldTy.Stuck (c : Ctx) (emb : Bool) (e : Endian) : MFieldTy → Env → Bytes → Prop
  | .fixed _, _, _ => False
  | .ref r, _, b => r.Stuck c b
  | .nullTerminatedString, _, _ => False
  | .varcharString ty, _, b =>
    ty.byteSize ≤ b.length ∧ b.length < ty.byteSize + intOfWire e (b.take ty.byteSize)
  | .array ty s, _, b =>
    ty.byteSize ≤ b.length ∧ SizeLost c.p ty.byteSize s.byteSize (intOfWire e (b.take ty.byteSize))
  | .union u on _, env, b => u.Stuck c env on b
  | .list ty m, _, b =>
    emb = true ∧ ty.byteSize ≤ b.length ∧
      (m.parse c).Reaches (m.Stuck c) (intOfWire e (b.take ty.byteSize)) (b.drop ty.byteSize)
  | .payload, _, _ => False

/-- The first case of that value has content, and the content is bad. -/
def UCase.ListStuck (c : Ctx) : List UCase → Nat → Bytes → Prop
  | [], _, _ => False
  | .mk _ case none :: cs, d, b => d ≠ case ∧ UCase.ListStuck c cs d b
  | .mk _ case (some r) :: cs, d, b =>
    (d = case ∧ r.Stuck c b) ∨ (d ≠ case ∧ UCase.ListStuck c cs d b)

/-- Inputs on which the decoder of a union panics. -/
def Union.Stuck (c : Ctx) : Union → Env → Name → Bytes → Prop
  | .mk _ disc cases _, env, on, b =>
    disc.read c.p env on = .panic ∨ ∃ d, disc.read c.p env on = .ok d ∧ UCase.ListStuck c cases d b

/-- Inputs on which the decoder of a field panics; an absent optional field is fine. -/
def MField.Stuck (c : Ctx) (emb : Bool) : MField → Env → Bytes → Prop
  | .mk _ ty optional _ e, env, b =>
    if optional then ∃ flag rest, b = flag :: rest ∧ flag ≠ 0 ∧ ty.Stuck c emb e env rest
    else ty.Stuck c emb e env b

/-- The first field that does not decode is bad. -/
def MField.ListStuck (c : Ctx) (emb : Bool) : List MField → Env → Bytes → Prop
  | [], _, _ => False
  | f :: fs, env, b =>
    f.Stuck c emb env b ∨
      ∃ size v, f.parse c emb env b = .ok ⟨size, v⟩ ∧
        MField.ListStuck c emb fs (env ++ [(f.name, v)]) (b.drop size)

/-- Inputs on which the decoder of a message panics. -/
def Message.Stuck (c : Ctx) : Message → Bytes → Prop
  | .mk id _ fields _, b => MField.ListStuck c (c.emb id) fields [] b
end

end Proto
