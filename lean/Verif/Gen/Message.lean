import Verif.Gen.Struct
import Verif.Runtime.Message

/-!
# Meaning of the generated message and union code

The Rust generator instantiates, for each message, the templates `message.from_slice.template`,
`message.offsets.template` and `message.write.template` of `compiler/src/gen/rust`, and for each union
`union.template`.  The functions below are the bodies of the instantiated `from_slice`,
`from_slice_with_offsets` and `write_to`, as functions of the compiled message.

Values of the generated Rust types are represented untyped; a value of the wrong shape cannot be
written in Rust, the model then answers with a panic (such values are excluded by `Repr` in
`Spec/Message.lean`).
-/

namespace Proto

/-- A value of a generated message field type (`gen/base/message.rs` 56-84 chooses the Rust type). -/
inductive Value where
  /-- integer, float (its bits) or boolean of a `Fixed` field -/
  | num (n : Nat)
  /-- `S<&[u8]>`: the bytes behind a structure reference -/
  | struct (b : Bytes)
  /-- `&str` -/
  | str (b : Bytes)
  /-- `&[u8]` -/
  | buf (b : Bytes)
  /-- `Array<&[u8], _, _>` and `List<&[u8], _, _>` -/
  | seq (l : Seq Bytes)
  /-- `None` -/
  | none
  /-- `Some(v)` -/
  | some (v : Value)
  /-- the content of a union case without content -/
  | unit
  /-- case number `idx` of a union enum, with its content -/
  | union (idx : Nat) (v : Value)
  /-- a message struct: its fields in order -/
  | msg (fields : List (Name × Value))

/-- Local variables of the decoder / fields of the encoded struct.
`gen/rust/message.from_slice.template` 11, 26, `gen/rust/message.write.template` 8. -/
abbrev Env := List (Name × Value)

/-- Global parameters of the generated code: the build profile, and which messages are flagged
embedded (`compiler/message.rs` 299-301) when code is generated. -/
structure Ctx where
  p : Profile
  emb : Nat → Bool

/-- The accessor chain built by `get_discriminant_path` (`gen/rust/union.rs` 45-51) from the iterator
`compiler/union.rs` 70-91: `get_x()` for nested structures, `get_raw_x()` for the leaf.  `none` when
the path does not end on a fixed field (the generated code would not be an integer expression). -/
def Structure.walk (s : Structure) : List Nat → Option Access
  | [] => none
  | i :: is =>
    match s.fields[i]? with
    | some (.fixed f) => if is = [] then some (.fixed f) else none
    | some (.struct _ r loc) => (r.walk is).map (.nested loc)
    | _ => none

/-- `{discriminant_path}` (`gen/rust/union.rs` 45-51). -/
def Discriminant.access (d : Discriminant) : Option Access := d.root.walk d.indexList

/-- `let discriminant = discriminant.{discriminant_path}` (`union.template` 70, 99, 111) where the
argument is the variable `on` (`message.from_slice.template` 19, `message.write.template` 11). -/
def Discriminant.read (p : Profile) (d : Discriminant) (env : Env) (on : Name) : R Nat :=
  match env.lookup on, d.access with
  | some (.struct b), some a => a.get p b
  | _, _ => .panic

/-- `from_slice` of a structure (`gen/rust/structure.template` 59-71). -/
def Structure.parse (s : Structure) : Parser Value := fun slice =>
  if slice.length < s.byteSize then .err .truncated
  else do
    let b ← Proto.slice slice 0 s.byteSize
    pure ⟨s.byteSize, .struct b⟩

/-- `write_to` of a structure (`gen/rust/structure.template` 48-57). -/
def Structure.write (s : Structure) (b : Bytes) : Out :=
  match (Proto.slice b 0 s.byteSize : R Bytes) with
  | .ok d => .write d
  | r => .stop (r.bind fun _ => .ok ())

/-- Post-composition with a constructor (`Message::map`, `into_inner`).
`runtime/src/message/interface.rs` 67, 75. -/
def Parser.map (g : α → β) (f : Parser α) : Parser β := fun b => (f b).bind fun m => .ok (m.map g)

/-- Conversion of a decoded `Option`.  `runtime/src/message/util/common.rs` 58-70. -/
def Value.ofOption : Option Value → Value
  | Option.none => .none
  | Option.some v => .some v

mutual

/-- `{type}::from_slice` for a reference (`gen/base/message_from_slice.rs` 48-51). -/
def Referenced.parse (c : Ctx) : Referenced → Parser Value
  | .struct s => s.parse
  | .message m => m.parse c

/-- `{type}::from_slice` without the `Optional` wrapper (`gen/base/message_from_slice.rs` 44-78);
`emb` is `msg.is_embedded()` of the message that has the field; `env` holds the fields decoded so far
(used by unions).  The endianness selects `ValueLE`/`ValueBE` (`gen/rust/util.rs` 158-170). -/
def MFieldTy.parse (c : Ctx) (emb : Bool) (e : Endian) : MFieldTy → Env → Parser Value
  | .fixed ty, _ => (Scalar.fromSlice e ty.byteSize).map .num
  | .ref r, _ => r.parse c
  | .nullTerminatedString, _ => NullTerminated.fromSlice.map .str
  | .varcharString ty, _ => (Varchar.fromSlice c.p e ty.byteSize).map .str
  | .array ty s, _ => (Arr.fromSlice c.p e ty.byteSize s.byteSize).map .seq
  | .union u on _, env => u.parse c env on
  | .list ty m, _ =>
    if emb then (Lst.fromSlice e ty.byteSize (m.parse c)).map .seq
    else (Lst.unsizedFromSlice e ty.byteSize).map .seq
  | .payload, _ => Buffer.fromSlice.map .buf

/-- The arms of `match discriminant` (`union.template` 101-105, 113-117; `gen/rust/union.rs` 61-70),
cases numbered from `i`. -/
def Union.parseCases (c : Ctx) : List UCase → Nat → Nat → Parser Value
  | [], _, d => fun _ => .err (.invalidUnionDiscriminant d)
  | .mk _ case none :: cs, i, d =>
    if d = case then fun _ => .ok ⟨0, .union i .unit⟩ else Union.parseCases c cs (i + 1) d
  | .mk _ case (some r) :: cs, i, d =>
    if d = case then (r.parse c).map (.union i) else Union.parseCases c cs (i + 1) d

/-- `from_slice` of a union (`union.template` 93-122); `on` names the variable holding the key
structure. -/
def Union.parse (c : Ctx) : Union → Env → Name → Parser Value
  | .mk _ disc cases _, env, on => fun slice => do
    let d ← disc.read c.p env on
    Union.parseCases c cases 0 d slice

/-- One field (`gen/base/message_from_slice.rs` 36-42 wraps optional fields). -/
def MField.parse (c : Ctx) (emb : Bool) : MField → Env → Parser Value
  | .mk _ ty optional _ e, env =>
    if optional then (Optional.fromSlice (ty.parse c emb e env)).map Value.ofOption
    else ty.parse c emb e env

/-- The statements `{fields}` of `from_slice` (`message.from_slice.template` 8-22). -/
def MField.parseList (c : Ctx) (emb : Bool) : List MField → Env → Nat → Bytes → R (Nat × Env)
  | [], env, byteOffset, _ => .ok (byteOffset, env)
  | f :: fs, env, byteOffset, slice => do
    let rest ← dropFrom slice byteOffset
    let msg ← f.parse c emb env rest
    MField.parseList c emb fs (env ++ [(f.name, msg.data)]) (byteOffset + msg.size) slice

/-- `from_slice` of a message (`message.from_slice.template` 1-32). -/
def Message.parse (c : Ctx) : Message → Parser Value
  | .mk id _ fields _ => fun slice => do
    let r ← MField.parseList c (c.emb id) fields [] 0 slice
    pure ⟨r.1, .msg r.2⟩

end

mutual

/-- `{type}::write_to` for a reference.  `gen/rust/message.write.template` 8, `gen/rust/union.template`
75. -/
def Referenced.write (c : Ctx) : Referenced → Value → Out
  | .struct s, v =>
    match v with
    | .struct b => s.write b
    | _ => .stop .panic
  | .message m, v => m.write c v

/-- `{type}::write_to` without the `Optional` wrapper (`gen/base/message_write.rs` 35-48); lists are
always written by `List::write_to` (`message.write.template` 31-33). -/
def MFieldTy.write (c : Ctx) (e : Endian) : MFieldTy → Env → Value → Out
  | .fixed ty, _, v =>
    match v with
    | .num n => Scalar.writeTo e ty.byteSize n
    | _ => .stop .panic
  | .ref r, _, v => r.write c v
  | .nullTerminatedString, _, v =>
    match v with
    | .str s => NullTerminated.writeTo s
    | _ => .stop .panic
  | .varcharString ty, _, v =>
    match v with
    | .str s => Varchar.writeTo e ty.byteSize s
    | _ => .stop .panic
  | .array ty _, _, v =>
    match v with
    | .seq l => l.writeTo e ty.byteSize
    | _ => .stop .panic
  | .union u on _, env, v => u.write c env on v
  | .list ty _, _, v =>
    match v with
    | .seq l => l.writeTo e ty.byteSize
    | _ => .stop .panic
  | .payload, _, v =>
    match v with
    | .buf b => Buffer.writeTo b
    | _ => .stop .panic

/-- The arms of `match input` (`union.template` 71-80); `i` is the number of the case of `input`. -/
def Union.writeCases (c : Ctx) : List UCase → Nat → Nat → Value → Out
  | [], _, _, _ => .stop .panic
  | .mk _ _ none :: cs, i, d, v => if i = 0 then .done else Union.writeCases c cs (i - 1) d v
  | .mk _ case (some r) :: cs, i, d, v =>
    if i = 0 then
      if d = case then r.write c v else .stop (.err (.invalidUnionDiscriminant d))
    else Union.writeCases c cs (i - 1) d v

/-- `write_to` of a union (`union.template` 64-91; the fragment without match is used when no case
has content, `gen/rust/union.rs` 81-98). -/
def Union.write (c : Ctx) : Union → Env → Name → Value → Out
  | .mk _ disc cases _, env, on, v =>
    match v with
    | .union i x =>
      if cases.any (fun k => k.itemType.isSome) then
        match disc.read c.p env on with
        | .ok d => Union.writeCases c cases i d x
        | .err e => .stop (.err e)
        | .panic => .stop .panic
      else .done
    | _ => .stop .panic

/-- One field (`message.write.template` 7-12). -/
def MField.write (c : Ctx) : MField → Env → Value → Out
  | .mk _ ty optional _ e, env, v =>
    if optional then
      match v with
      | .none => Optional.writeTo (ty.write c e env) none
      | .some x => Optional.writeTo (ty.write c e env) (some x)
      | _ => .stop .panic
    else ty.write c e env v

/-- The statements `{fields}` of `write_to` (`message.write.template` 6-13); `env` is the whole
struct. -/
def MField.writeList (c : Ctx) : List MField → Env → Env → Out
  | [], _, _ => .done
  | f :: fs, env, vs =>
    match vs with
    | (_, v) :: vs => (f.write c env v).andThen (MField.writeList c fs env vs)
    | [] => .stop .panic

/-- `write_to` of a message (`message.write.template` 1-16). -/
def Message.write (c : Ctx) : Message → Value → Out
  | .mk _ _ fields _, v =>
    match v with
    | .msg vs => MField.writeList c fields vs vs
    | _ => .stop .panic

end

/-- The offsets reported for one message: for each field its range, and the nested offsets of a
message reference (`message.offsets.template` 1-15; `gen/rust/message_offsets.rs` 37-50). -/
inductive Offsets where
  /-- the field has no nested offsets -/
  | unit
  /-- `None` -/
  | absent
  /-- `Some(o)` -/
  | present (o : Offsets)
  /-- a `{msg_name}Offsets` struct -/
  | msg (fields : List (Name × FieldOffset × Offsets))

/-- The offset struct under construction.  `gen/rust/message.offsets.template` 4-13, 23. -/
abbrev OffEnv := List (Name × FieldOffset × Offsets)

/-- Conversion of a decoded pair of options (`message/util/common.rs` 57-71). -/
def Offsets.ofOption : Option Offsets → Offsets
  | Option.none => .absent
  | Option.some o => .present o

mutual

/-- One field: message references use `from_slice_with_offsets` (fragment `field_msg`), all others
`from_slice` (`gen/base/message_from_slice.rs` 89-95). -/
def MField.parseOff (c : Ctx) (emb : Bool) : MField → Env → Parser (Value × Offsets)
  | .mk n ty optional sz e, env =>
    match ty with
    | .ref (.message m) =>
      if optional then
        (Optional.fromSliceWithOffsets (m.parseOff c)).map fun r => (.ofOption r.1, .ofOption r.2)
      else m.parseOff c
    | ty => (MField.parse c emb (.mk n ty optional sz e) env).map fun v => (v, .unit)

/-- The statements `{fields}` (`message.offsets.template` 27-48). -/
def MField.parseOffList (c : Ctx) (emb : Bool) :
    List MField → Env → OffEnv → Nat → Bytes → R (Nat × Env × OffEnv)
  | [], env, offs, byteOffset, _ => .ok (byteOffset, env, offs)
  | f :: fs, env, offs, byteOffset, slice => do
    let rest ← dropFrom slice byteOffset
    let msg ← f.parseOff c emb env rest
    MField.parseOffList c emb fs (env ++ [(f.name, msg.data.1)])
      (offs ++ [(f.name, ⟨byteOffset, byteOffset + msg.size⟩, msg.data.2)]) (byteOffset + msg.size) slice

/-- `from_slice_with_offsets` of a message (`message.offsets.template` 17-57). -/
def Message.parseOff (c : Ctx) : Message → Parser (Value × Offsets)
  | .mk id _ fields _ => fun slice => do
    let r ← MField.parseOffList c (c.emb id) fields [] [] 0 slice
    pure ⟨r.1, (.msg r.2.1, .msg r.2.2)⟩

end

/-- `set_discriminant` of a union (`union.template` 47-62): stores the case value of case `i`. -/
def Union.setDiscriminant (p : Profile) (u : Union) (i : Nat) (key : Bytes) : R Bytes :=
  match u.cases[i]?, u.discriminant.access with
  | some k, some a => a.set p key k.case
  | _, _ => .panic

/-- `as_{case}` / `is_{case}` of a union (`union.template` 17-45). -/
def Union.asCase (i : Nat) : Value → Option Value
  | .union j v => if i = j then some v else none
  | _ => none

end Proto
