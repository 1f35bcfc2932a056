import Verif.Gen.Message
import Verif.Runtime.Word

/-!
# The generated code where `usize` has another width

The accessors of `Gen/Struct.lean` and the message and union code of `Gen/Message.lean` on a target
whose `usize` has `w` bits: they call the functions of `Runtime/Word.lean`, and the discriminant
reported for an unknown union case is converted to `usize`.
-/

namespace Proto

/-- Body of `get_raw_{name}` (`structure.field.template` fragments `getters.fixed.bit`,
`getters.fixed.byte`; selection in `gen/base/structure.rs` 55-63). -/
def FixedField.getRawAt (w : Nat) (p : Profile) (f : FixedField) (buf : Bytes) : R Nat := do
  let s ← slice buf f.loc.byteOffset f.loc.stop
  if f.loc.bitSize % 8 ≠ 0 then
    if f.unaligned then
      BitCodec.readUnalignedAt w p f.endian f.loc.rawSize f.loc.bitOffset f.loc.bitSize s
    else BitCodec.readAlignedAt w p f.endian f.loc.rawSize f.loc.bitOffset f.loc.bitSize s
  else
    if f.unaligned then ByteCodec.readUnaligned f.endian f.loc.rawSize s
    else ByteCodec.readAligned f.endian f.loc.rawSize s

/-- Body of `set_raw_{name}` (`structure.field.template` fragments `setters.fixed.bit`,
`setters.fixed.byte`; selection in `gen/base/structure.rs` 87-95). -/
def FixedField.setRawAt (w : Nat) (p : Profile) (f : FixedField) (buf : Bytes) (value : Nat) :
    R Bytes := do
  let s ← slice buf f.loc.byteOffset f.loc.stop
  let s' ←
    if f.loc.bitSize % 8 ≠ 0 then
      if f.unaligned then
        BitCodec.writeUnalignedAt w p f.endian f.loc.rawSize f.loc.bitOffset f.loc.bitSize s value
      else BitCodec.writeAlignedAt w p f.endian f.loc.rawSize f.loc.bitOffset f.loc.bitSize s value
    else
      if f.unaligned then ByteCodec.writeUnaligned f.endian f.loc.rawSize s value
      else ByteCodec.writeAligned f.endian f.loc.rawSize s value
  pure (splice buf f.loc.byteOffset s')

/-- `get_{name}().get_raw(index)` for an array field (`structure.field.template` fragment
`getters.array`; `gen/base/structure.rs` 68-70). -/
def ArrayField.getItemAt (w : Nat) (p : Profile) (f : ArrayField) (buf : Bytes) (index : Nat) :
    R Nat := do
  let s ← slice buf f.loc.byteOffset f.loc.stop
  ArrayCodec.getRawAt w p f.endian f.ty.byteSize f.itemBitSize s index

/-- `get_{name}_mut().set_raw(index, value)` (`structure.field.template` fragment `setters.array`;
`gen/base/structure.rs` 100-102). -/
def ArrayField.setItemAt (w : Nat) (p : Profile) (f : ArrayField) (buf : Bytes) (index value : Nat) :
    R Bytes := do
  let s ← slice buf f.loc.byteOffset f.loc.stop
  let s' ← ArrayCodec.setRawAt w p f.endian f.ty.byteSize f.itemBitSize s index value
  pure (splice buf f.loc.byteOffset s')

namespace Access

/-- Reading through a chain of accessors (`gen/base/structure.rs` 71-72). -/
def getAt (w : Nat) (p : Profile) : Access → Bytes → R Nat
  | fixed f, buf => f.getRawAt w p buf
  | item f k, buf => f.getItemAt w p buf k
  | nested loc rest, buf => do
    let s ← slice buf loc.byteOffset loc.stop
    rest.getAt w p s

/-- Writing through a chain of accessors (`gen/base/structure.rs` 103-104). -/
def setAt (w : Nat) (p : Profile) : Access → Bytes → Nat → R Bytes
  | fixed f, buf, v => f.setRawAt w p buf v
  | item f k, buf, v => f.setItemAt w p buf k v
  | nested loc rest, buf, v => do
    let s ← slice buf loc.byteOffset loc.stop
    let s' ← rest.setAt w p s v
    pure (splice buf loc.byteOffset s')

end Access

/-- `let discriminant = discriminant.{discriminant_path}` (`union.template` 70, 99, 111). -/
def Discriminant.readAt (w : Nat) (p : Profile) (d : Discriminant) (env : Env) (on : Name) : R Nat :=
  match env.lookup on, d.access with
  | some (.struct b), some a => a.getAt w p b
  | _, _ => .panic

mutual

/-- `{type}::from_slice` for a reference (`gen/base/message_from_slice.rs` 48-51). -/
def Referenced.parseAt (w : Nat) (c : Ctx) : Referenced → Parser Value
  | .struct s => s.parse
  | .message m => m.parseAt w c

/-- `{type}::from_slice` without the `Optional` wrapper (`gen/base/message_from_slice.rs` 44-78). -/
def MFieldTy.parseAt (w : Nat) (c : Ctx) (emb : Bool) (e : Endian) : MFieldTy → Env → Parser Value
  | .fixed ty, _ => (Scalar.fromSlice e ty.byteSize).map .num
  | .ref r, _ => r.parseAt w c
  | .nullTerminatedString, _ => NullTerminated.fromSlice.map .str
  | .varcharString ty, _ => (Varchar.fromSliceAt w c.p e ty.byteSize).map .str
  | .array ty s, _ => (Arr.fromSliceAt w c.p e ty.byteSize s.byteSize).map .seq
  | .union u on _, env => u.parseAt w c env on
  | .list ty m, _ =>
    if emb then (Lst.fromSliceAt w e ty.byteSize (m.parseAt w c)).map .seq
    else (Lst.unsizedFromSliceAt w e ty.byteSize).map .seq
  | .payload, _ => Buffer.fromSlice.map .buf

/-- The arms of `match discriminant` (`union.template` 101-105, 113-117; `gen/rust/union.rs` 61-70);
an unknown value is reported `as usize` (105, 117). -/
def Union.parseCasesAt (w : Nat) (c : Ctx) : List UCase → Nat → Nat → Parser Value
  | [], _, d => fun _ => .err (.invalidUnionDiscriminant (toUsizeAt w d))
  | .mk _ case none :: cs, i, d =>
    if d = case then fun _ => .ok ⟨0, .union i .unit⟩ else Union.parseCasesAt w c cs (i + 1) d
  | .mk _ case (some r) :: cs, i, d =>
    if d = case then (r.parseAt w c).map (.union i) else Union.parseCasesAt w c cs (i + 1) d

/-- `from_slice` of a union (`union.template` 93-122). -/
def Union.parseAt (w : Nat) (c : Ctx) : Union → Env → Name → Parser Value
  | .mk _ disc cases _, env, on => fun slice => do
    let d ← disc.readAt w c.p env on
    Union.parseCasesAt w c cases 0 d slice

/-- One field (`gen/base/message_from_slice.rs` 36-42 wraps optional fields). -/
def MField.parseAt (w : Nat) (c : Ctx) (emb : Bool) : MField → Env → Parser Value
  | .mk _ ty optional _ e, env =>
    if optional then (Optional.fromSlice (ty.parseAt w c emb e env)).map Value.ofOption
    else ty.parseAt w c emb e env

/-- The statements `{fields}` of `from_slice` (`message.from_slice.template` 8-22). -/
def MField.parseListAt (w : Nat) (c : Ctx) (emb : Bool) :
    List MField → Env → Nat → Bytes → R (Nat × Env)
  | [], env, byteOffset, _ => .ok (byteOffset, env)
  | f :: fs, env, byteOffset, slice => do
    let rest ← dropFrom slice byteOffset
    let msg ← f.parseAt w c emb env rest
    MField.parseListAt w c emb fs (env ++ [(f.name, msg.data)]) (byteOffset + msg.size) slice

/-- `from_slice` of a message (`message.from_slice.template` 1-32). -/
def Message.parseAt (w : Nat) (c : Ctx) : Message → Parser Value
  | .mk id _ fields _ => fun slice => do
    let r ← MField.parseListAt w c (c.emb id) fields [] 0 slice
    pure ⟨r.1, .msg r.2⟩

end

mutual

/-- One field: message references use `from_slice_with_offsets` (fragment `field_msg`), all others
`from_slice` (`gen/base/message_from_slice.rs` 89-95). -/
def MField.parseOffAt (w : Nat) (c : Ctx) (emb : Bool) : MField → Env → Parser (Value × Offsets)
  | .mk n ty optional sz e, env =>
    match ty with
    | .ref (.message m) =>
      if optional then
        (Optional.fromSliceWithOffsets (m.parseOffAt w c)).map fun r => (.ofOption r.1, .ofOption r.2)
      else m.parseOffAt w c
    | ty => (MField.parseAt w c emb (.mk n ty optional sz e) env).map fun v => (v, .unit)

/-- The statements `{fields}` (`message.offsets.template` 27-48). -/
def MField.parseOffListAt (w : Nat) (c : Ctx) (emb : Bool) :
    List MField → Env → OffEnv → Nat → Bytes → R (Nat × Env × OffEnv)
  | [], env, offs, byteOffset, _ => .ok (byteOffset, env, offs)
  | f :: fs, env, offs, byteOffset, slice => do
    let rest ← dropFrom slice byteOffset
    let msg ← f.parseOffAt w c emb env rest
    MField.parseOffListAt w c emb fs (env ++ [(f.name, msg.data.1)])
      (offs ++ [(f.name, ⟨byteOffset, byteOffset + msg.size⟩, msg.data.2)]) (byteOffset + msg.size) slice

/-- `from_slice_with_offsets` of a message (`message.offsets.template` 17-57). -/
def Message.parseOffAt (w : Nat) (c : Ctx) : Message → Parser (Value × Offsets)
  | .mk id _ fields _ => fun slice => do
    let r ← MField.parseOffListAt w c (c.emb id) fields [] [] 0 slice
    pure ⟨r.1, (.msg r.2.1, .msg r.2.2)⟩

end

mutual

/-- `{type}::write_to` for a reference.  `gen/rust/message.write.template` 8, `gen/rust/union.template`
75. -/
def Referenced.writeAt (w : Nat) (c : Ctx) : Referenced → Value → Out
  | .struct s, v =>
    match v with
    | .struct b => s.write b
    | _ => .stop .panic
  | .message m, v => m.writeAt w c v

/-- `{type}::write_to` without the `Optional` wrapper (`gen/base/message_write.rs` 35-48); the lengths
converted by `T::from_usize` are below `2 ^ w` already. -/
def MFieldTy.writeAt (w : Nat) (c : Ctx) (e : Endian) : MFieldTy → Env → Value → Out
  | .fixed ty, _, v =>
    match v with
    | .num n => Scalar.writeTo e ty.byteSize n
    | _ => .stop .panic
  | .ref r, _, v => r.writeAt w c v
  | .nullTerminatedString, _, v =>
    match v with
    | .str s => NullTerminated.writeTo s
    | _ => .stop .panic
  | .varcharString ty, _, v =>
    match v with
    | .str s => Varchar.writeTo e ty.byteSize s
    | _ => .stop .panic
  | .array ty _, _, v =>
    match v with
    | .seq l => l.writeTo e ty.byteSize
    | _ => .stop .panic
  | .union u on _, env, v => u.writeAt w c env on v
  | .list ty _, _, v =>
    match v with
    | .seq l => l.writeTo e ty.byteSize
    | _ => .stop .panic
  | .payload, _, v =>
    match v with
    | .buf b => Buffer.writeTo b
    | _ => .stop .panic

/-- The arms of `match input` (`union.template` 71-80). -/
def Union.writeCasesAt (w : Nat) (c : Ctx) : List UCase → Nat → Nat → Value → Out
  | [], _, _, _ => .stop .panic
  | .mk _ _ none :: cs, i, d, v => if i = 0 then .done else Union.writeCasesAt w c cs (i - 1) d v
  | .mk _ case (some r) :: cs, i, d, v =>
    if i = 0 then
      if d = case then r.writeAt w c v else .stop (.err (.invalidUnionDiscriminant (toUsizeAt w d)))
    else Union.writeCasesAt w c cs (i - 1) d v

/-- `write_to` of a union (`union.template` 64-91). -/
def Union.writeAt (w : Nat) (c : Ctx) : Union → Env → Name → Value → Out
  | .mk _ disc cases _, env, on, v =>
    match v with
    | .union i x =>
      if cases.any (fun k => k.itemType.isSome) then
        match disc.readAt w c.p env on with
        | .ok d => Union.writeCasesAt w c cases i d x
        | .err e => .stop (.err e)
        | .panic => .stop .panic
      else .done
    | _ => .stop .panic

/-- One field (`message.write.template` 7-12). -/
def MField.writeAt (w : Nat) (c : Ctx) : MField → Env → Value → Out
  | .mk _ ty optional _ e, env, v =>
    if optional then
      match v with
      | .none => Optional.writeTo (ty.writeAt w c e env) none
      | .some x => Optional.writeTo (ty.writeAt w c e env) (some x)
      | _ => .stop .panic
    else ty.writeAt w c e env v

/-- The statements `{fields}` of `write_to` (`message.write.template` 6-13). -/
def MField.writeListAt (w : Nat) (c : Ctx) : List MField → Env → Env → Out
  | [], _, _ => .done
  | f :: fs, env, vs =>
    match vs with
    | (_, v) :: vs => (f.writeAt w c env v).andThen (MField.writeListAt w c fs env vs)
    | [] => .stop .panic

/-- `write_to` of a message (`message.write.template` 1-16). -/
def Message.writeAt (w : Nat) (c : Ctx) : Message → Value → Out
  | .mk _ _ fields _, v =>
    match v with
    | .msg vs => MField.writeListAt w c fields vs vs
    | _ => .stop .panic

end

/-- `set_discriminant` of a union (`union.template` 47-62). -/
def Union.setDiscriminantAt (w : Nat) (p : Profile) (u : Union) (i : Nat) (key : Bytes) : R Bytes :=
  match u.cases[i]?, u.discriminant.access with
  | some k, some a => a.setAt w p key k.case
  | _, _ => .panic

end Proto
