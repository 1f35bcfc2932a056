import Verif.Gen.Message

/-!
# How much the generated decoders do

The work of a decoder on an input: one unit for every call of `from_slice`, for every turn of the loop
that looks for the end of a list, for every byte compared with zero and for every byte given to
`std::str::from_utf8`.  Everything else a call does takes a time that does not depend on the input.
The definitions follow the decoders of `Runtime/Message.lean` and `Gen/Message.lean`; what happens
after a part is decided by the result of the decoder of that part.
-/

namespace Proto

/-- The bytes compared with zero until the first zero is found (`message/util/string.rs` 40-43). -/
def findNulWork : Bytes → Nat
  | [] => 0
  | b :: bs => if b = 0 then 1 else findNulWork bs + 1

/-- `NullTerminatedString::from_slice` (`message/util/string.rs` 39-46). -/
def NullTerminated.work (slice : Bytes) : Nat :=
  1 + findNulWork slice + (match findNul slice with
    | none => 0
    | some pos => pos)

/-- `VarcharString<T>::from_slice` (`message/util/string.rs` 64-70); the call decoding the length
counts. -/
def Varchar.work (p : Profile) (e : Endian) (sz : Nat) (slice : Bytes) : Nat :=
  2 + (match (do
    let msg ← Scalar.fromSlice e sz slice
    let stop ← addU p usizeBits msg.size msg.data
    Proto.slice slice msg.size stop : R Bytes) with
    | .ok sub => sub.length
    | _ => 0)

/-- `Optional<T>::from_slice` (`message/util/common.rs` 39-51). -/
def Optional.work (t : Bytes → Nat) : Bytes → Nat
  | [] => 1
  | b :: rest => if b.toNat > 0 then 1 + t rest else 1

/-- The loop of `List::from_slice` (`message/util/list.rs` 53-56) with `n` iterations left. -/
def Lst.scanWork (f : Parser α) (t : Bytes → Nat) (data : Bytes) : Nat → Nat → Nat
  | 0, _ => 0
  | n + 1, total =>
    1 + (match dropFrom data total with
      | .ok rest =>
        t rest + (match f rest with
          | .ok msg => Lst.scanWork f t data n (total + msg.size)
          | _ => 0)
      | _ => 0)

/-- `List::from_slice` (`message/util/list.rs` 47-59); the call decoding the length counts. -/
def Lst.work (e : Endian) (sz : Nat) (f : Parser α) (t : Bytes → Nat) (slice : Bytes) : Nat :=
  2 + (match (do
    let msg ← Scalar.fromSlice e sz slice
    let data ← dropFrom slice msg.size
    pure (msg.data, data) : R (Nat × Bytes)) with
    | .ok (len, data) => Lst.scanWork f t data len 0
    | _ => 0)

/-- `Iter::next` (`message/util/list.rs` 71-82): the items already returned are not decoded again. -/
def Lst.nextWork (t : Bytes → Nat) (it : Seq Bytes) : Nat :=
  if it.len = 0 then 1 else 1 + t it.data

/-- `n` successive calls of `next` (`message/util/list.rs` 71-82). -/
def Lst.stepsWork (f : Parser α) (t : Bytes → Nat) : Nat → Seq Bytes → Nat
  | 0, _ => 0
  | n + 1, it => Lst.nextWork t it + Lst.stepsWork f t n (Lst.next f it).2

mutual

/-- `{type}::from_slice` for a reference (`gen/base/message_from_slice.rs` 48-51). -/
def Referenced.work (c : Ctx) : Referenced → Bytes → Nat
  | .struct _, _ => 1
  | .message m, slice => m.work c slice

/-- `{type}::from_slice` without the `Optional` wrapper (`gen/base/message_from_slice.rs` 44-78).
Arrays and unsized lists decode their length and nothing else. -/
def MFieldTy.work (c : Ctx) (emb : Bool) (e : Endian) : MFieldTy → Env → Bytes → Nat
  | .fixed _, _, _ => 1
  | .ref r, _, slice => r.work c slice
  | .nullTerminatedString, _, slice => NullTerminated.work slice
  | .varcharString ty, _, slice => Varchar.work c.p e ty.byteSize slice
  | .array _ _, _, _ => 2
  | .union u on _, env, slice => u.work c env on slice
  | .list ty m, _, slice => if emb then Lst.work e ty.byteSize (m.parse c) (m.work c) slice else 2
  | .payload, _, _ => 1

/-- The arms of `match discriminant` (`union.template` 101-105, 113-117). -/
def Union.workCases (c : Ctx) : List UCase → Nat → Bytes → Nat
  | [], _, _ => 0
  | .mk _ case none :: cs, d, slice => if d = case then 0 else Union.workCases c cs d slice
  | .mk _ case (some r) :: cs, d, slice => if d = case then r.work c slice else Union.workCases c cs d slice

/-- `from_slice` of a union (`union.template` 93-122). -/
def Union.work (c : Ctx) : Union → Env → Name → Bytes → Nat
  | .mk _ disc cases _, env, on, slice =>
    1 + (match disc.read c.p env on with
      | .ok d => Union.workCases c cases d slice
      | _ => 0)

/-- One field (`gen/base/message_from_slice.rs` 36-42 wraps optional fields). -/
def MField.work (c : Ctx) (emb : Bool) : MField → Env → Bytes → Nat
  | .mk _ ty optional _ e, env, slice =>
    if optional then Optional.work (ty.work c emb e env) slice else ty.work c emb e env slice

/-- The statements `{fields}` of `from_slice` (`message.from_slice.template` 8-22). -/
def MField.workList (c : Ctx) (emb : Bool) : List MField → Env → Nat → Bytes → Nat
  | [], _, _, _ => 0
  | f :: fs, env, byteOffset, slice =>
    match dropFrom slice byteOffset with
    | .ok rest =>
      f.work c emb env rest + (match f.parse c emb env rest with
        | .ok msg => MField.workList c emb fs (env ++ [(f.name, msg.data)]) (byteOffset + msg.size) slice
        | _ => 0)
    | _ => 0

/-- `from_slice` of a message (`message.from_slice.template` 1-32). -/
def Message.work (c : Ctx) : Message → Bytes → Nat
  | .mk id _ fields _, slice => 1 + MField.workList c (c.emb id) fields [] 0 slice

end

end Proto
