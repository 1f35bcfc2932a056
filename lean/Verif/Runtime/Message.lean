import Verif.Runtime.Codec

/-!
# `runtime/src/message`

A decoder is a function from the input slice to a `Result<Message<T>>`.  An encoder generic in
`W: std::io::Write` can only append chunks with `write_all` and stop at the first error, so it is
represented by what it does: the chunks it passes to `write_all`, in order, and the result it returns
after the last one (`Out`); `Out.run` executes it on any sink.
-/

namespace Proto

/-- `message/interface.rs` 54-78 (`Message<T>`; `new`, `into_inner`, `size` are the constructor and
projections). -/
structure Msg (α : Type) where
  size : Nat
  data : α
deriving DecidableEq, Repr

/-- `message/interface.rs` 75-77. -/
def Msg.map (f : α → β) (m : Msg α) : Msg β := ⟨m.size, f m.data⟩

/-- `message/interface.rs` 83 (`FromSlice::from_slice`). -/
abbrev Parser (α : Type) := Bytes → R (Msg α)

/-- `&slice[n..]`: panics when `n` exceeds the length.  Rust; for example
`runtime/src/message/util/list.rs`. -/
def dropFrom (l : Bytes) (n : Nat) : R Bytes := slice l n l.length

/-! ## Output -/

/-- What a call of `WriteTo::write_to` (`message/interface.rs` 93-97) does to its `out` argument. -/
structure Out where
  chunks : List Bytes
  res : R Unit

namespace Out

/-- `Ok(())` without output.  For example `runtime/src/message/util/common.rs` 85. -/
def done : Out := ⟨[], .ok ()⟩

/-- `out.write_all(bs)?; Ok(())`.  For example `runtime/src/message/util/common.rs` 154. -/
def write (bs : Bytes) : Out := ⟨[bs], .ok ()⟩

/-- Returning without output.  Rust, not in `/repo`. -/
def stop (r : R Unit) : Out := ⟨[], r⟩

/-- `a?; b`.  For example `runtime/src/message/util/string.rs` 53-54. -/
def andThen (a b : Out) : Out :=
  match a.res with
  | .ok () => ⟨a.chunks ++ b.chunks, b.res⟩
  | r => ⟨a.chunks, r⟩

/-- All bytes passed to `write_all`.  Rust, not in `/repo`. -/
def bytes (o : Out) : Bytes := o.chunks.flatten

end Out

/-- A `std::io::Write` implementation: the effect of `write_all` on its state.  The parameter `W` of
`runtime/src/message/interface.rs` 96. -/
structure Sink (σ : Type) where
  writeAll : Bytes → σ → R Unit × σ

/-- Passing chunks to a sink until one fails; then `r`.  Rust, not in `/repo`. -/
def Sink.runChunks (S : Sink σ) (r : R Unit) : List Bytes → σ → R Unit × σ
  | [], s => (r, s)
  | c :: cs, s =>
    match S.writeAll c s with
    | (.ok (), s') => S.runChunks r cs s'
    | (e, s') => (e, s')

/-- Running an encoder on a sink.  `runtime/src/message/interface.rs` 96. -/
def Out.run (o : Out) (S : Sink σ) (s : σ) : R Unit × σ := S.runChunks o.res o.chunks s

/-- `impl Write for Vec<u8>` (std): appends.  Used with `runtime/src/message/interface.rs` 96. -/
def Sink.vec : Sink Bytes := ⟨fun bs s => (.ok (), s ++ bs)⟩

/-- `message/util/size.rs` 33-44 (`Counter`); `self.0 += buf.len()` follows the build profile. -/
def Sink.counter (p : Profile) : Sink Nat :=
  ⟨fun bs n =>
    match (addU p usizeBits n bs.length : R Nat) with
    | .ok n' => (.ok (), n')
    | .err e => (.err e, n)
    | .panic => (.panic, n)⟩

/-- A stream that accepts `left` more bytes and then fails with an I/O error (std `write_all`: what fits
is written first).  Rust, not in `/repo`. -/
structure Limited where
  received : Bytes
  left : Nat
deriving DecidableEq, Repr

/-- `write_all` on a `Limited` stream.  Rust, not in `/repo`. -/
def Sink.limited : Sink Limited :=
  ⟨fun bs s =>
    if bs.length ≤ s.left then (.ok (), ⟨s.received ++ bs, s.left - bs.length⟩)
    else (.err .io, ⟨s.received ++ bs.take s.left, 0⟩)⟩

/-- `message/util/size.rs` 48-58 (`SizeOf::get`, `size_of`). -/
def sizeOf (p : Profile) (o : Out) : R Nat :=
  match o.run (Sink.counter p) 0 with
  | (.ok (), n) => .ok n
  | (.err e, _) => .err e
  | (.panic, _) => .panic

/-! ## `message/util/common.rs` -/

namespace Scalar

/-- `ValueLE<T>::from_slice` (`message/util/common.rs` 97-105), `ValueBE<T>::from_slice` (120-128);
`sz = size_of::<T>()`. -/
def fromSlice (e : Endian) (sz : Nat) : Parser Nat := fun slice =>
  if slice.length < sz then .err .truncated
  else do
    let value ← readBytes e sz slice
    pure ⟨sz, value⟩

/-- `ValueLE<T>::write_to` (`message/util/common.rs` 111-114), `ValueBE<T>::write_to` (134-137);
`bytesutil::WriteTo::write_to_le/be` (external) writes the `sz` bytes of the value. -/
def writeTo (e : Endian) (sz : Nat) (v : Nat) : Out :=
  .write (match e with
    | .little => natLe sz v
    | .big => natBe sz v)

end Scalar

namespace Optional

/-- `Optional<T>::from_slice` (`message/util/common.rs` 39-51). -/
def fromSlice (f : Parser α) : Parser (Option α) := fun slice =>
  match slice with
  | [] => .err .truncated
  | b :: rest =>
    if b.toNat > 0 then do
      let msg ← f rest
      pure ⟨msg.size + 1, some msg.data⟩
    else .ok ⟨1, none⟩

/-- `Optional<T>::from_slice_with_offsets` (`message/util/common.rs` 57-71). -/
def fromSliceWithOffsets (f : Parser (α × ω)) : Parser (Option α × Option ω) := fun slice =>
  match slice with
  | [] => .err .truncated
  | b :: rest =>
    if b.toNat > 0 then do
      let msg ← f rest
      pure ⟨msg.size + 1, (some msg.data.1, some msg.data.2)⟩
    else .ok ⟨1, (none, none)⟩

/-- `Optional<T>::write_to` (`message/util/common.rs` 77-86). -/
def writeTo (w : α → Out) : Option α → Out
  | none => .write [0]
  | some v => (Out.write [1]).andThen (w v)

end Optional

namespace Buffer

/-- `Buffer::from_slice` (`message/util/common.rs` 145-147). -/
def fromSlice : Parser Bytes := fun slice => .ok ⟨slice.length, slice⟩

/-- `Buffer::write_to` (`message/util/common.rs` 153-156). -/
def writeTo (b : Bytes) : Out := .write b

end Buffer

/-! ## `message/util/string.rs` -/

/-- `std::str::from_utf8(..).is_ok()`; a `&str` is represented by its bytes.
`message/util/string.rs` 43, 68. -/
def validUtf8 (b : Bytes) : Bool := decide (ByteArray.IsValidUTF8 b.toByteArray)

/-- Position of the first zero byte (`message/util/string.rs` 40-43). -/
def findNul : Bytes → Option Nat
  | [] => none
  | b :: bs => if b = 0 then some 0 else (findNul bs).map (· + 1)

namespace NullTerminated

/-- `NullTerminatedString::from_slice` (`message/util/string.rs` 39-46). -/
def fromSlice : Parser Bytes := fun slice =>
  match findNul slice with
  | none => .err .truncated
  | some pos => do
    let s ← Proto.slice slice 0 pos
    if validUtf8 s then .ok ⟨s.length + 1, s⟩ else .err .invalidUtf8

/-- `NullTerminatedString::write_to` (`message/util/string.rs` 52-56). -/
def writeTo (s : Bytes) : Out := (Out.write s).andThen (.write [0])

end NullTerminated

namespace Varchar

/-- `VarcharString<T>::from_slice` (`message/util/string.rs` 64-70), `T` a value codec of `sz`
bytes. -/
def fromSlice (p : Profile) (e : Endian) (sz : Nat) : Parser Bytes := fun slice => do
  let msg ← Scalar.fromSlice e sz slice
  let size := msg.size
  let stop ← addU p usizeBits size msg.data
  let sub ← Proto.slice slice size stop
  if validUtf8 sub then .ok ⟨size + sub.length, sub⟩ else .err .invalidUtf8

/-- `VarcharString<T>::write_to` (`message/util/string.rs` 76-80). -/
def writeTo (e : Endian) (sz : Nat) (s : Bytes) : Out :=
  (Scalar.writeTo e sz (fromUsize sz s.length)).andThen (.write s)

end Varchar

/-! ## `message/util/list_base.rs`, `list.rs`, `array.rs` -/

/-- `List<B, T, Item>` (`message/util/list.rs` 34-40) and `Array<B, T, Item>`
(`message/util/array.rs` 37-43): a data buffer and a length. -/
structure Seq (σ : Type) where
  data : σ
  len : Nat
deriving DecidableEq, Repr

namespace Seq

/-- `new` (`message/util/list_base.rs` 41-43). -/
def new (data : σ) : Seq σ := ⟨data, 0⟩

/-- `write_to` (`message/util/list_base.rs` 53-57), the count codec has `sz` bytes. -/
def writeTo (e : Endian) (sz : Nat) (l : Seq Bytes) : Out :=
  (Scalar.writeTo e sz (fromUsize sz l.len)).andThen (.write l.data)

/-- `write_item` (`message/util/list_base.rs` 61-65): the item's output goes to the data buffer, the
count grows only on success (simplification: `len += 1` cannot overflow). -/
def writeItem (S : Sink σ) (item : Out) (l : Seq σ) : R Unit × Seq σ :=
  match item.run S l.data with
  | (.ok (), data) => (.ok (), ⟨data, l.len + 1⟩)
  | (r, data) => (r, ⟨data, l.len⟩)

/-- `write_items` (`message/util/list_base.rs` 67-72). -/
def writeItems (S : Sink σ) : List Out → Seq σ → R Unit × Seq σ
  | [], l => (.ok (), l)
  | i :: is, l =>
    match l.writeItem S i with
    | (.ok (), l') => writeItems S is l'
    | (r, l') => (r, l')

end Seq

namespace Lst

/-- The loop of `List::from_slice` (`message/util/list.rs` 53-56) with `n` iterations left. -/
def scan (f : Parser α) (data : Bytes) : Nat → Nat → R Nat
  | 0, total => .ok total
  | n + 1, total => do
    let rest ← dropFrom data total
    let msg ← f rest
    scan f data n (total + msg.size)

/-- `List::from_slice` (`message/util/list.rs` 47-59); sums of sizes are at most the slice length and
cannot overflow. -/
def fromSlice (e : Endian) (sz : Nat) (f : Parser α) : Parser (Seq Bytes) := fun slice => do
  let msg ← Scalar.fromSlice e sz slice
  let control := msg.size
  let len := msg.data
  let data ← dropFrom slice control
  let total ← scan f data len 0
  let data ← Proto.slice slice control (control + total)
  pure ⟨total + control, ⟨data, len⟩⟩

/-- `Unsized::from_slice` (`message/util/list.rs` 134-140). -/
def unsizedFromSlice (e : Endian) (sz : Nat) : Parser (Seq Bytes) := fun slice => do
  let msg ← Scalar.fromSlice e sz slice
  let data ← dropFrom slice msg.size
  pure ⟨slice.length, ⟨data, msg.data⟩⟩

/-- `Iter::next` (`message/util/list.rs` 71-82) and `IterOffsets::next` (94-105): the step's result
and the iterator afterwards.  `none` is the end of the iteration; `some .panic` a panic. -/
def next (f : Parser α) (it : Seq Bytes) : Option (R α) × Seq Bytes :=
  if it.len = 0 then (none, it)
  else
    match f it.data with
    | .err e => (some (.err e), it)
    | .panic => (some .panic, it)
    | .ok msg =>
      match dropFrom it.data msg.size with
      | .ok rest => (some (.ok msg.data), ⟨rest, it.len - 1⟩)
      | _ => (some .panic, it)

/-- The results of `n` successive calls of `next`, starting from `iter()` / `iter_offsets()`
(`message/util/list.rs` 109-123: same data and length as the list). -/
def steps (f : Parser α) : Nat → Seq Bytes → List (Option (R α))
  | 0, _ => []
  | n + 1, it => (next f it).1 :: steps f n (next f it).2

end Lst

namespace Arr

/-- `Array::from_slice` (`message/util/array.rs` 115-131); `isz = Item::SIZE`. -/
def fromSlice (p : Profile) (e : Endian) (sz isz : Nat) : Parser (Seq Bytes) := fun slice => do
  let msg ← Scalar.fromSlice e sz slice
  let control := msg.size
  let len := msg.data
  let body ← mulU p usizeBits len isz
  let total ← addU p usizeBits control body
  if slice.length < total then .err .truncated
  else do
    let data ← Proto.slice slice control total
    pure ⟨total, ⟨data, len⟩⟩

/-- `Array::from_parts` (`message/util/array.rs` 74-79). -/
def fromParts (p : Profile) (isz : Nat) (data : Bytes) (len : Nat) : R (Option (Seq Bytes)) := do
  let n ← mulU p usizeBits len isz
  pure (if data.length = n then some ⟨data, len⟩ else none)

/-- The range `start..end` of `get`/`get_mut` (`message/util/array.rs` 84-85, 99-100). -/
def range (p : Profile) (isz index : Nat) : R (Nat × Nat) := do
  let start ← mulU p usizeBits index isz
  let stop ← addU p usizeBits start isz
  pure (start, stop)

/-- `Array::get` (`message/util/array.rs` 83-87): the bytes of the item. -/
def get (p : Profile) (isz : Nat) (a : Seq Bytes) (index : Nat) : R Bytes := do
  let r ← range p isz index
  slice a.data r.1 r.2

/-- Modifying an item through `Array::get_mut` (`message/util/array.rs` 98-102): `g` is what the
caller does to the item's bytes. -/
def modify (p : Profile) (isz : Nat) (a : Seq Bytes) (index : Nat) (g : Bytes → Bytes) :
    R (Seq Bytes) := do
  let r ← range p isz index
  let s ← slice a.data r.1 r.2
  pure ⟨splice a.data r.1 (g s), a.len⟩

/-- `Array::iter` / `iter_mut` collected (`message/util/array.rs` 47-71, 89-94, 104-109). -/
def iter (isz : Nat) (a : Seq Bytes) : R (List Bytes) := ArrayCodec.chunks isz a.data

end Arr

/-! ## `message/interface.rs` 42-52 -/

/-- `FieldOffset`.  `runtime/src/message/interface.rs` 42-46. -/
structure FieldOffset where
  start : Nat
  stop : Nat
deriving DecidableEq, Repr

/-- `FieldOffset::size` (`message/interface.rs` 49-51). -/
def FieldOffset.size (p : Profile) (o : FieldOffset) : R Nat := subU p usizeBits o.stop o.start

/-- `MultiOptionExt::to_single` (`runtime/src/util/mod.rs` 56-60). -/
def toSingle : Option α × Option β → Option (α × β)
  | (some a, some b) => some (a, b)
  | _ => none

end Proto
