import Verif.Runtime.Message

/-!
# The runtime library where `usize` has another width

`Runtime/Codec.lean` and `Runtime/Message.lean` describe targets on which `usize` has 64 bits.  The
functions below are the same functions on a target whose `usize` has `w` bits; only the ones that
compute with a `usize` or convert to one differ from the originals.  A slice on such a target is shorter
than `2 ^ w` bytes.
-/

namespace Proto

/-- `ToUsize::to_usize` (`runtime/src/util/scalar.rs` 38-40): an `as` cast. -/
def toUsizeAt (w n : Nat) : Nat := n % 2 ^ w

namespace BitCodec

/-- `let mask: usize = (1 << BIT_SIZE) - 1;` (`codec/bits.rs` 74, 80, 91, 97). -/
def maskAt (w : Nat) (p : Profile) (size : Nat) : R Nat := do
  let m ← shlU p w 1 size
  subU p w m 1

/-- The shift amount: `BIT_OFFSET` (`codec/bits.rs` 76, 84) for LE,
`8 - (BIT_SIZE % 8) - BIT_OFFSET` (`codec/bits.rs` 93, 101) for BE. -/
def shiftAmountAt (w : Nat) (p : Profile) (e : Endian) (off size : Nat) : R Nat :=
  match e with
  | .little => .ok off
  | .big => do
    let a ← subU p w 8 (size % 8)
    subU p w a off

/-- `codec/bits.rs` 73-77 (LE), 90-94 (BE). -/
def readAlignedAt (w : Nat) (p : Profile) (e : Endian) (sz off size : Nat) (buf : Bytes) : R Nat := do
  let mask ← maskAt w p size
  let value ← readBytes e sz buf
  let sh ← shiftAmountAt w p e off size
  let shifted ← shrU p (8 * sz) value (fromUsize sz sh)
  pure (shifted &&& fromUsize sz mask)

/-- `codec/bits.rs` 36-40. -/
def readUnalignedAt (w : Nat) (p : Profile) (e : Endian) (sz off size : Nat) (buf : Bytes) :
    R Nat := do
  let data ← pad8 buf
  readAlignedAt w p e sz off size data

/-- `codec/bits.rs` 42-48. -/
def readAt (w : Nat) (p : Profile) (e : Endian) (sz off size : Nat) (buf : Bytes) : R Nat :=
  if sz ≠ buf.length then readUnalignedAt w p e sz off size buf
  else readAlignedAt w p e sz off size buf

/-- `codec/bits.rs` 79-86 (LE), 96-103 (BE); returns the buffer after the call.  `T::from_usize` of a
mask that is narrower than `T` fills with zeros. -/
def writeAlignedAt (w : Nat) (p : Profile) (e : Endian) (sz off size : Nat) (buf : Bytes) (v : Nat) :
    R Bytes := do
  let mask ← maskAt w p size
  let shiftedMask ← shlU p w mask off
  let resetMask := notU w shiftedMask
  let original ← readBytes e sz buf
  let clean := original &&& fromUsize sz resetMask
  let sh ← shiftAmountAt w p e off size
  let value ← shlU p (8 * sz) (v &&& fromUsize sz mask) (fromUsize sz sh)
  writeBytes e sz buf (clean ||| value)

/-- `codec/bits.rs` 52-58. -/
def writeUnalignedAt (w : Nat) (p : Profile) (e : Endian) (sz off size : Nat) (buf : Bytes) (v : Nat) :
    R Bytes := do
  let data ← pad8 buf
  let data ← writeAlignedAt w p e sz off size data v
  slice data 0 buf.length

/-- `codec/bits.rs` 60-66. -/
def writeAt (w : Nat) (p : Profile) (e : Endian) (sz off size : Nat) (buf : Bytes) (v : Nat) :
    R Bytes :=
  if sz ≠ buf.length then writeUnalignedAt w p e sz off size buf v
  else writeAlignedAt w p e sz off size buf v

end BitCodec

namespace ArrayCodec

/-- `let pos = index * byte_size; let end = pos + byte_size;` (`codec/arrays.rs` 51-53, 70-72). -/
def rangeAt (w : Nat) (p : Profile) (bits index : Nat) : R (Nat × Nat) := do
  let bs := bits / 8
  let pos ← mulU p w index bs
  let fin ← addU p w pos bs
  pure (pos, fin)

/-- `codec/arrays.rs` 50-55 (`get_raw`). -/
def getRawAt (w : Nat) (p : Profile) (e : Endian) (sz bits : Nat) (buf : Bytes) (index : Nat) :
    R Nat := do
  let (pos, fin) ← rangeAt w p bits index
  let s ← slice buf pos fin
  ByteCodec.read e sz s

/-- `codec/arrays.rs` 69-75 (`set_raw`). -/
def setRawAt (w : Nat) (p : Profile) (e : Endian) (sz bits : Nat) (buf : Bytes) (index v : Nat) :
    R Bytes := do
  let (pos, fin) ← rangeAt w p bits index
  let s ← slice buf pos fin
  let s' ← ByteCodec.write e sz s v
  pure (splice buf pos s')

end ArrayCodec

/-- `VarcharString<T>::from_slice` (`message/util/string.rs` 64-70). -/
def Varchar.fromSliceAt (w : Nat) (p : Profile) (e : Endian) (sz : Nat) : Parser Bytes := fun slice => do
  let msg ← Scalar.fromSlice e sz slice
  let size := msg.size
  let stop ← addU p w size (toUsizeAt w msg.data)
  let sub ← Proto.slice slice size stop
  if validUtf8 sub then .ok ⟨size + sub.length, sub⟩ else .err .invalidUtf8

/-- `List::from_slice` (`message/util/list.rs` 47-59); sums of sizes are at most the slice length and
cannot overflow. -/
def Lst.fromSliceAt (w : Nat) (e : Endian) (sz : Nat) (f : Parser α) : Parser (Seq Bytes) :=
  fun slice => do
    let msg ← Scalar.fromSlice e sz slice
    let control := msg.size
    let len := toUsizeAt w msg.data
    let data ← dropFrom slice control
    let total ← Lst.scan f data len 0
    let data ← Proto.slice slice control (control + total)
    pure ⟨total + control, ⟨data, len⟩⟩

/-- `Unsized::from_slice` (`message/util/list.rs` 134-140). -/
def Lst.unsizedFromSliceAt (w : Nat) (e : Endian) (sz : Nat) : Parser (Seq Bytes) := fun slice => do
  let msg ← Scalar.fromSlice e sz slice
  let data ← dropFrom slice msg.size
  pure ⟨slice.length, ⟨data, toUsizeAt w msg.data⟩⟩

namespace Arr

/-- `Array::from_slice` (`message/util/array.rs` 115-131). -/
def fromSliceAt (w : Nat) (p : Profile) (e : Endian) (sz isz : Nat) : Parser (Seq Bytes) :=
  fun slice => do
    let msg ← Scalar.fromSlice e sz slice
    let control := msg.size
    let len := toUsizeAt w msg.data
    let body ← mulU p w len isz
    let total ← addU p w control body
    if slice.length < total then .err .truncated
    else do
      let data ← Proto.slice slice control total
      pure ⟨total, ⟨data, len⟩⟩

/-- `Array::from_parts` (`message/util/array.rs` 74-79). -/
def fromPartsAt (w : Nat) (p : Profile) (isz : Nat) (data : Bytes) (len : Nat) :
    R (Option (Seq Bytes)) := do
  let n ← mulU p w len isz
  pure (if data.length = n then some ⟨data, len⟩ else none)

/-- The range `start..end` of `get`/`get_mut` (`message/util/array.rs` 84-85, 99-100). -/
def rangeAt (w : Nat) (p : Profile) (isz index : Nat) : R (Nat × Nat) := do
  let start ← mulU p w index isz
  let stop ← addU p w start isz
  pure (start, stop)

/-- `Array::get` (`message/util/array.rs` 83-87): the bytes of the item. -/
def getAt (w : Nat) (p : Profile) (isz : Nat) (a : Seq Bytes) (index : Nat) : R Bytes := do
  let r ← rangeAt w p isz index
  slice a.data r.1 r.2

/-- Modifying an item through `Array::get_mut` (`message/util/array.rs` 98-102). -/
def modifyAt (w : Nat) (p : Profile) (isz : Nat) (a : Seq Bytes) (index : Nat) (g : Bytes → Bytes) :
    R (Seq Bytes) := do
  let r ← rangeAt w p isz index
  let s ← slice a.data r.1 r.2
  pure ⟨splice a.data r.1 (g s), a.len⟩

end Arr

/-- `message/util/size.rs` 33-44 (`Counter`). -/
def Sink.counterAt (w : Nat) (p : Profile) : Sink Nat :=
  ⟨fun bs n =>
    match (addU p w n bs.length : R Nat) with
    | .ok n' => (.ok (), n')
    | .err e => (.err e, n)
    | .panic => (.panic, n)⟩

/-- `message/util/size.rs` 48-58 (`SizeOf::get`, `size_of`). -/
def sizeOfAt (w : Nat) (p : Profile) (o : Out) : R Nat :=
  match o.run (Sink.counterAt w p) 0 with
  | (.ok (), n) => .ok n
  | (.err e, _) => .err e
  | (.panic, _) => .panic

end Proto
