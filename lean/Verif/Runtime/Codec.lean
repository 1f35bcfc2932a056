import Verif.Base.Bytes

/-!
# `runtime/src/codec`

Integers of a Rust type `T: ReadBytes + WriteBytes` are natural numbers; the type is represented by
`sz = size_of::<T>()` (1, 2, 4 or 8).
-/

namespace Proto

/-- `runtime/src/message/interface.rs` 31-44 (`Error`); `Io` carries no payload here. -/
inductive Error where
  | invalidUtf8
  | truncated
  | invalidUnionDiscriminant (value : Nat)
  | io
deriving Repr, DecidableEq

/-- `runtime/src/message/interface.rs` 46 (`Result<T>`), plus panics. -/
abbrev R (α : Type) := Res Error α

/-- Byte order: `compiler/src/model/protocol.rs` 37-44 (`Endianness`), and the two families
`ByteCodecLE`/`ByteCodecBE`, `BitCodecLE`/`BitCodecBE`, `ValueLE`/`ValueBE` of the runtime. -/
inductive Endian where
  | little
  | big
deriving Repr, DecidableEq

/-- `T::read_bytes_le` / `T::read_bytes_be` (crate `bytesutil`, external): decode the first `sz`
bytes; a shorter buffer panics.  `runtime/src/codec/bits.rs` 75, 82, 92, 99, `bytes.rs`. -/
def readBytes (e : Endian) (sz : Nat) (buf : Bytes) : R Nat :=
  if sz ≤ buf.length then
    .ok (match e with
      | .little => leNat (buf.take sz)
      | .big => beNat (buf.take sz))
  else .panic

/-- `T::write_bytes_le` / `T::write_bytes_be` (crate `bytesutil`, external): overwrite the first
`sz` bytes; a shorter buffer panics.  Returns the buffer after the call.  `runtime/src/codec/bits.rs` 85, 102,
`bytes.rs`. -/
def writeBytes (e : Endian) (sz : Nat) (buf : Bytes) (v : Nat) : R Bytes :=
  if sz ≤ buf.length then
    .ok ((match e with
      | .little => natLe sz v
      | .big => natBe sz v) ++ buf.drop sz)
  else .panic

/-- `let mut data = [0; 8]; data[..buffer.len()].copy_from_slice(buffer);`
(`codec/bytes.rs` 35-36, 51-52; `codec/bits.rs` 37-38, 53-54). -/
def pad8 (buf : Bytes) : R Bytes :=
  if buf.length ≤ 8 then .ok (buf ++ List.replicate (8 - buf.length) 0) else .panic

/-- `T::from_usize` (`runtime/src/util/scalar.rs` 29-49): an `as` cast. -/
def fromUsize (sz n : Nat) : Nat := n % 256 ^ sz

namespace ByteCodec

/-- `codec/bytes.rs` 71-73 (LE), 81-83 (BE). -/
def readAligned (e : Endian) (sz : Nat) (buf : Bytes) : R Nat := readBytes e sz buf

/-- `codec/bytes.rs` 34-38. -/
def readUnaligned (e : Endian) (sz : Nat) (buf : Bytes) : R Nat := do
  let data ← pad8 buf
  readAligned e sz data

/-- `codec/bytes.rs` 40-46. -/
def read (e : Endian) (sz : Nat) (buf : Bytes) : R Nat :=
  if sz ≠ buf.length then readUnaligned e sz buf else readAligned e sz buf

/-- `codec/bytes.rs` 75-77 (LE), 85-87 (BE); returns the buffer after the call. -/
def writeAligned (e : Endian) (sz : Nat) (buf : Bytes) (v : Nat) : R Bytes := writeBytes e sz buf v

/-- `codec/bytes.rs` 50-56. -/
def writeUnaligned (e : Endian) (sz : Nat) (buf : Bytes) (v : Nat) : R Bytes := do
  let data ← pad8 buf
  let data ← writeAligned e sz data v
  slice data 0 buf.length

/-- `codec/bytes.rs` 58-64. -/
def write (e : Endian) (sz : Nat) (buf : Bytes) (v : Nat) : R Bytes :=
  if sz ≠ buf.length then writeUnaligned e sz buf v else writeAligned e sz buf v

end ByteCodec

namespace BitCodec

/-- `let mask: usize = (1 << BIT_SIZE) - 1;` (`codec/bits.rs` 74, 80, 91, 97). -/
def mask (p : Profile) (size : Nat) : R Nat := do
  let m ← shlU p usizeBits 1 size
  subU p usizeBits m 1

/-- `8 - (BIT_SIZE % 8) - BIT_OFFSET` (`codec/bits.rs` 93, 101). -/
def beShift (p : Profile) (off size : Nat) : R Nat := do
  let a ← subU p usizeBits 8 (size % 8)
  subU p usizeBits a off

/-- The shift amount used by the codec: `BIT_OFFSET` (`codec/bits.rs` 76, 84) for LE,
`8 - (BIT_SIZE % 8) - BIT_OFFSET` (`codec/bits.rs` 93, 101) for BE. -/
def shiftAmount (p : Profile) (e : Endian) (off size : Nat) : R Nat :=
  match e with
  | .little => .ok off
  | .big => beShift p off size

/-- `codec/bits.rs` 73-77 (LE), 90-94 (BE). -/
def readAligned (p : Profile) (e : Endian) (sz off size : Nat) (buf : Bytes) : R Nat := do
  let mask ← mask p size
  let value ← readBytes e sz buf
  let sh ← shiftAmount p e off size
  let shifted ← shrU p (8 * sz) value (fromUsize sz sh)
  pure (shifted &&& fromUsize sz mask)

/-- `codec/bits.rs` 36-40. -/
def readUnaligned (p : Profile) (e : Endian) (sz off size : Nat) (buf : Bytes) : R Nat := do
  let data ← pad8 buf
  readAligned p e sz off size data

/-- `codec/bits.rs` 42-48. -/
def read (p : Profile) (e : Endian) (sz off size : Nat) (buf : Bytes) : R Nat :=
  if sz ≠ buf.length then readUnaligned p e sz off size buf else readAligned p e sz off size buf

/-- `codec/bits.rs` 79-86 (LE), 96-103 (BE); returns the buffer after the call.  Both variants place
the clearing mask with `BIT_OFFSET`. -/
def writeAligned (p : Profile) (e : Endian) (sz off size : Nat) (buf : Bytes) (v : Nat) : R Bytes := do
  let mask ← mask p size
  let shiftedMask ← shlU p usizeBits mask off
  let resetMask := notU usizeBits shiftedMask
  let original ← readBytes e sz buf
  let clean := original &&& fromUsize sz resetMask
  let sh ← shiftAmount p e off size
  let value ← shlU p (8 * sz) (v &&& fromUsize sz mask) (fromUsize sz sh)
  writeBytes e sz buf (clean ||| value)

/-- `codec/bits.rs` 52-58. -/
def writeUnaligned (p : Profile) (e : Endian) (sz off size : Nat) (buf : Bytes) (v : Nat) :
    R Bytes := do
  let data ← pad8 buf
  let data ← writeAligned p e sz off size data v
  slice data 0 buf.length

/-- `codec/bits.rs` 60-66. -/
def write (p : Profile) (e : Endian) (sz off size : Nat) (buf : Bytes) (v : Nat) : R Bytes :=
  if sz ≠ buf.length then writeUnaligned p e sz off size buf v
  else writeAligned p e sz off size buf v

end BitCodec

namespace ArrayCodec

/-- `let pos = index * byte_size; let end = pos + byte_size;` (`codec/arrays.rs` 51-53, 70-72). -/
def range (p : Profile) (bits index : Nat) : R (Nat × Nat) := do
  let bs := bits / 8
  let pos ← mulU p usizeBits index bs
  let fin ← addU p usizeBits pos bs
  pure (pos, fin)

/-- `codec/arrays.rs` 50-55 (`get_raw`); `sz` is `size_of::<Item>()`, `bits` is `ITEM_BIT_SIZE`. -/
def getRaw (p : Profile) (e : Endian) (sz bits : Nat) (buf : Bytes) (index : Nat) : R Nat := do
  let (pos, fin) ← range p bits index
  let s ← slice buf pos fin
  ByteCodec.read e sz s

/-- `codec/arrays.rs` 57-60 (`len`). -/
def len (bits : Nat) (buf : Bytes) : R Nat := divU buf.length (bits / 8)

/-- `chunks(n)` of a slice for `n > 0` (`codec/arrays.rs` 64, std): consecutive blocks of `n` bytes,
the last one possibly shorter.  `fuel` bounds the number of blocks (the length suffices). -/
def chunksAux (n : Nat) : Nat → Bytes → List Bytes
  | 0, _ => []
  | fuel + 1, buf => if buf = [] then [] else buf.take n :: chunksAux n fuel (buf.drop n)

/-- `slice::chunks`: panics on chunk size zero.  `runtime/src/codec/arrays.rs` 64. -/
def chunks (n : Nat) (buf : Bytes) : R (List Bytes) :=
  if n = 0 then .panic else .ok (chunksAux n buf.length buf)

/-- `codec/arrays.rs` 62-65 (`iter_raw`), collected. -/
def iterRaw (e : Endian) (sz bits : Nat) (buf : Bytes) : R (List Nat) := do
  let cs ← chunks (bits / 8) buf
  cs.mapM (ByteCodec.read e sz)

/-- `codec/arrays.rs` 69-75 (`set_raw`); returns the buffer after the call. -/
def setRaw (p : Profile) (e : Endian) (sz bits : Nat) (buf : Bytes) (index v : Nat) : R Bytes := do
  let (pos, fin) ← range p bits index
  let s ← slice buf pos fin
  let s' ← ByteCodec.write e sz s v
  pure (splice buf pos s')

end ArrayCodec

end Proto
