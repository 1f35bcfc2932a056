import Verif.Swift.Buffer

/-!
# `Swift/BP3DProto/util/bytesutil.swift`, `Swift/BP3DProto/codec`

Values of the Swift unsigned integer types are natural numbers.  The host is little-endian
(simplification: `littleEndian` is the identity and `bigEndian` is `byteSwapped`).
-/

namespace Proto.Sw

open Proto

/-- The types that implement `Scalar` (`util/bytesutil.swift` 42, 94, 138, 178). -/
inductive Width where
  | w8
  | w16
  | w32
  | w64
deriving Repr, DecidableEq

/-- `T.size` (`util/bytesutil.swift` 61-63, 113-115, 157-159, 195-197). -/
def Width.size : Width → Nat
  | .w8 => 1
  | .w16 => 2
  | .w32 => 4
  | .w64 => 8

/-- `byteSwapped` of an integer of `n` bytes (Swift standard library).  `util/bytesutil.swift` 58. -/
def byteSwapped (n v : Nat) : Nat := leNat (natLe n v).reverse

/-- `UInt32(fromBytesBE:)` (`util/bytesutil.swift` 103-106). -/
def read32BE (d : Build) (F : Foundation) (v : View) : S Nat := do
  let b0 ← v.byte d F 0
  let b1 ← v.byte d F 1
  let b2 ← v.byte d F 2
  let b3 ← v.byte d F 3
  pure (b0.toNat <<< 24 ||| b1.toNat <<< 16 ||| b2.toNat <<< 8 ||| b3.toNat)

/-- `UInt32(fromBytesLE:)` (`util/bytesutil.swift` 108-111). -/
def read32LE (d : Build) (F : Foundation) (v : View) : S Nat := do
  let b3 ← v.byte d F 3
  let b2 ← v.byte d F 2
  let b1 ← v.byte d F 1
  let b0 ← v.byte d F 0
  pure (b3.toNat <<< 24 ||| b2.toNat <<< 16 ||| b1.toNat <<< 8 ||| b0.toNat)

/-- `UInt64(fromBytesBE:)` (`util/bytesutil.swift` 51-54). -/
def read64BE (d : Build) (F : Foundation) (v : View) : S Nat := do
  let hi ← read32BE d F v
  let rest ← v.dropFrom d 4
  let lo ← read32BE d F rest
  pure (hi <<< 32 ||| lo)

/-- `T(fromBytesLE:)`, `T(fromBytesBE:)` (`util/bytesutil.swift` 51-59, 103-111, 147-155,
187-193). -/
def fromBytes (d : Build) (F : Foundation) (e : Endian) (w : Width) (v : View) : S Nat :=
  match w, e with
  | .w8, _ => do
    let b ← v.byte d F 0
    pure b.toNat
  | .w16, .big => do
    let b0 ← v.byte d F 0
    let b1 ← v.byte d F 1
    pure (b0.toNat <<< 8 ||| b1.toNat)
  | .w16, .little => do
    let b1 ← v.byte d F 1
    let b0 ← v.byte d F 0
    pure (b1.toNat <<< 8 ||| b0.toNat)
  | .w32, .big => read32BE d F v
  | .w32, .little => read32LE d F v
  | .w64, .big => read64BE d F v
  | .w64, .little => do
    let x ← read64BE d F v
    pure (byteSwapped 8 x)

/-- `toBytesLE`, `toBytesBE` (`util/bytesutil.swift` 65-91, 117-135, 161-175, 199-205). -/
def toBytes (e : Endian) (w : Width) (x : Nat) : Bytes :=
  match w with
  | .w8 => [UInt8.ofNat x]
  | .w16 =>
    let v := match e with | .little => x | .big => byteSwapped 2 x
    [UInt8.ofNat v, UInt8.ofNat (v >>> 8)]
  | .w32 =>
    let v := match e with | .little => x | .big => byteSwapped 4 x
    [UInt8.ofNat v, UInt8.ofNat (v >>> 8), UInt8.ofNat (v >>> 16), UInt8.ofNat (v >>> 24)]
  | .w64 =>
    let v := match e with | .little => x | .big => byteSwapped 8 x
    [UInt8.ofNat v, UInt8.ofNat (v >>> 8), UInt8.ofNat (v >>> 16), UInt8.ofNat (v >>> 24),
      UInt8.ofNat (v >>> 32), UInt8.ofNat (v >>> 40), UInt8.ofNat (v >>> 48),
      UInt8.ofNat (v >>> 56)]

/-- `T(fromUInt:)` (`util/bytesutil.swift` 43-45, 95-97, 139-141, 179-181): a converting initialiser
that traps, except `UInt16`, which truncates. -/
def fromUInt (w : Width) (n : Nat) : S Nat :=
  match w with
  | .w8 => if n < 2 ^ 8 then .ok n else .panic
  | .w16 => .ok (n % 2 ^ 16)
  | .w32 => if n < 2 ^ 32 then .ok n else .panic
  | .w64 => if n < 2 ^ 64 then .ok n else .panic

namespace ByteCodec

/-- `readAligned` (`codec/byte.swift` 82-84, 92-94). -/
def readAligned (d : Build) (F : Foundation) (e : Endian) (w : Width) (v : View) : S Nat :=
  fromBytes d F e w v

/-- `readUnaligned` (`codec/byte.swift` 46-52); `DataBuffer(bytes: ptr)` copies the 8 bytes. -/
def readUnaligned (d : Build) (F : Foundation) (e : Endian) (w : Width) (v : View) : S Nat := do
  let ptr ← v.copyTo8 d F v.size
  readAligned d F e w (View.whole ptr)

/-- `read` (`codec/byte.swift` 54-60). -/
def read (d : Build) (F : Foundation) (e : Endian) (w : Width) (v : View) : S Nat :=
  if (w.size : Int) ≠ v.size then readUnaligned d F e w v else readAligned d F e w v

/-- `writeAligned` (`codec/byte.swift` 86-88, 96-98). -/
def writeAligned (h : Heap) (e : Endian) (w : Width) (b : DataBuffer) (x : Nat) :
    S (Heap × DataBuffer) :=
  b.writeBytes h (toBytes e w x)

/-- `writeUnaligned` (`codec/byte.swift` 62-70): `useless` is a buffer over a copy of the 8 bytes, so
`buffer.write(bytes: ptr)` writes the 8 bytes as they were read. -/
def writeUnaligned (d : Build) (F : Foundation) (h : Heap) (e : Endian) (w : Width) (b : DataBuffer)
    (x : Nat) : S (Heap × DataBuffer) := do
  let ptr ← (b.view h).copyTo8 d F (b.view h).size
  let (h, useless) := DataBuffer.ofBytes h ptr
  let (h, _) ← writeAligned h e w useless x
  b.writeBytes h ptr

/-- `write` (`codec/byte.swift` 72-78). -/
def write (d : Build) (F : Foundation) (h : Heap) (e : Endian) (w : Width) (b : DataBuffer)
    (x : Nat) : S (Heap × DataBuffer) :=
  if (w.size : Int) ≠ (b.view h).size then writeUnaligned d F h e w b x
  else writeAligned h e w b x

end ByteCodec

namespace BitCodec

/-- `(UInt(1) << bitSize) - 1` (`codec/bit.swift` 83, 89, 100, 106): an over-long shift gives zero,
the subtraction then traps. -/
def mask (size : Nat) : S Nat :=
  let one := if size < 64 then 2 ^ size else 0
  if one = 0 then .panic else .ok (one - 1)

/-- The shift amount: `bitOffset` (`codec/bit.swift` 85, 93) or `8 - (bitSize % 8) - bitOffset`
(`codec/bit.swift` 102, 110), which traps when negative. -/
def shift (e : Endian) (off size : Nat) : S Nat :=
  match e with
  | .little => .ok off
  | .big => if off ≤ 8 - size % 8 then .ok (8 - size % 8 - off) else .panic

/-- `readAligned` (`codec/bit.swift` 82-86, 99-103). -/
def readAligned (d : Build) (F : Foundation) (e : Endian) (w : Width) (off size : Nat) (v : View) :
    S Nat := do
  let m ← mask size
  let value ← fromBytes d F e w v
  let sh ← shift e off size
  let sh ← fromUInt w sh
  let m ← fromUInt w m
  pure ((value >>> sh) &&& m)

/-- `readUnaligned` (`codec/bit.swift` 46-52). -/
def readUnaligned (d : Build) (F : Foundation) (e : Endian) (w : Width) (off size : Nat) (v : View) :
    S Nat := do
  let ptr ← v.copyTo8 d F v.size
  readAligned d F e w off size (View.whole ptr)

/-- `read` (`codec/bit.swift` 54-60). -/
def read (d : Build) (F : Foundation) (e : Endian) (w : Width) (off size : Nat) (v : View) : S Nat :=
  if (w.size : Int) ≠ v.size then readUnaligned d F e w off size v
  else readAligned d F e w off size v

/-- `writeAligned` (`codec/bit.swift` 88-95, 105-112); shifts drop the bits beyond the width. -/
def writeAligned (d : Build) (F : Foundation) (h : Heap) (e : Endian) (w : Width) (off size : Nat)
    (b : DataBuffer) (x : Nat) : S (Heap × DataBuffer) := do
  let m ← mask size
  let shifted := if off < 64 then (m <<< off) % 2 ^ 64 else 0
  let resetMask := 2 ^ 64 - 1 - shifted
  let original ← fromBytes d F e w (b.view h)
  let resetMask ← fromUInt w resetMask
  let clean := original &&& resetMask
  let m ← fromUInt w m
  let sh ← shift e off size
  let sh ← fromUInt w sh
  let value1 := ((x &&& m) <<< sh) % 2 ^ (8 * w.size)
  b.writeBytes h (toBytes e w (clean ||| value1))

/-- `writeUnaligned` (`codec/bit.swift` 62-70), as `ByteCodec.writeUnaligned`. -/
def writeUnaligned (d : Build) (F : Foundation) (h : Heap) (e : Endian) (w : Width) (off size : Nat)
    (b : DataBuffer) (x : Nat) : S (Heap × DataBuffer) := do
  let ptr ← (b.view h).copyTo8 d F (b.view h).size
  let (h, useless) := DataBuffer.ofBytes h ptr
  let (h, _) ← writeAligned d F h e w off size useless x
  b.writeBytes h ptr

/-- `write` (`codec/bit.swift` 72-78). -/
def write (d : Build) (F : Foundation) (h : Heap) (e : Endian) (w : Width) (off size : Nat)
    (b : DataBuffer) (x : Nat) : S (Heap × DataBuffer) :=
  if (w.size : Int) ≠ (b.view h).size then writeUnaligned d F h e w off size b x
  else writeAligned d F h e w off size b x

end BitCodec

namespace ArrayCodec

/-- `count` (`codec/array.swift` 35-37); `bits` is the `itemBitSize` given to `init` (39-42). -/
def count (bits : Nat) (v : View) : S Int :=
  if bits / 8 = 0 then .panic else .ok (v.size.tdiv (bits / 8 : Nat))

/-- The positions of an item (`codec/array.swift` 46-47, 51-52); `Int` arithmetic traps on
overflow. -/
def bounds (bits index : Nat) : S (Nat × Nat) :=
  if index * (bits / 8) + bits / 8 ≤ intMax then
    .ok (index * (bits / 8), index * (bits / 8) + bits / 8)
  else .panic

/-- The getter (`codec/array.swift` 45-49). -/
def get (d : Build) (F : Foundation) (e : Endian) (w : Width) (bits : Nat) (v : View) (index : Nat) :
    S Nat := do
  let (pos, stop) ← bounds bits index
  let item ← v.closed d pos stop
  ByteCodec.read d F e w item

/-- The setter (`codec/array.swift` 50-55): the slice `b` is a local variable; what is written
reaches the array only through shared data. -/
def set (d : Build) (F : Foundation) (h : Heap) (e : Endian) (w : Width) (bits : Nat)
    (buffer : DataBuffer) (index x : Nat) : S Heap := do
  let (pos, stop) ← bounds bits index
  let b ← buffer.closed d h pos stop
  let (h, _) ← ByteCodec.write d F h e w b x
  pure h

end ArrayCodec

end Proto.Sw
