import Verif.Runtime.Message

/-!
# `Swift/BP3DProto/util/buffer.swift`

The Swift runtime's buffers.  A `DataBuffer` is a value (two references and three positions); the
`NSMutableData` objects it refers to are shared between a buffer and every slice taken from it, so
they live in a heap.  Positions are Swift `Int`s; they are natural numbers here (simplification:
negative indices passed by a caller are not represented), and no data is longer than `Int.max`.
The generic parameter `B: Buffer` of the Swift functions is always instantiated with `DataBuffer`,
the only implementation in the library.
-/

namespace Proto.Sw

open Proto

/-- How the Swift code is built.  `assert` is evaluated in debug builds only; arithmetic overflow and
failed preconditions of the standard library trap in both.  Not in `/repo`. -/
inductive Build where
  | debug
  | release
deriving Repr, DecidableEq

/-- `Swift/BP3DProto/message/message.swift` 31-35 (`Error`). -/
inductive Error where
  | invalidUTF8
  | truncated
  | invalidUnionDiscriminant
deriving Repr, DecidableEq

/-- Outcome of a Swift function: a value, a thrown `Error`, or a trap (`panic`).  Swift, not in `/repo`.
-/
abbrev S (α : Type) := Res Error α

/-- What Foundation and the Swift standard library do where their documentation leaves it open
(`none` is a trap), and what they are assumed to guarantee.  Not in `/repo`; every definition takes
it as a parameter and every theorem holds for all of them. -/
structure Foundation where
  /-- `NSData` subscript at a position not below its count. -/
  byteBeyond : Bytes → Nat → Option UInt8
  /-- `NSData.copyBytes(to:from:)` into 8 zero bytes with a range reaching past the end: the target
  afterwards. -/
  copyBeyond : Bytes → Nat → Nat → Option Bytes
  copyBeyond_length : ∀ d a b t, copyBeyond d a b = some t → t.length = 8
  /-- `Data(d[a...b])` with `b` not below the count. -/
  sliceBeyond : Bytes → Nat → Nat → Option Bytes
  /-- `String(decoding:as: UTF8.self)`, a `String` represented by its UTF-8 bytes. -/
  repair : Bytes → Bytes
  repair_valid : ∀ b, validUtf8 b = true → repair b = b
  repair_utf8 : ∀ b, validUtf8 (repair b) = true
  /-- Whether an array can reserve capacity for that many items. -/
  canReserve : Nat → Bool

/-- `Int.max`.  Swift standard library, not in `/repo`. -/
def intMax : Nat := 2 ^ 63 - 1

/-- `assert(b)` (Swift standard library).  For example `util/buffer.swift` 159. -/
def assert (d : Build) (b : Bool) : S Unit :=
  match d with
  | .debug => if b then .ok () else .panic
  | .release => .ok ()

/-- A value of a type that cannot be thrown: `none` traps.  Swift, not in `/repo`. -/
def orTrap : Option α → S α
  | some a => .ok a
  | none => .panic

/-- What can be read through a `DataBuffer`: the bytes of the object it refers to and the positions
`start` and `end` (`util/buffer.swift` 73-84). -/
structure View where
  all : Bytes
  start : Nat
  fin : Nat
deriving Repr, DecidableEq

namespace View

/-- `size` (`util/buffer.swift` 149-151). -/
def size (v : View) : Int := v.fin - v.start

/-- `isEmpty` (`util/buffer.swift` 44-46). -/
def isEmpty (v : View) : Bool := v.size = 0

/-- `buffer[a...b]` (`util/buffer.swift` 167-176): the range itself traps unless `a ≤ b`, which makes
the first assertion true; the last two hold for natural numbers. -/
def closed (d : Build) (v : View) (a b : Nat) : S View :=
  if b < a then .panic
  else do
    assert d ((a : Int) ≤ v.size)
    assert d ((b : Int) ≤ v.size)
    pure ⟨v.all, v.start + a, v.start + b⟩

/-- `buffer[a...]` (`util/buffer.swift` 178-182). -/
def dropFrom (d : Build) (v : View) (a : Nat) : S View := do
  assert d ((a : Int) ≤ v.size)
  assert d (0 < a)
  pure ⟨v.all, v.start + a, v.fin⟩

/-- `buffer[...b]` (`util/buffer.swift` 184-188). -/
def upTo (d : Build) (v : View) (b : Nat) : S View := do
  assert d ((b : Int) ≤ v.size)
  assert d (0 < b)
  pure ⟨v.all, v.start, v.start + b⟩

/-- `buffer[i]` (`util/buffer.swift` 190-193). -/
def byte (d : Build) (F : Foundation) (v : View) (i : Nat) : S UInt8 := do
  assert d ((i : Int) < v.size)
  match v.all[v.start + i]? with
  | some b => pure b
  | none => orTrap (F.byteBeyond v.all (v.start + i))

/-- Position of the first occurrence of a byte (`Collection.firstIndex(of:)` on an array).
`util/buffer.swift` 164. -/
def position (x : UInt8) : Bytes → Option Nat
  | [] => none
  | b :: bs => if b = x then some 0 else (position x bs).map (· + 1)

/-- `findFirst` of `DataBuffer` (`util/buffer.swift` 163-165): `get()[start...]` traps when `start`
exceeds the count; `firstIndex` of a slice is a position of the sliced collection, so it counts from
the beginning of the data, and the search does not stop at `end`. -/
def findFirst (v : View) (x : UInt8) : S (Option Nat) :=
  if v.all.length < v.start then .panic
  else .ok ((position x (v.all.drop v.start)).map (v.start + ·))

/-- `toData` (`util/buffer.swift` 243-245): the range `start...end - 1` traps when empty. -/
def toData (F : Foundation) (v : View) : S Bytes :=
  if v.fin ≤ v.start then .panic
  else if v.fin ≤ v.all.length then .ok ((v.all.drop v.start).take (v.fin - v.start))
  else orTrap (F.sliceBeyond v.all v.start (v.fin - 1))

/-- `copyTo` into the 8 bytes of a zero `UInt64` (`util/buffer.swift` 158-161; callers in
`codec/byte.swift` and `codec/bit.swift`): the closed range traps for a negative `size`; otherwise it
has `size + 1` bytes, of which at most 8 fit.  Returns the 8 bytes afterwards. -/
def copyTo8 (d : Build) (F : Foundation) (v : View) (size : Int) : S Bytes := do
  assert d (size ≤ v.size)
  if size < 0 then .panic
  else if v.start + size.toNat < v.all.length then
    let copied := ((v.all.drop v.start).take (size.toNat + 1)).take 8
    pure (copied ++ List.replicate (8 - copied.length) 0)
  else orTrap (F.copyBeyond v.all v.start (v.start + size.toNat))

/-- The loop of `defaultFindFirst`, `n` steps from `i`.  `util/buffer.swift` 48-57. -/
def findFrom (d : Build) (F : Foundation) (v : View) (x : UInt8) : Nat → Nat → S (Option Nat)
  | 0, _ => .ok none
  | n + 1, i => do
    let b ← v.byte d F i
    if b = x then pure (some i) else findFrom d F v x n (i + 1)

/-- `findFirst` of the protocol extension (`util/buffer.swift` 48-57), what buffers without their own
do: the loop ends after `size` steps. -/
def defaultFindFirst (d : Build) (F : Foundation) (v : View) (x : UInt8) : S (Option Nat) :=
  findFrom d F v x v.size.toNat 0

/-- The loop of `defaultCopyTo`: the bytes stored, `n` steps from `i`.  `util/buffer.swift`
59-63. -/
def copyFrom (d : Build) (F : Foundation) (v : View) : Nat → Nat → S Bytes
  | 0, _ => .ok []
  | n + 1, i => do
    let b ← v.byte d F i
    let bs ← copyFrom d F v n (i + 1)
    pure (b :: bs)

/-- `copyTo` of the protocol extension (`util/buffer.swift` 59-63): the bytes stored at the beginning of
the target; the range `0...size - 1` traps when `size` is zero. -/
def defaultCopyTo (d : Build) (F : Foundation) (v : View) (size : Nat) : S Bytes :=
  if size = 0 then .panic else copyFrom d F v size 0

/-- The view of a whole byte string: `DataBuffer(bytes:)` (`util/buffer.swift` 109-115, 133-147). -/
def whole (b : Bytes) : View := ⟨b, 0, b.length⟩

end View

/-- The `NSMutableData` objects of the program.  Foundation, not in `/repo`; used by
`util/buffer.swift`. -/
abbrev Heap := List Bytes

/-- `DataBuffer` (`util/buffer.swift` 72-77); `dataMut` is a position in the heap. -/
structure DataBuffer where
  data : Bytes
  dataMut : Option Nat
  start : Nat
  fin : Nat
  cursor : Nat
deriving Repr, DecidableEq

namespace DataBuffer

/-- `get` (`util/buffer.swift` 79-84). -/
def get (h : Heap) (b : DataBuffer) : Bytes :=
  match b.dataMut with
  | some r => h[r]?.getD []
  | none => b.data

/-- What is read through the buffer.  `util/buffer.swift`. -/
def view (h : Heap) (b : DataBuffer) : View := ⟨b.get h, b.start, b.fin⟩

/-- `getMut` (`util/buffer.swift` 86-91): a buffer over immutable data gets its own copy. -/
def getMut (h : Heap) (b : DataBuffer) : Nat × Heap × DataBuffer :=
  match b.dataMut with
  | some r => (r, h, b)
  | none => (h.length, h ++ [b.data], { b with dataMut := some h.length })

/-- `init(bytes: S)` with `S: Sequence<UInt8>` (`util/buffer.swift` 109-115). -/
def ofBytes (h : Heap) (bytes : Bytes) : Heap × DataBuffer :=
  (h ++ [bytes], ⟨bytes, some h.length, 0, bytes.length, 0⟩)

/-- `init()` (`util/buffer.swift` 101-107). -/
def new (h : Heap) : Heap × DataBuffer := (h ++ [[]], ⟨[], some h.length, 0, 0, 0⟩)

/-- `init(bytes: NSData)` (`util/buffer.swift` 141-147), `init(bytes: UnsafeRawBufferPointer)`
(133-139). -/
def immutable (bytes : Bytes) : DataBuffer := ⟨bytes, none, 0, bytes.length, 0⟩

/-- `init(mutableBytes: NSMutableData)` (`util/buffer.swift` 117-123): the buffer writes into the object
given. -/
def over (h : Heap) (r : Nat) : DataBuffer := ⟨h[r]?.getD [], some r, 0, (h[r]?.getD []).length, 0⟩

/-- `init(mutableBytes: UnsafeMutableRawBufferPointer)` (`util/buffer.swift` 125-131): the buffer writes
into a copy of the memory given. -/
def mutable (h : Heap) (bytes : Bytes) : Heap × DataBuffer :=
  (h ++ [bytes], ⟨bytes, some h.length, 0, bytes.length, 0⟩)

/-- The private initialiser behind the three subscripts (`util/buffer.swift` 93-99): the slice shares
the data, its cursor is at its start. -/
def sub (b : DataBuffer) (v : View) : DataBuffer := ⟨b.data, b.dataMut, v.start, v.fin, v.start⟩

/-- `buffer[a...b]` (`util/buffer.swift` 167-176). -/
def closed (d : Build) (h : Heap) (b : DataBuffer) (lo hi : Nat) : S DataBuffer := do
  let v ← (b.view h).closed d lo hi
  pure (b.sub v)

/-- `buffer[a...]` (`util/buffer.swift` 178-182). -/
def dropFrom (d : Build) (h : Heap) (b : DataBuffer) (lo : Nat) : S DataBuffer := do
  let v ← (b.view h).dropFrom d lo
  pure (b.sub v)

/-- `buffer[...b]` (`util/buffer.swift` 184-188). -/
def upTo (d : Build) (h : Heap) (b : DataBuffer) (hi : Nat) : S DataBuffer := do
  let v ← (b.view h).upTo d hi
  pure (b.sub v)

/-- `clear` (`util/buffer.swift` 153-156). -/
def clear (b : DataBuffer) : DataBuffer := { b with cursor := b.start, fin := b.start }

/-- The contents of the data object after `write(bytes:)` at `cursor` (`util/buffer.swift` 197-217):
`replaceBytes` overwrites exactly its range, `append` extends; `bytes[maxLen...]` traps for a
negative `maxLen`. -/
def stored (old : Bytes) (cursor : Nat) (bytes : Bytes) : S Bytes :=
  if cursor + bytes.length < old.length then .ok (splice old cursor bytes)
  else do
    let maxLen : Int := old.length - cursor
    let replaced := if maxLen > 0 then splice old cursor (bytes.take maxLen.toNat) else old
    let remaining : Int := bytes.length - maxLen
    if remaining > 0 then
      if maxLen < 0 then .panic
      else pure (replaced ++ bytes.drop maxLen.toNat)
    else pure replaced

/-- `write(bytes:)` (`util/buffer.swift` 195-224). -/
def writeBytes (h : Heap) (b : DataBuffer) (bytes : Bytes) : S (Heap × DataBuffer) := do
  let (r, h, b) := b.getMut h
  let new ← stored (h[r]?.getD []) b.cursor bytes
  pure (h.set r new, { b with cursor := b.cursor + bytes.length, fin := b.cursor + bytes.length })

/-- `write(byte:)` (`util/buffer.swift` 226-241). -/
def writeByte (h : Heap) (b : DataBuffer) (x : UInt8) : S (Heap × DataBuffer) := do
  let (r, h, b) := b.getMut h
  let old := h[r]?.getD []
  let new := if b.cursor + 1 < old.length then splice old b.cursor [x] else old ++ [x]
  pure (h.set r new, { b with cursor := b.cursor + 1, fin := b.cursor + 1 })

end DataBuffer

/-- A call on a `WritableBuffer` (`util/buffer.swift` 66-70). -/
inductive Op where
  | bytes (b : Bytes)
  | byte (x : UInt8)
deriving Repr, DecidableEq

/-- The bytes of a call.  Proof device, not in `/repo`. -/
def Op.data : Op → Bytes
  | .bytes b => b
  | .byte x => [x]

/-- Performing a call on a `DataBuffer`.  Proof device, not in `/repo`. -/
def Op.run (h : Heap) (b : DataBuffer) : Op → S (Heap × DataBuffer)
  | .bytes x => b.writeBytes h x
  | .byte x => b.writeByte h x

/-- Performing calls in order.  Proof device, not in `/repo`. -/
def runOps (h : Heap) (b : DataBuffer) : List Op → S (Heap × DataBuffer)
  | [] => .ok (h, b)
  | o :: os => do
    let (h, b) ← o.run h b
    runOps h b os

end Proto.Sw
