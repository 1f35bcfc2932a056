import Verif.Swift.Codec

/-!
# `Swift/BP3DProto/message`

A decoder reads a `DataBuffer`; an encoder generic in `B: WritableBuffer` can only call `write`, so
it is represented by the calls it makes.
-/

namespace Proto.Sw

open Proto

/-- `FromSlice.from(slice:)` (`message/message.swift` 59-63), returning a `Message` (45-57). -/
abbrev FromSlice (α : Type) := View → S (Msg α)

/-- `WriteTo.write(input:to:)` (`message/message.swift` 65-69): the calls made on the buffer. -/
abbrev WriteTo (α : Type) := α → S (List Op)

/-- `Int(n)` of a `UInt`: traps beyond `Int.max`.  `message/string.swift` 54, `message/list.swift` 39.
-/
def toInt (n : Nat) : S Nat := if n ≤ intMax then .ok n else .panic

namespace Value

/-- `ValueLE<T>.from` (`message/common.swift` 64-69), `ValueBE<T>.from` (80-85). -/
def read (d : Build) (F : Foundation) (e : Endian) (w : Width) : FromSlice Nat := fun v =>
  if v.size < w.size then .err .truncated
  else do
    let x ← fromBytes d F e w v
    pure ⟨w.size, x⟩

/-- `ValueLE<T>.write` (`message/common.swift` 71-73), `ValueBE<T>.write` (87-89). -/
def write (e : Endian) (w : Width) : WriteTo Nat := fun x => .ok [.bytes (toBytes e w x)]

end Value

namespace Opt

/-- `Optional<T>.from` (`message/common.swift` 34-45). -/
def read (d : Build) (F : Foundation) (f : FromSlice α) : FromSlice (Option α) := fun v =>
  if v.isEmpty then .err .truncated
  else do
    let flag ← v.byte d F 0
    if flag.toNat > 0 then do
      let rest ← v.dropFrom d 1
      let msg ← f rest
      pure ⟨msg.size, some msg.data⟩
    else pure ⟨1, none⟩

/-- `Optional<T>.write` (`message/common.swift` 51-57). -/
def write (f : WriteTo α) : WriteTo (Option α)
  | none => .ok [.byte 0]
  | some a => do
    let ops ← f a
    pure (.byte 1 :: ops)

end Opt

namespace NullTerminated

/-- `NullTerminatedString.from` (`message/string.swift` 35-39). -/
def read (d : Build) (F : Foundation) : FromSlice Bytes := fun v => do
  let found ← v.findFirst 0
  match found with
  | none => .err .truncated
  | some index =>
    let s ← v.upTo d index
    let data ← s.toData F
    pure ⟨index + 1, F.repair data⟩

/-- `NullTerminatedString.write` (`message/string.swift` 41-45). -/
def write : WriteTo Bytes := fun s => .ok [.bytes s, .byte 0]

end NullTerminated

namespace Varchar

/-- `VarcharString<T>.from` (`message/string.swift` 51-57). -/
def read (d : Build) (F : Foundation) (t : FromSlice Nat) : FromSlice Bytes := fun v => do
  let size ← t v
  let length ← toInt size.data
  let stop ← toInt (size.size + length)
  let sub ← v.closed d size.size stop
  let data ← sub.toData F
  pure ⟨length + size.size, F.repair data⟩

/-- `VarcharString<T>.write` (`message/string.swift` 63-68). -/
def write (w : Width) (t : WriteTo Nat) : WriteTo Bytes := fun s => do
  let length ← fromUInt w s.length
  let ops ← t length
  pure (ops ++ [.bytes s])

end Varchar

/-- The loop of `List.from` and `Array.from` (`message/list.swift` 40-45, 73-77) with `n` iterations
left: the sum of the sizes and the items. -/
def items (d : Build) (f : FromSlice α) : Nat → View → S (Nat × List α)
  | 0, _ => .ok (0, [])
  | n + 1, data => do
    let item ← f data
    let rest ← data.dropFrom d item.size
    let (total, xs) ← items d f n rest
    pure (item.size + total, item.data :: xs)

/-- `items.reserveCapacity(Int(n))`, then `for _ in 0...n - 1` (`message/list.swift` 39-40, 72-73):
the subtraction traps for `n = 0`. -/
def loop (d : Build) (F : Foundation) (f : FromSlice α) (n : Nat) (data : View) :
    S (Nat × List α) := do
  let capacity ← toInt n
  if F.canReserve capacity then
    if n = 0 then .panic else items d f n data
  else .panic

namespace Lst

/-- `List<T, Item>.from` (`message/list.swift` 34-47); simplification: sums of sizes do not exceed
`Int.max`. -/
def read (d : Build) (F : Foundation) (t : FromSlice Nat) (f : FromSlice α) : FromSlice (List α) :=
  fun v => do
    let msg ← t v
    let data ← v.dropFrom d msg.size
    let (total, xs) ← loop d F f msg.data data
    pure ⟨msg.size + total, xs⟩

/-- The calls made for the items in order (`message/list.swift` 55-57, 87-89). -/
def writeItems (f : WriteTo α) : List α → S (List Op)
  | [] => .ok []
  | x :: xs => do
    let ops ← f x
    let rest ← writeItems f xs
    pure (ops ++ rest)

/-- `List<T, Item>.write` (`message/list.swift` 53-58), `Array<T, Item>.write` (85-90). -/
def write (w : Width) (t : WriteTo Nat) (f : WriteTo α) : WriteTo (List α) := fun xs => do
  let n ← fromUInt w xs.length
  let ops ← t n
  let rest ← writeItems f xs
  pure (ops ++ rest)

end Lst

namespace Arr

/-- `Array<T, Item>.from` (`message/list.swift` 64-79); `isz` is `Item.Output.size`. -/
def read (d : Build) (F : Foundation) (isz : Nat) (t : FromSlice Nat) (f : FromSlice α) :
    FromSlice (List α) := fun v => do
  let msg ← t v
  let data ← v.dropFrom d msg.size
  let n ← toInt msg.data
  let body ← toInt (n * isz)
  let total ← toInt (msg.size + body)
  if v.size < total then .err .truncated
  else do
    let (_, xs) ← loop d F f msg.data data
    pure ⟨total, xs⟩

end Arr

end Proto.Sw
