import Verif.Gen.Struct

/-!
# The greatest number of bytes a message takes on the wire
-/

namespace Proto

/-- `none` is no limit. -/
def Limit.add : Option Nat → Option Nat → Option Nat
  | some a, some b => some (a + b)
  | _, _ => none

/-- `none` is no limit. -/
def Limit.max : Option Nat → Option Nat → Option Nat
  | some a, some b => some (Nat.max a b)
  | _, _ => none

mutual
/-- Structures have one size. -/
def Referenced.most (emb : Nat → Bool) : Referenced → Option Nat
  | .struct s => some s.byteSize
  | .message m => m.most emb

/-- What is counted has as many bytes or items as its prefix can announce, whatever the declared limit,
but less than 2^64 bytes; NUL-terminated strings, payloads and lists that take the rest have no limit. -/
def MFieldTy.most (emb : Nat → Bool) (here : Bool) : MFieldTy → Option Nat
  | .fixed ty => some ty.byteSize
  | .ref r => r.most emb
  | .nullTerminatedString => none
  | .varcharString ty => some (min (ty.byteSize + (256 ^ ty.byteSize - 1)) (2 ^ 64 - 1))
  | .array ty s => some (min (ty.byteSize + (256 ^ ty.byteSize - 1) * s.byteSize) (2 ^ 64 - 1))
  | .union u _ _ => u.most emb
  | .list ty m =>
    if here then (m.most emb).map fun n => ty.byteSize + (256 ^ ty.byteSize - 1) * n else none
  | .payload => none

/-- The greatest of all cases. -/
def UCase.listMost (emb : Nat → Bool) : List UCase → Option Nat
  | [] => some 0
  | .mk _ _ none :: cs => UCase.listMost emb cs
  | .mk _ _ (some r) :: cs => Limit.max (r.most emb) (UCase.listMost emb cs)

/-- The greatest case. -/
def Union.most (emb : Nat → Bool) : Union → Option Nat
  | .mk _ _ cases _ => UCase.listMost emb cases

/-- All fields, the optional ones with a byte before. -/
def MField.listMost (emb : Nat → Bool) (here : Bool) : List MField → Option Nat
  | [] => some 0
  | .mk _ ty optional _ _ :: fs =>
    Limit.add (Limit.add (some (if optional then 1 else 0)) (ty.most emb here)) (MField.listMost emb here fs)

/-- The fields of the message. -/
def Message.most (emb : Nat → Bool) : Message → Option Nat
  | .mk id _ fields _ => MField.listMost emb (emb id) fields
end

/-- The array can have as many items as its prefix can announce. -/
def MField.arrayFits (f : MField) : Bool :=
  match f.ty with
  | .array ty s => decide (ty.byteSize + (256 ^ ty.byteSize - 1) * s.byteSize < 2 ^ 64)
  | _ => true

end Proto
