import Verif.Gen.Message
import Verif.Spec.Wire

/-!
# The pieces in which a message is handed to an output
-/

namespace Proto

mutual
/-- A structure is one piece. -/
def Referenced.parts : Referenced → Value → List Bytes
  | .struct s, v =>
    match v with
    | .struct b => [b.take s.byteSize]
    | _ => []
  | .message m, v => m.parts v

/-- Numbers and payloads are one piece; what has an end or a count is two, however long. -/
def MFieldTy.parts (e : Endian) : MFieldTy → Value → List Bytes
  | .fixed ty, v =>
    match v with
    | .num n => [wireInt e ty.byteSize n]
    | _ => []
  | .ref r, v => r.parts v
  | .nullTerminatedString, v =>
    match v with
    | .str s => [s, [0]]
    | _ => []
  | .varcharString ty, v =>
    match v with
    | .str s => [wireInt e ty.byteSize s.length, s]
    | _ => []
  | .array ty _, v =>
    match v with
    | .seq l => [wireInt e ty.byteSize l.len, l.data]
    | _ => []
  | .union u _ _, v =>
    match v with
    | .union i x => u.parts i x
    | _ => []
  | .list ty _, v =>
    match v with
    | .seq l => [wireInt e ty.byteSize l.len, l.data]
    | _ => []
  | .payload, v =>
    match v with
    | .buf b => [b]
    | _ => []

/-- The content of case number `i`. -/
def UCase.partsAt : List UCase → Nat → Value → List Bytes
  | [], _, _ => []
  | .mk _ _ none :: cs, i, x => if i = 0 then [] else UCase.partsAt cs (i - 1) x
  | .mk _ _ (some r) :: cs, i, x => if i = 0 then r.parts x else UCase.partsAt cs (i - 1) x

/-- The content of case number `i`. -/
def Union.parts : Union → Nat → Value → List Bytes
  | .mk _ _ cases _, i, x => UCase.partsAt cases i x

/-- The flag is a piece of its own. -/
def MField.parts : MField → Value → List Bytes
  | .mk _ ty optional _ e, v =>
    if optional then
      match v with
      | .none => [[0]]
      | .some x => [1] :: ty.parts e x
      | _ => []
    else ty.parts e v

/-- The fields one after the other. -/
def MField.listParts : List MField → List (Name × Value) → List Bytes
  | [], _ => []
  | f :: fs, vs =>
    match vs with
    | (_, v) :: vs => f.parts v ++ MField.listParts fs vs
    | [] => []

/-- The fields one after the other. -/
def Message.parts : Message → Value → List Bytes
  | .mk _ _ fields _, v =>
    match v with
    | .msg vs => MField.listParts fields vs
    | _ => []
end

mutual
/-- A structure is one piece. -/
def Referenced.mostParts : Referenced → Nat
  | .struct _ => 1
  | .message m => m.mostParts

/-- The length of strings, arrays, lists and payloads does not matter. -/
def MFieldTy.mostParts : MFieldTy → Nat
  | .fixed _ => 1
  | .ref r => r.mostParts
  | .nullTerminatedString => 2
  | .varcharString _ => 2
  | .array _ _ => 2
  | .union u _ _ => u.mostParts
  | .list _ _ => 2
  | .payload => 1

/-- The greatest of all cases. -/
def UCase.listMostParts : List UCase → Nat
  | [] => 0
  | .mk _ _ none :: cs => UCase.listMostParts cs
  | .mk _ _ (some r) :: cs => Nat.max r.mostParts (UCase.listMostParts cs)

/-- The greatest case. -/
def Union.mostParts : Union → Nat
  | .mk _ _ cases _ => UCase.listMostParts cases

/-- All fields, the optional ones with their flags. -/
def MField.listMostParts : List MField → Nat
  | [] => 0
  | .mk _ ty optional _ _ :: fs => (if optional then 1 else 0) + ty.mostParts + MField.listMostParts fs

/-- The fields of the message. -/
def Message.mostParts : Message → Nat
  | .mk _ _ fields _ => MField.listMostParts fields
end

end Proto
