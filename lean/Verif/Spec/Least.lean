import Verif.Gen.Struct

/-!
# The least number of bytes a message takes on the wire
-/

namespace Proto

mutual
/-- Structures have one size. -/
def Referenced.least : Referenced → Nat
  | .struct s => s.byteSize
  | .message m => m.least

/-- Empty strings, arrays, lists and payloads; the smallest case of a union. -/
def MFieldTy.least : MFieldTy → Nat
  | .fixed ty => ty.byteSize
  | .ref r => r.least
  | .nullTerminatedString => 1
  | .varcharString ty => ty.byteSize
  | .array ty _ => ty.byteSize
  | .union u _ _ => u.least
  | .list ty _ => ty.byteSize
  | .payload => 0

/-- The least of all cases and `most`. -/
def UCase.listLeast (most : Nat) : List UCase → Nat
  | [] => most
  | .mk _ _ none :: _ => 0
  | .mk _ _ (some r) :: cs => UCase.listLeast (min most r.least) cs

/-- The smallest case; nothing is decoded by a union without cases. -/
def Union.least : Union → Nat
  | .mk _ _ [] _ => 0
  | .mk _ _ (.mk _ _ none :: _) _ => 0
  | .mk _ _ (.mk _ _ (some r) :: cs) _ => UCase.listLeast r.least cs

/-- All fields, the absent optional ones one byte each. -/
def MField.listLeast : List MField → Nat
  | [] => 0
  | .mk _ ty optional _ _ :: fs => (if optional then 1 else ty.least) + MField.listLeast fs

/-- The fields of the message. -/
def Message.least : Message → Nat
  | .mk _ _ fields _ => MField.listLeast fields
end

end Proto
