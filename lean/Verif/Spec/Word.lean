import Verif.Gen.Word
import Verif.Spec.Message

/-!
# Which schemas behave the same where `usize` is narrower

Conditions on compiled fields, in terms of their sizes only.
-/

namespace Proto

/-- The field is a whole number of bytes, or shorter than a machine word of `w` bits together with the
integer it is read into. -/
def FixedField.fitsAt (w : Nat) (f : FixedField) : Bool :=
  decide (f.loc.bitSize % 8 = 0) ||
    (decide (f.loc.bitSize < w) && decide (8 * f.loc.rawSize ≤ w) && decide (f.loc.bitOffset < w))

/-- Every step of the chain of accessors can be done with machine words of `w` bits. -/
def Access.fitsAt (w : Nat) : Access → Bool
  | .fixed f => f.fitsAt w
  | .item f k => decide (k * (f.itemBitSize / 8) + f.itemBitSize / 8 < 2 ^ w)
  | .nested _ rest => rest.fitsAt w

/-- Bytes of the integer at the end of the chain. -/
def Access.rawBytes : Access → Nat
  | .fixed f => f.loc.rawSize
  | .item f _ => f.ty.byteSize
  | .nested _ rest => rest.rawBytes

/-- The discriminant can be read with machine words of `w` bits, and is one. -/
def Discriminant.fitsAt (w : Nat) (d : Discriminant) : Bool :=
  match d.access with
  | some a => a.fitsAt w && decide (8 * a.rawBytes ≤ w)
  | none => true

/-- Discriminants are machine words of `w` bits. -/
def MFieldTy.keysAt (w : Nat) : MFieldTy → Bool
  | .union u _ _ => u.discriminant.fitsAt w
  | _ => true

/-- Counts of arrays and lists, sizes of array items, and discriminants are machine words of `w` bits. -/
def MFieldTy.countsAt (w : Nat) : MFieldTy → Bool
  | .array ty s => decide (8 * ty.byteSize ≤ w) && decide (s.byteSize < 2 ^ w)
  | .list ty _ => decide (8 * ty.byteSize ≤ w)
  | .union u _ _ => u.discriminant.fitsAt w
  | _ => true

/-- The same, and lengths of strings too. -/
def MFieldTy.wordsAt (w : Nat) : MFieldTy → Bool
  | .varcharString ty => decide (8 * ty.byteSize ≤ w)
  | t => t.countsAt w

/-- The same, and no array can announce more bytes than a machine word counts. -/
def MFieldTy.sizesAt (w : Nat) : MFieldTy → Bool
  | .array ty s => decide (8 * ty.byteSize ≤ w) &&
      decide ((256 ^ ty.byteSize - 1) * s.byteSize + ty.byteSize < 2 ^ w)
  | t => t.wordsAt w

/-- The integer at the end of the chain is an item of an array, or a whole number of bytes, or narrower
than a machine word of `w` bits. -/
def Access.Narrow (w : Nat) : Access → Prop
  | .fixed f => f.loc.bitSize % 8 = 0 ∨ f.loc.bitSize < w
  | .item _ _ => True
  | .nested _ rest => rest.Narrow w

end Proto
