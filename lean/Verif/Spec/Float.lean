import Verif.Float.Ieee

/-! # Specification of floating point numbers -/

namespace Proto.Spec

open Proto.Ieee

/-- A floating point type: its finite numbers, the least magnitude that rounds to infinity and the largest
relative rounding error. -/
structure FloatType where
  isNumber : Rat → Prop
  limit : Rat
  eps : Rat

/-- `f32`: significands of 24 digits, exponents from -149 to 104. -/
def F32 : FloatType where
  isNumber x := ∃ m e : Int, x = m * 2 ^ e ∧ |m| < 2 ^ 24 ∧ -149 ≤ e ∧ e ≤ 104
  limit := 2 ^ 128 - 2 ^ 103
  eps := 1 / 2 ^ 24

/-- `f64`: significands of 53 digits, exponents from -1074 to 971. -/
def F64 : FloatType where
  isNumber x := ∃ m e : Int, x = m * 2 ^ e ∧ |m| < 2 ^ 53 ∧ -1074 ≤ e ∧ e ≤ 971
  limit := 2 ^ 1024 - 2 ^ 970
  eps := 1 / 2 ^ 53

/-- The type of the accessors of an `n`-bit float. -/
def floatType (n : Nat) : FloatType := if n ≤ 16 ∨ n = 32 then F32 else F64

/-- `x` is the number of type `t` nearest to `q`; if another is as near, their distance divides `x` an even
number of times. -/
def Nearest (t : FloatType) (q x : Rat) : Prop :=
  t.isNumber x ∧ ∀ y, t.isNumber y → |x - q| ≤ |y - q| ∧
    (|x - q| = |y - q| → y = x ∨ ∃ m e : Int, x = (2 * m : Int) * 2 ^ e ∧ |y - x| = 2 ^ e)

/-- `x ≤ y`, false for NaN. -/
def FlLe : Fl → Fl → Prop
  | .nan, _ => False
  | _, .nan => False
  | .inf true, _ => True
  | _, .inf false => True
  | .fin x, .fin y => x ≤ y
  | _, _ => False

end Proto.Spec
