import Mathlib.Data.Int.Log
import Mathlib.Data.Rat.Floor
import Verif.Gen.Struct

/-!
# Float views in IEEE 754 arithmetic

`compiler/src/compiler/structure.rs` computes the parameters of a float view in `f64` and the generated
accessors compute in `f32` or `f64`.  `Gen/Struct.lean` models both over exact rationals; here every
operation rounds.  A finite float is the rational it denotes (simplification: the sign of a zero is not
kept, payloads of NaN are not kept).
-/

namespace Proto.Ieee

open Proto

/-- A binary interchange format: digits of the significand, exponent of the smallest positive number and
exponent of the largest binade.  IEEE arithmetic, not in `/repo`; needed for
`gen/rust/structure.field.template` 27-28, 100-101. -/
structure Fmt where
  prec : Nat
  least : Int
  top : Int
deriving DecidableEq, Repr

/-- `f32`.  `gen/rust/util.rs` 84. -/
def binary32 : Fmt := ⟨24, -149, 127⟩

/-- `f64`.  `gen/rust/util.rs` 85. -/
def binary64 : Fmt := ⟨53, -1074, 1023⟩

/-- The value of an expression of type `f32` or `f64`.  Rust; needed for
`gen/rust/structure.field.template` 27-28, 100-101. -/
inductive Fl where
  | fin (q : Rat)
  | inf (negative : Bool)
  | nan
deriving DecidableEq, Repr

/-- The integer nearest to `x`, the even one of two equally near.  IEEE arithmetic, not in `/repo`;
needed for `gen/rust/structure.field.template` 27-28, 100-101. -/
def halfEven (x : Rat) : Int :=
  if x - ⌊x⌋ < 1 / 2 then ⌊x⌋
  else if 1 / 2 < x - ⌊x⌋ then ⌊x⌋ + 1
  else if ⌊x⌋ % 2 = 0 then ⌊x⌋ else ⌊x⌋ + 1

/-- The exponent of the last digit of a number of the magnitude of `q`.  IEEE arithmetic, not in
`/repo`; needed for `gen/rust/structure.field.template` 27-28, 100-101. -/
def Fmt.ulp (f : Fmt) (q : Rat) : Int := max (Int.log 2 |q| - (f.prec - 1 : Int)) f.least

/-- The multiple of the last place nearest to `q`.  IEEE arithmetic, not in `/repo`; needed for
`gen/rust/structure.field.template` 27-28, 100-101. -/
def Fmt.near (f : Fmt) (q : Rat) : Rat := halfEven (q / 2 ^ f.ulp q) * 2 ^ f.ulp q

/-- Rounding to nearest, ties to even.  IEEE arithmetic, not in `/repo`; needed for
`gen/rust/structure.field.template` 27-28, 100-101. -/
def Fmt.round (f : Fmt) (q : Rat) : Fl :=
  if |f.near q| < 2 ^ (f.top + 1) then .fin (f.near q) else .inf (decide (q < 0))

/-- `x * y`.  IEEE arithmetic, not in `/repo`; needed for `gen/rust/structure.field.template` 27-28,
100-101. -/
def Fmt.mul (f : Fmt) : Fl → Fl → Fl
  | .fin x, .fin y => f.round (x * y)
  | .fin x, .inf s => if x = 0 then .nan else .inf (s != decide (x < 0))
  | .inf s, .fin y => if y = 0 then .nan else .inf (s != decide (y < 0))
  | .inf s, .inf t => .inf (s != t)
  | _, _ => .nan

/-- `x + y`.  IEEE arithmetic, not in `/repo`; needed for `gen/rust/structure.field.template` 27-28,
100-101. -/
def Fmt.add (f : Fmt) : Fl → Fl → Fl
  | .fin x, .fin y => f.round (x + y)
  | .fin _, .inf s => .inf s
  | .inf s, .fin _ => .inf s
  | .inf s, .inf t => if s = t then .inf s else .nan
  | _, _ => .nan

/-- `x / y` of finite `x` and `y`.  IEEE arithmetic, not in `/repo`; needed for
`gen/rust/structure.field.template` 27-28, 100-101. -/
def Fmt.div (f : Fmt) (x y : Rat) : Fl :=
  if y = 0 then (if x = 0 then .nan else .inf (decide (x < 0))) else f.round (x / y)

/-- `x as uN`: truncation, saturating, NaN becomes 0.  Rust; `gen/rust/structure.field.template` 101. -/
def Fl.toUInt (bits : Nat) : Fl → Nat
  | .fin q => satCast bits q
  | .inf true => 0
  | .inf false => 2 ^ bits - 1
  | .nan => 0

/-- The parameters of a float view, computed in `f64` (`compiler/src/compiler/structure.rs` 183-208); `none`
unless all are finite (the other values print as `inf` or `NaN`, which is not Rust).  `lo`, `hi` and
`multiplier` are the `f64` values read from the description. -/
def params (n : Nat) : Model.FieldView → Option (Rat × Rat × Rat × Rat)
  | .floatRange lo hi =>
    match binary64.round ((2 ^ n - 1 : Nat) : Rat) with
    | .fin rawMax =>
      match binary64.div hi rawMax with
      | .fin a =>
        match binary64.div 1 a with
        | .fin aInv => some (a, lo, aInv, -lo)
        | _ => none
      | _ => none
    | _ => none
  | .floatMultiplier multiplier =>
    match binary64.div 1 multiplier with
    | .fin aInv => some (multiplier, 0, aInv, 0)
    | _ => none
  | .enum _ => none

/-- `decimal` is the number a text of the `f64` number `x` denotes: reading it as an `f64` gives `x`, and
zero is written as zero.  `{:?}` prints such a text (`compiler/src/gen/base/structure.rs` 111-112,
135-136). -/
def Prints (x decimal : Rat) : Prop := binary64.round decimal = .fin x ∧ (x = 0 → decimal = 0)

/-- `raw_value as {view_type} * {a} + {b}` of fragment `getters.view_float`
(`gen/rust/structure.field.template`), where `a` and `b` are the printed constants: a literal is rounded
to the type of the expression.  Lines 27-28. -/
def viewGet (f : Fmt) (a b : Rat) (raw : Nat) : Fl :=
  f.add (f.mul (f.round raw) (f.round a)) (f.round b)

/-- `(value * {a_inv} + {b_inv}) as {raw_type}` of fragment `setters.view_float`.
`gen/rust/structure.field.template` 100-101. -/
def viewSet (f : Fmt) (bits : Nat) (aInv bInv : Rat) (value : Fl) : Nat :=
  (f.add (f.mul value (f.round aInv)) (f.round bInv)).toUInt bits

/-- The format of the view type of a float field (`FixedTy`).  `{view_type}` of
`gen/rust/structure.field.template` 26. -/
def fmtOf : FixedTy → Option Fmt
  | .f32 => some binary32
  | .f64 => some binary64
  | _ => none

/-- `get_{name}` of a float view.  `gen/rust/structure.field.template` 25-30. -/
def getView (p : Profile) (f : FixedField) (a b : Rat) (fmt : Fmt) (buf : Bytes) : R Fl := do
  let raw ← f.getRaw p buf
  pure (viewGet fmt a b raw)

/-- `set_{name}` of a float view.  `gen/rust/structure.field.template` 98-104. -/
def setView (p : Profile) (f : FixedField) (aInv bInv : Rat) (fmt : Fmt) (buf : Bytes) (v : Fl) :
    R Bytes :=
  f.setRaw p buf (viewSet fmt f.rawBits aInv bInv v)

end Proto.Ieee
