import Lean.Elab.Tactic
import Verif.Base.Bytes

/-!
# Byte literals

Notation only.  `b!"text"` is the UTF-8 encoding of `text` as an explicit list of bytes; `t!"… {e} …"`
is such a text with the byte strings `e` in the holes (`\{` is an opening brace).  `krfl` closes an
equation by `Eq.refl` and leaves the comparison of the two sides to the kernel alone.
-/

open Lean Elab

namespace Proto

/-- `b!"text"`: the UTF-8 encoding of the literal, as an explicit list. -/
elab:max "b!" s:str : term => do
  return toExpr s.getString.toUTF8.toList

/-- `t!"… {e} …"`: literal pieces as by `b!`, joined with the holes. -/
syntax:max "t!" interpolatedStr(term) : term

macro_rules
  | `(t! $s) => do
    let mut r : Option Term := none
    for chunk in s.raw.getArgs.reverse do
      let piece : Term ← match chunk.isInterpolatedStrLit? with
        | some str => if str = "" then continue else `(b! $(Syntax.mkStrLit str))
        | none => pure ⟨chunk⟩
      r := some (← match r with
        | none => pure piece
        | some rest => `(($piece : List UInt8) ++ $rest))
    match r with
    | none => `(([] : List UInt8))
    | some all => `(($all : List UInt8))

/-- `Eq.refl`, checked by the kernel only. -/
elab "krfl" : tactic => do
  let g ← Tactic.getMainGoal
  let some (_, l, _) := (← Meta.whnfR (← instantiateMVars (← g.getType))).eq? | throwError "not an equation"
  g.assign (← Meta.mkEqRefl l)

example : b!"aé" = [0x61, 0xc3, 0xa9] := by krfl

example (x : List UInt8) : t!"a\{ {x}}" = [0x61, 0x7b, 0x20] ++ (x ++ [0x7d]) := by krfl

end Proto
