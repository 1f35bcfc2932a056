/-!
# Outcomes of Rust code

`Res ε α` is the outcome of a Rust function returning `Result<α, ε>` that may also panic
(slice index out of range, arithmetic overflow in a checked build, `unwrap` on `None`).
-/

namespace Proto

/-- Outcome of a modelled Rust function: `Ok(a)`, `Err(e)`, or a panic.  Models no single line of
`/repo`; it is the codomain of every modelled function (simplification: all panics are one value,
messages are dropped). -/
inductive Res (ε : Type u) (α : Type v) where
  | ok (a : α)
  | err (e : ε)
  | panic
deriving Repr, DecidableEq

namespace Res

variable {ε : Type u} {α : Type v} {β : Type v}

/-- The `?` operator / sequencing: errors and panics abort.  Rust; for example
`runtime/src/message/util/common.rs` 79. -/
@[inline] def bind (x : Res ε α) (f : α → Res ε β) : Res ε β :=
  match x with
  | ok a => f a
  | err e => err e
  | panic => panic

instance : Monad (Res ε) where
  pure := ok
  bind := bind

@[simp] theorem pure_eq (a : α) : (pure a : Res ε α) = ok a := rfl
@[simp] theorem bind_ok (a : α) (f : α → Res ε β) : (ok a >>= f) = f a := rfl
@[simp] theorem bind_err (e : ε) (f : α → Res ε β) : ((err e : Res ε α) >>= f) = err e := rfl
@[simp] theorem bind_panic (f : α → Res ε β) : ((panic : Res ε α) >>= f) = panic := rfl

@[simp] theorem map_ok (a : α) (f : α → β) : (f <$> (ok a : Res ε α)) = ok (f a) := rfl
@[simp] theorem map_err (e : ε) (f : α → β) : (f <$> (err e : Res ε α)) = err e := rfl
@[simp] theorem map_panic (f : α → β) : (f <$> (panic : Res ε α)) = panic := rfl

instance : LawfulMonad (Res ε) := LawfulMonad.mk'
  (id_map := by intro α x; cases x <;> rfl)
  (pure_bind := by intros; rfl)
  (bind_assoc := by intro α β γ x f g; cases x <;> rfl)

theorem bind_eq_ok {x : Res ε α} {f : α → Res ε β} {b : β} :
    (x >>= f) = ok b ↔ ∃ a, x = ok a ∧ f a = ok b := by
  cases x <;> simp

theorem bind_ne_panic {x : Res ε α} {f : α → Res ε β} (hx : x ≠ panic)
    (hf : ∀ a, x = ok a → f a ≠ panic) : (x >>= f) ≠ panic := by
  cases x with
  | ok a => simpa using hf a rfl
  | err e => simp
  | panic => exact absurd rfl hx

/-- `Option::ok_or`: `None` becomes the given error.  Rust; for example
`compiler/src/compiler/enum.rs` 45. -/
def ofOption (e : ε) : Option α → Res ε α
  | some a => ok a
  | none => err e

/-- `Option::unwrap`: `None` panics.  Rust; for example `gen/rust/enum.rs` 36. -/
def unwrap : Option α → Res ε α
  | some a => ok a
  | none => panic

@[simp] theorem ofOption_some (e : ε) (a : α) : ofOption e (some a) = ok a := rfl
@[simp] theorem ofOption_none (e : ε) : (ofOption e none : Res ε α) = err e := rfl
@[simp] theorem unwrap_some (a : α) : (unwrap (some a) : Res ε α) = ok a := rfl
@[simp] theorem unwrap_none : (unwrap none : Res ε α) = panic := rfl

end Res

end Proto
