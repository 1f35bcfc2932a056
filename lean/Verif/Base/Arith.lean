import Verif.Base.Res

/-!
# Machine arithmetic

Unsigned integers are natural numbers together with a bit width.  Rust's overflow behaviour depends
on the build profile: checked (debug) builds panic, release builds wrap.  `usize` is 64 bits wide
except in `Runtime/Word.lean` and `Gen/Word.lean`.
-/

namespace Proto

/-- Cargo profile: `checked` = overflow checks on (debug), `wrapping` = off (release).
Not in `/repo`; every arithmetic operation that can overflow takes it as a parameter. -/
inductive Profile where
  | checked
  | wrapping
deriving Repr, DecidableEq

/-- Bits in a `usize` (64-bit targets; other widths in `Runtime/Word.lean`).  Rust, not in `/repo`;
for example `runtime/src/message/util/list.rs`. -/
def usizeBits : Nat := 64

/-- `a + b` on an unsigned integer of `bits` bits.  Rust; for example
`runtime/src/message/util/list.rs`. -/
def addU (p : Profile) (bits a b : Nat) : Res ε Nat :=
  if a + b < 2 ^ bits then .ok (a + b)
  else match p with
    | .checked => .panic
    | .wrapping => .ok ((a + b) % 2 ^ bits)

/-- `a - b` on an unsigned integer of `bits` bits.  Rust; `runtime/src/codec/bits.rs` 74, 93. -/
def subU (p : Profile) (bits a b : Nat) : Res ε Nat :=
  if b ≤ a then .ok (a - b)
  else match p with
    | .checked => .panic
    | .wrapping => .ok ((a + 2 ^ bits - b % 2 ^ bits) % 2 ^ bits)

/-- `a * b` on an unsigned integer of `bits` bits.  Rust; `runtime/src/codec/arrays.rs` 52, 71. -/
def mulU (p : Profile) (bits a b : Nat) : Res ε Nat :=
  if a * b < 2 ^ bits then .ok (a * b)
  else match p with
    | .checked => .panic
    | .wrapping => .ok ((a * b) % 2 ^ bits)

/-- `a << s` on an unsigned integer of `bits` bits: an over-long shift panics (checked) or uses the
shift amount modulo the width (wrapping); bits shifted out are lost.  Rust; `runtime/src/codec/bits.rs`
74, 81, 84, 98, 101. -/
def shlU (p : Profile) (bits a s : Nat) : Res ε Nat :=
  if s < bits then .ok ((a <<< s) % 2 ^ bits)
  else match p with
    | .checked => .panic
    | .wrapping => .ok ((a <<< (s % bits)) % 2 ^ bits)

/-- `a >> s` on an unsigned integer of `bits` bits, same overflow rule as `shlU`.  Rust;
`runtime/src/codec/bits.rs` 76, 93. -/
def shrU (p : Profile) (bits a s : Nat) : Res ε Nat :=
  if s < bits then .ok (a >>> s)
  else match p with
    | .checked => .panic
    | .wrapping => .ok (a >>> (s % bits))

/-- `!a` on an unsigned integer of `bits` bits.  Rust; `runtime/src/codec/bits.rs` 81, 98. -/
def notU (bits a : Nat) : Nat := 2 ^ bits - 1 - a % 2 ^ bits

/-- `a / b`: division by zero panics in every profile.  Rust; `runtime/src/codec/arrays.rs` 51, 58. -/
def divU (a b : Nat) : Res ε Nat := if b = 0 then .panic else .ok (a / b)

/-- `a % b`: remainder by zero panics in every profile.  Rust; `runtime/src/codec/bits.rs` 93, 101. -/
def modU (a b : Nat) : Res ε Nat := if b = 0 then .panic else .ok (a % b)

theorem addU_ok (p : Profile) {bits a b : Nat} (h : a + b < 2 ^ bits) :
    (addU p bits a b : Res ε Nat) = .ok (a + b) := by simp [addU, h]
theorem subU_ok (p : Profile) {bits a b : Nat} (h : b ≤ a) :
    (subU p bits a b : Res ε Nat) = .ok (a - b) := by simp [subU, h]
theorem mulU_ok (p : Profile) {bits a b : Nat} (h : a * b < 2 ^ bits) :
    (mulU p bits a b : Res ε Nat) = .ok (a * b) := by simp [mulU, h]
theorem shlU_ok (p : Profile) {bits a s : Nat} (h : s < bits) :
    (shlU p bits a s : Res ε Nat) = .ok ((a <<< s) % 2 ^ bits) := by simp [shlU, h]
theorem shrU_ok (p : Profile) {bits a s : Nat} (h : s < bits) :
    (shrU p bits a s : Res ε Nat) = .ok (a >>> s) := by simp [shrU, h]
theorem divU_ok {a b : Nat} (h : 0 < b) : (divU a b : Res ε Nat) = .ok (a / b) := by
  simp [divU, Nat.pos_iff_ne_zero.mp h]

theorem addU_eq_ok {p : Profile} {bits a b n : Nat} (h : (addU p bits a b : Res ε Nat) = .ok n)
    (hp : p = .checked ∨ a + b < 2 ^ bits) : n = a + b ∧ a + b < 2 ^ bits := by
  unfold addU at h
  split at h
  · next hlt => cases h; exact ⟨rfl, hlt⟩
  · next hlt =>
    rcases hp with rfl | hp
    · cases h
    · exact absurd hp hlt

theorem mulU_eq_ok {p : Profile} {bits a b n : Nat} (h : (mulU p bits a b : Res ε Nat) = .ok n)
    (hp : p = .checked ∨ a * b < 2 ^ bits) : n = a * b ∧ a * b < 2 ^ bits := by
  unfold mulU at h
  split at h
  · next hlt => cases h; exact ⟨rfl, hlt⟩
  · next hlt =>
    rcases hp with rfl | hp
    · cases h
    · exact absurd hp hlt

theorem testBit_notU {bits a i : Nat} (h : i < bits) :
    (notU bits a).testBit i = !a.testBit i := by
  unfold notU
  have hlt : a % 2 ^ bits < 2 ^ bits := Nat.mod_lt _ (Nat.two_pow_pos bits)
  have := Nat.testBit_two_pow_sub_succ hlt i
  have e : 2 ^ bits - 1 - a % 2 ^ bits = 2 ^ bits - (a % 2 ^ bits + 1) := by omega
  rw [e, this]
  simp [h, Nat.testBit_mod_two_pow]

theorem notU_lt {bits a : Nat} : notU bits a < 2 ^ bits := by
  unfold notU
  have : 0 < 2 ^ bits := Nat.two_pow_pos bits
  omega

end Proto
