import Verif.Base.Arith

/-!
# C86: integer arithmetic of the two build profiles

The operations of the model are those of machine words (`BitVec`) where the exact result fits; where it
does not, a build with overflow checks panics and one without keeps the word.
-/

namespace Proto

variable {ε : Type} {bits a b : Nat}

/-- C86: addition. -/
theorem C86_add (ha : a < 2 ^ bits) (hb : b < 2 ^ bits) :
    (addU .wrapping bits a b : Res ε Nat) = .ok (BitVec.ofNat bits a + BitVec.ofNat bits b).toNat ∧
    ((addU .checked bits a b : Res ε Nat) = .panic ∧ 2 ^ bits ≤ a + b ∨
      (addU .checked bits a b : Res ε Nat) = .ok (a + b) ∧ a + b < 2 ^ bits) := by
  unfold addU
  simp only [BitVec.toNat_add, BitVec.toNat_ofNat, Nat.mod_eq_of_lt ha, Nat.mod_eq_of_lt hb]
  by_cases h : a + b < 2 ^ bits
  · simp [h, Nat.mod_eq_of_lt h]
  · simp [h]; omega

example : (addU .wrapping 8 250 10 : Res Empty Nat) = .ok 4 ∧
    (addU .checked 8 250 10 : Res Empty Nat) = .panic :=
  ⟨(C86_add (by decide) (by decide)).1, ((C86_add (by decide) (by decide)).2.resolve_right
    fun h => absurd h.2 (by decide)).1⟩

/-- C86: subtraction. -/
theorem C86_sub (ha : a < 2 ^ bits) (hb : b < 2 ^ bits) :
    (subU .wrapping bits a b : Res ε Nat) = .ok (BitVec.ofNat bits a - BitVec.ofNat bits b).toNat ∧
    ((subU .checked bits a b : Res ε Nat) = .panic ∧ a < b ∨
      (subU .checked bits a b : Res ε Nat) = .ok (a - b) ∧ b ≤ a) := by
  unfold subU
  simp only [BitVec.toNat_sub, BitVec.toNat_ofNat, Nat.mod_eq_of_lt ha, Nat.mod_eq_of_lt hb]
  by_cases h : b ≤ a
  · have e : 2 ^ bits - b + a = a - b + 2 ^ bits := by omega
    simp [h, e, Nat.mod_eq_of_lt (show a - b < 2 ^ bits by omega)]
  · have e : 2 ^ bits - b + a = a + 2 ^ bits - b := by omega
    simp [h, e]; omega

/-- C86: multiplication. -/
theorem C86_mul (ha : a < 2 ^ bits) (hb : b < 2 ^ bits) :
    (mulU .wrapping bits a b : Res ε Nat) = .ok (BitVec.ofNat bits a * BitVec.ofNat bits b).toNat ∧
    ((mulU .checked bits a b : Res ε Nat) = .panic ∧ 2 ^ bits ≤ a * b ∨
      (mulU .checked bits a b : Res ε Nat) = .ok (a * b) ∧ a * b < 2 ^ bits) := by
  unfold mulU
  simp only [BitVec.toNat_mul, BitVec.toNat_ofNat, Nat.mod_eq_of_lt ha, Nat.mod_eq_of_lt hb]
  by_cases h : a * b < 2 ^ bits
  · simp [h, Nat.mod_eq_of_lt h]
  · simp [h]; omega

example : (mulU .wrapping 16 300 300 : Res Empty Nat) = .ok 24464 ∧
    (mulU .checked 16 300 200 : Res Empty Nat) = .ok 60000 :=
  ⟨(C86_mul (by decide) (by decide)).1, ((C86_mul (by decide) (by decide)).2.resolve_left
    fun h => absurd h.2 (by decide)).1⟩

/-- C86: shifts: the amount is taken modulo the width, or must be below it. -/
theorem C86_shift (ha : a < 2 ^ bits) (h0 : 0 < bits) :
    (shlU .wrapping bits a b : Res ε Nat) = .ok (BitVec.ofNat bits a <<< (b % bits)).toNat ∧
    ((shlU .checked bits a b : Res ε Nat) = .panic ∧ bits ≤ b ∨
      (shlU .checked bits a b : Res ε Nat) = .ok (BitVec.ofNat bits a <<< b).toNat ∧ b < bits) ∧
    (shrU .wrapping bits a b : Res ε Nat) = .ok (BitVec.ofNat bits a >>> (b % bits)).toNat ∧
    ((shrU .checked bits a b : Res ε Nat) = .panic ∧ bits ≤ b ∨
      (shrU .checked bits a b : Res ε Nat) = .ok (BitVec.ofNat bits a >>> b).toNat ∧ b < bits) := by
  unfold shlU shrU
  simp only [BitVec.toNat_shiftLeft, BitVec.toNat_ushiftRight, BitVec.toNat_ofNat, Nat.mod_eq_of_lt ha]
  by_cases h : b < bits
  · simp [h, Nat.mod_eq_of_lt h]
  · simp [h]; omega

example : (shlU .wrapping 8 3 9 : Res Empty Nat) = .ok 6 ∧ (shrU .wrapping 8 6 9 : Res Empty Nat) = .ok 3 :=
  ⟨(C86_shift (by decide) (by decide)).1, (C86_shift (by decide) (by decide)).2.2.1⟩

/-- C86: complement. -/
theorem C86_not (ha : a < 2 ^ bits) : notU bits a = (~~~ BitVec.ofNat bits a).toNat := by
  unfold notU
  simp [BitVec.toNat_not, Nat.mod_eq_of_lt ha]

example : notU 16 0x00F0 = 0xFF0F := C86_not (by decide)

/-- C86: division and remainder panic exactly for a zero divisor, in both profiles. -/
theorem C86_div (hb : b < 2 ^ bits) (ha : a < 2 ^ bits) :
    ((divU a b : Res ε Nat) = .panic ∧ (modU a b : Res ε Nat) = .panic ∧ b = 0) ∨
    ((divU a b : Res ε Nat) = .ok (BitVec.ofNat bits a / BitVec.ofNat bits b).toNat ∧
      (modU a b : Res ε Nat) = .ok (BitVec.ofNat bits a % BitVec.ofNat bits b).toNat ∧ b ≠ 0) := by
  unfold divU modU
  simp only [BitVec.toNat_udiv, BitVec.toNat_umod, BitVec.toNat_ofNat, Nat.mod_eq_of_lt ha,
    Nat.mod_eq_of_lt hb]
  by_cases h : b = 0
  · simp [h]
  · simp [h]

example : (divU 7 2 : Res Empty Nat) = .ok 3 ∧ (modU 7 2 : Res Empty Nat) = .ok 1 := by
  obtain h | h := C86_div (ε := Empty) (bits := 64) (a := 7) (b := 2) (by decide) (by decide)
  · exact absurd h.2.2 (by decide)
  · exact ⟨h.1, h.2.1⟩

/-- C86: a `usize` has 64 bits. -/
theorem C86_usize : usizeBits = 64 := rfl

example : (subU .wrapping 8 3 5 : Res Empty Nat) = .ok 254 := (C86_sub (by decide) (by decide)).1

end Proto
