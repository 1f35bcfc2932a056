import Verif.Compiler.Types

/-! # Specification of field values -/

namespace Proto.Spec

/-- Two's complement value of an `n`-bit pattern. -/
def twosComplement (n raw : Nat) : Int :=
  if 2 * raw < 2 ^ n then (raw : Int) else (raw : Int) - (2 ^ n : Nat)

/-- The `n`-bit two's complement pattern of an integer. -/
def pattern (n : Nat) (v : Int) : Nat := (v % (2 ^ n : Nat)).toNat

/-- `v` is representable on `n` bits in two's complement. -/
def SignedRange (n : Nat) (v : Int) : Prop := -(2 ^ n : Nat) ≤ 2 * v ∧ 2 * v < (2 ^ n : Nat)

/-- The enum declares a variant with value `d`. -/
def Declared (e : Enum) (d : Nat) : Prop := ∃ name, (name, d) ∈ e.variants

theorem twosComplement_pattern {n : Nat} {v : Int} (h : SignedRange n v) :
    twosComplement n (pattern n v) = v := by
  unfold twosComplement pattern SignedRange at *
  have hp := Nat.two_pow_pos n
  generalize (2 ^ n : Nat) = m at *
  have h0 : 0 ≤ v % (m : Int) := Int.emod_nonneg _ (by omega)
  by_cases hv : 0 ≤ v
  · have e : v % (m : Int) = v := Int.emod_eq_of_lt hv (by omega)
    rw [e]
    split <;> omega
  · have e : v % (m : Int) = v + m := by
      rw [← Int.add_emod_right]; exact Int.emod_eq_of_lt (by omega) (by omega)
    rw [e]
    split <;> omega

theorem pattern_lt (n : Nat) (v : Int) : pattern n v < 2 ^ n := by
  unfold pattern
  have hp := Nat.two_pow_pos n
  have h0 : 0 ≤ v % ((2 ^ n : Nat) : Int) := Int.emod_nonneg _ (by omega)
  have h1 : v % ((2 ^ n : Nat) : Int) < (2 ^ n : Nat) := Int.emod_lt_of_pos _ (by omega)
  omega

theorem pattern_mod {n m : Nat} (h : n ≤ m) (v : Int) : pattern m v % 2 ^ n = pattern n v := by
  unfold pattern
  have hp := Nat.two_pow_pos n
  have hm := Nat.two_pow_pos m
  have hd : (2 ^ n : Nat) ∣ 2 ^ m := Nat.pow_dvd_pow 2 h
  have h0 : 0 ≤ v % ((2 ^ m : Nat) : Int) := Int.emod_nonneg _ (by omega)
  have h2 : 0 ≤ v % ((2 ^ n : Nat) : Int) := Int.emod_nonneg _ (by omega)
  apply Int.ofNat_inj.1
  rw [Int.natCast_emod, Int.toNat_of_nonneg h0, Int.toNat_of_nonneg h2]
  exact Int.emod_emod_of_dvd _ (Int.natCast_dvd_natCast.2 hd)

theorem twosComplement_range {n raw : Nat} (h : raw < 2 ^ n) :
    SignedRange n (twosComplement n raw) := by
  unfold SignedRange twosComplement
  split <;> omega

end Proto.Spec
