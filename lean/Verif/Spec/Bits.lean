import Verif.Base.Bytes

/-!
# Specification of bit ranges in a byte string

Independent of any codec.  `bitAt` (least significant bit first) is defined in `Base/Bytes`.
-/

namespace Proto.Spec

open Proto

/-- The integer made of the `n` bits `o, o+1, …, o+n-1` of `l`, bit `o` being the least
significant. -/
def bitsLE (l : Bytes) (o : Nat) : Nat → Nat
  | 0 => 0
  | n + 1 => bitsLE l o n + (if bitAt l (o + n) then 2 ^ n else 0)

/-- Bit `i` of a byte string, counting the most significant bit of each byte first. -/
def bitAtMSB (l : Bytes) (i : Nat) : Bool :=
  match l[i / 8]? with
  | some b => b.toNat.testBit (7 - i % 8)
  | none => false

/-- The integer made of the `n` bits `o, o+1, …, o+n-1` of `l` counted most-significant-first,
bit `o` being the most significant. -/
def bitsBE (l : Bytes) (o : Nat) : Nat → Nat
  | 0 => 0
  | n + 1 => 2 * bitsBE l o n + (if bitAtMSB l (o + n) then 1 else 0)

/-- `l'` is `l` with the bits `o ≤ i < o + n` replaced by the bits of `v`
(least significant bit first) and nothing else changed. -/
def BitsReplaced (l l' : Bytes) (o n v : Nat) : Prop :=
  l'.length = l.length ∧
  ∀ i, i < 8 * l.length →
    bitAt l' i = if o ≤ i ∧ i < o + n then v.testBit (i - o) else bitAt l i

/-- `l'` is `l` with the bits `o ≤ i < o + n` (counted most-significant-first) replaced by the
low `n` bits of `v`, most significant first, and nothing else changed. -/
def BitsReplacedMSB (l l' : Bytes) (o n v : Nat) : Prop :=
  l'.length = l.length ∧
  ∀ i, i < 8 * l.length →
    bitAtMSB l' i = if o ≤ i ∧ i < o + n then v.testBit (o + n - 1 - i) else bitAtMSB l i

/-! ## Facts about the specification -/

theorem bitsLE_lt (l : Bytes) (o n : Nat) : bitsLE l o n < 2 ^ n := by
  induction n with
  | zero => simp [bitsLE]
  | succ n ih =>
    rw [bitsLE, Nat.pow_succ]
    split <;> omega

theorem testBit_bitsLE (l : Bytes) (o n k : Nat) :
    (bitsLE l o n).testBit k = (decide (k < n) && bitAt l (o + k)) := by
  induction n with
  | zero => simp [bitsLE]
  | succ n ih =>
    have e : bitsLE l o (n + 1) = 2 ^ n * (if bitAt l (o + n) then 1 else 0) + bitsLE l o n := by
      rw [bitsLE]; split <;> omega
    rw [e, Nat.testBit_two_pow_mul_add _ (bitsLE_lt l o n), ih]
    by_cases h : k < n
    · simp [h, Nat.lt_succ_of_lt h]
    · rw [if_neg h]
      by_cases h2 : k = n
      · subst h2
        cases bitAt l (o + k) <;> simp
      · have h3 : ¬ k < n + 1 := by omega
        have h4 : Nat.testBit 1 (k - n) = false :=
          Nat.testBit_lt_two_pow (Nat.one_lt_two_pow (by omega))
        cases bitAt l (o + n) <;> simp [h3, h4]

theorem bitsBE_lt (l : Bytes) (o n : Nat) : bitsBE l o n < 2 ^ n := by
  induction n with
  | zero => simp [bitsBE]
  | succ n ih =>
    rw [bitsBE, Nat.pow_succ]
    split <;> omega

theorem testBit_bitsBE (l : Bytes) (o n k : Nat) :
    (bitsBE l o n).testBit k = (decide (k < n) && bitAtMSB l (o + (n - 1 - k))) := by
  induction n generalizing k with
  | zero => simp [bitsBE]
  | succ n ih =>
    have e : bitsBE l o (n + 1) =
        2 ^ 1 * bitsBE l o n + (if bitAtMSB l (o + n) then 1 else 0) := by
      rw [bitsBE]
    rw [e, Nat.testBit_two_pow_mul_add _ (by split <;> omega), ih]
    by_cases h : k < 1
    · have : k = 0 := by omega
      subst this
      cases hb : bitAtMSB l (o + n) <;> simp [hb]
    · rw [if_neg h]
      have e2 : n - 1 - (k - 1) = n + 1 - 1 - k := by omega
      rw [e2]
      by_cases h3 : k < n + 1
      · have : k - 1 < n := by omega
        simp [h3, this]
      · have : ¬ k - 1 < n := by omega
        simp [h3, this]

/-- Replacing a range makes the range read back as the (truncated) value. -/
theorem BitsReplaced.bitsLE_eq {l l' : Bytes} {o n v : Nat} (h : BitsReplaced l l' o n v)
    (hfit : o + n ≤ 8 * l.length) : bitsLE l' o n = v % 2 ^ n := by
  apply Nat.eq_of_testBit_eq
  intro k
  rw [testBit_bitsLE, Nat.testBit_mod_two_pow]
  by_cases hk : k < n
  · rw [h.2 (o + k) (by omega), if_pos (by omega)]
    simp
  · simp [hk]

/-- Replacing a range leaves every disjoint range unchanged. -/
theorem BitsReplaced.bitsLE_disjoint {l l' : Bytes} {o n v : Nat} (h : BitsReplaced l l' o n v)
    {o' n' : Nat} (hd : o' + n' ≤ o ∨ o + n ≤ o') : bitsLE l' o' n' = bitsLE l o' n' := by
  apply Nat.eq_of_testBit_eq
  intro k
  rw [testBit_bitsLE, testBit_bitsLE]
  by_cases hk : k < n'
  · simp only [hk, decide_true, Bool.true_and]
    by_cases hlen : o' + k < 8 * l.length
    · rw [h.2 _ hlen, if_neg (by omega)]
    · rw [bitAt_of_le (by rw [h.1]; omega), bitAt_of_le (by omega)]
  · simp [hk]

/-- The replaced byte string is unique. -/
theorem BitsReplaced.unique {l a b : Bytes} {o n v : Nat} (ha : BitsReplaced l a o n v)
    (hb : BitsReplaced l b o n v) : a = b := by
  apply bytes_ext (by rw [ha.1, hb.1])
  intro i hi
  rw [ha.1] at hi
  rw [ha.2 i hi, hb.2 i hi]

/-- Most-significant-first bits are the bits of the big-endian value, from the top. -/
theorem testBit_beNat (l : Bytes) (i : Nat) :
    (beNat l).testBit i = (decide (i < 8 * l.length) && bitAtMSB l (8 * l.length - 1 - i)) := by
  rw [beNat, testBit_leNat]
  by_cases h : i < 8 * l.length
  · simp only [h, decide_true, Bool.true_and]
    unfold bitAt bitAtMSB
    rw [List.getElem?_reverse (by omega)]
    have e : l.length - 1 - i / 8 = (8 * l.length - 1 - i) / 8 := by omega
    have e2 : 7 - (8 * l.length - 1 - i) % 8 = i % 8 := by omega
    rw [e, e2]
    cases l[(8 * List.length l - 1 - i) / 8]? <;> rfl
  · simp only [h, decide_false, Bool.false_and]
    exact bitAt_of_le (by simp; omega)

theorem bitAtMSB_eq (l : Bytes) (i : Nat) : bitAtMSB l i = bitAt l (8 * (i / 8) + (7 - i % 8)) := by
  unfold bitAt bitAtMSB
  have e : (8 * (i / 8) + (7 - i % 8)) / 8 = i / 8 := by omega
  have e2 : (8 * (i / 8) + (7 - i % 8)) % 8 = 7 - i % 8 := by omega
  rw [e, e2]
  cases l[i / 8]? <;> rfl

theorem bitAtMSB_of_le {l : Bytes} {i : Nat} (h : 8 * l.length ≤ i) : bitAtMSB l i = false := by
  unfold bitAtMSB
  rw [List.getElem?_eq_none (by omega)]

end Proto.Spec
