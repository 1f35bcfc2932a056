import Verif.Base.Arith

/-!
# Byte strings

Rust slices of bytes are `List UInt8`.  `leNat`/`natLe` are the base-256 digits, least significant
first; `bitAt` numbers the bits of a byte string.
-/

namespace Proto

/-- A `[u8]`.  Rust; for example `runtime/src/message/interface.rs` 83. -/
abbrev Bytes := List UInt8

/-- Value of a byte string read as base-256 digits, least significant first
(`from_le_bytes` on a whole slice).  Rust; needed for `runtime/src/codec/bytes.rs` 71-84. -/
def leNat : Bytes → Nat
  | [] => 0
  | b :: bs => b.toNat + 256 * leNat bs

/-- The `n` low base-256 digits of `v`, least significant first (`to_le_bytes`).  Rust;
needed for `runtime/src/codec/bytes.rs` 71-84. -/
def natLe : Nat → Nat → Bytes
  | 0, _ => []
  | n + 1, v => UInt8.ofNat v :: natLe n (v / 256)

/-- Value of a byte string read as base-256 digits, most significant first (`from_be_bytes`).
Rust; needed for `runtime/src/codec/bytes.rs` 71-84. -/
def beNat (l : Bytes) : Nat := leNat l.reverse

/-- The `n` low base-256 digits of `v`, most significant first (`to_be_bytes`).  Rust;
needed for `runtime/src/codec/bytes.rs` 71-84. -/
def natBe (n v : Nat) : Bytes := (natLe n v).reverse

/-- Bit `i` of a byte string: bit `i % 8` (least significant first) of byte `i / 8`; bits beyond
the end are `false`.  Not in `/repo`; speaks about `runtime/src/codec/bits.rs`. -/
def bitAt (l : Bytes) (i : Nat) : Bool :=
  match l[i / 8]? with
  | some b => b.toNat.testBit (i % 8)
  | none => false

/-- `&l[a..b]`: panics unless `a ≤ b ≤ l.len()`.  Rust; for example `runtime/src/codec/arrays.rs` 54. -/
def slice (l : Bytes) (a b : Nat) : Res ε Bytes :=
  if a ≤ b ∧ b ≤ l.length then .ok ((l.drop a).take (b - a)) else .panic

/-- The byte string after the sub-slice starting at `a` has been overwritten with `s`
(what remains of a buffer after `&mut l[a..a + s.len()]` was modified).  Rust; for example
`runtime/src/codec/arrays.rs` 73. -/
def splice (l : Bytes) (a : Nat) (s : Bytes) : Bytes :=
  l.take a ++ s ++ l.drop (a + s.length)

theorem slice_ok {l : Bytes} {a b : Nat} (h1 : a ≤ b) (h2 : b ≤ l.length) :
    (slice l a b : Res ε Bytes) = .ok ((l.drop a).take (b - a)) := by
  simp [slice, h1, h2]

theorem slice_eq_ok {l : Bytes} {a b : Nat} {s : Bytes} :
    (slice l a b : Res ε Bytes) = .ok s ↔
      a ≤ b ∧ b ≤ l.length ∧ s = (l.drop a).take (b - a) := by
  unfold slice
  split <;> simp_all [eq_comm]
  intro h1 h2; omega

@[simp] theorem natLe_length (n v : Nat) : (natLe n v).length = n := by
  induction n generalizing v with
  | zero => rfl
  | succ n ih => simp [natLe, ih]

@[simp] theorem natBe_length (n v : Nat) : (natBe n v).length = n := by simp [natBe]

theorem leNat_lt (l : Bytes) : leNat l < 256 ^ l.length := by
  induction l with
  | nil => simp [leNat]
  | cons b bs ih =>
    have := b.toNat_lt
    simp only [leNat, List.length_cons, Nat.pow_succ]
    omega

theorem leNat_append (a b : Bytes) : leNat (a ++ b) = leNat a + 256 ^ a.length * leNat b := by
  induction a with
  | nil => simp [leNat]
  | cons x xs ih =>
    simp only [List.cons_append, leNat, ih, List.length_cons, Nat.pow_succ]
    rw [Nat.mul_add, Nat.mul_comm (256 ^ xs.length) 256, Nat.mul_assoc, Nat.add_assoc]

theorem leNat_natLe (n v : Nat) : leNat (natLe n v) = v % 256 ^ n := by
  induction n generalizing v with
  | zero => simp [natLe, leNat, Nat.mod_one]
  | succ n ih =>
    simp only [natLe, leNat, ih, UInt8.toNat_ofNat']
    rw [show (256 : Nat) ^ (n + 1) = 256 * 256 ^ n by rw [Nat.pow_succ, Nat.mul_comm], Nat.mod_mul]

theorem natLe_leNat (l : Bytes) : natLe l.length (leNat l) = l := by
  induction l with
  | nil => rfl
  | cons b bs ih =>
    have hb := b.toNat_lt
    simp only [List.length_cons, natLe, leNat]
    have h2 : (b.toNat + 256 * leNat bs) / 256 = leNat bs := by omega
    rw [h2, ih]
    congr 1
    apply UInt8.toNat_inj.mp
    rw [UInt8.toNat_ofNat']
    omega

theorem natLe_mod (n v : Nat) : natLe n (v % 256 ^ n) = natLe n v := by
  have h := natLe_leNat (natLe n v)
  rwa [natLe_length, leNat_natLe] at h

theorem leNat_replicate_zero (n : Nat) : leNat (List.replicate n 0) = 0 := by
  induction n with
  | zero => rfl
  | succ n ih => simp [List.replicate_succ, leNat, ih]

theorem beNat_natBe (n v : Nat) : beNat (natBe n v) = v % 256 ^ n := by
  simp [beNat, natBe, leNat_natLe]

theorem natBe_beNat (l : Bytes) : natBe l.length (beNat l) = l := by
  have h := natLe_leNat l.reverse
  simp only [List.length_reverse] at h
  simp [natBe, beNat, h]

theorem beNat_lt (l : Bytes) : beNat l < 256 ^ l.length := by
  simpa [beNat] using leNat_lt l.reverse

theorem leNat_inj {a b : Bytes} (hl : a.length = b.length) (h : leNat a = leNat b) : a = b := by
  rw [← natLe_leNat a, ← natLe_leNat b, h, hl]

/-! ## Bits -/

theorem bitAt_cons (b : UInt8) (bs : Bytes) (i : Nat) :
    bitAt (b :: bs) i = if i < 8 then b.toNat.testBit i else bitAt bs (i - 8) := by
  unfold bitAt
  split
  · next h =>
    split
    · next h8 =>
      have e : i / 8 = 0 := by omega
      have e2 : i % 8 = i := by omega
      rw [e] at h
      simp only [List.getElem?_cons_zero, Option.some.injEq] at h
      rw [h, e2]
    · next h8 =>
      obtain ⟨k, hk⟩ : ∃ k, i / 8 = k + 1 := ⟨i / 8 - 1, by omega⟩
      have e2 : (i - 8) / 8 = k := by omega
      have e3 : (i - 8) % 8 = i % 8 := by omega
      rw [hk] at h
      simp only [List.getElem?_cons_succ] at h
      simp [e2, e3, h]
  · next h =>
    split
    · next h8 =>
      have e : i / 8 = 0 := by omega
      simp_all
    · next h8 =>
      obtain ⟨k, hk⟩ : ∃ k, i / 8 = k + 1 := ⟨i / 8 - 1, by omega⟩
      have e2 : (i - 8) / 8 = k := by omega
      rw [hk] at h
      simp only [List.getElem?_cons_succ] at h
      simp [e2, h]

@[simp] theorem bitAt_nil (i : Nat) : bitAt [] i = false := by simp [bitAt]

/-- The bits of a byte string are the bits of its little-endian value. -/
theorem testBit_leNat (l : Bytes) (i : Nat) : (leNat l).testBit i = bitAt l i := by
  induction l generalizing i with
  | nil => simp [leNat]
  | cons b bs ih =>
    rw [bitAt_cons, leNat, ← ih]
    have hb : b.toNat < 2 ^ 8 := b.toNat_lt
    have e : b.toNat + 256 * leNat bs = 2 ^ 8 * leNat bs + b.toNat := by omega
    rw [e, Nat.testBit_two_pow_mul_add _ hb]

theorem bitAt_of_le {l : Bytes} {i : Nat} (h : 8 * l.length ≤ i) : bitAt l i = false := by
  unfold bitAt
  rw [List.getElem?_eq_none (by omega)]

/-- Byte strings of equal length with equal bits are equal. -/
theorem bytes_ext {a b : Bytes} (hl : a.length = b.length)
    (h : ∀ i, i < 8 * a.length → bitAt a i = bitAt b i) : a = b := by
  apply leNat_inj hl
  apply Nat.eq_of_testBit_eq
  intro i
  rw [testBit_leNat, testBit_leNat]
  by_cases hi : i < 8 * a.length
  · exact h i hi
  · rw [bitAt_of_le (by omega), bitAt_of_le (by omega)]

theorem bitAt_append (a b : Bytes) (i : Nat) :
    bitAt (a ++ b) i = if i < 8 * a.length then bitAt a i else bitAt b (i - 8 * a.length) := by
  unfold bitAt
  split <;> rename_i h
  · rw [List.getElem?_append] at h
    split at h
    · rw [if_pos (by omega), h]
    · rw [if_neg (by omega)]
      have e : (i - 8 * a.length) / 8 = i / 8 - a.length := by omega
      have e2 : (i - 8 * a.length) % 8 = i % 8 := by omega
      rw [e, h, e2]
  · rw [List.getElem?_append] at h
    split at h
    · rw [if_pos (by omega), h]
    · rw [if_neg (by omega)]
      have e : (i - 8 * a.length) / 8 = i / 8 - a.length := by omega
      rw [e, h]

theorem bitAt_drop (l : Bytes) (n i : Nat) : bitAt (l.drop n) i = bitAt l (8 * n + i) := by
  unfold bitAt
  have e : (8 * n + i) / 8 = n + i / 8 := by omega
  have e2 : (8 * n + i) % 8 = i % 8 := by omega
  rw [List.getElem?_drop, e, e2]

theorem bitAt_take (l : Bytes) (n i : Nat) :
    bitAt (l.take n) i = if i < 8 * n then bitAt l i else false := by
  unfold bitAt
  rw [List.getElem?_take]
  by_cases h : i / 8 < n
  · rw [if_pos h, if_pos (by omega)]
  · rw [if_neg h, if_neg (by omega)]

theorem bitAt_replicate_zero (n i : Nat) : bitAt (List.replicate n 0) i = false := by
  rw [← testBit_leNat, leNat_replicate_zero, Nat.zero_testBit]

theorem bitAt_natLe (n v i : Nat) :
    bitAt (natLe n v) i = (decide (i < 8 * n) && v.testBit i) := by
  rw [← testBit_leNat, leNat_natLe, show (256 : Nat) ^ n = 2 ^ (8 * n) by
    rw [Nat.pow_mul]]
  rw [Nat.testBit_mod_two_pow]

theorem splice_length {l s : Bytes} {a : Nat} (h : a + s.length ≤ l.length) :
    (splice l a s).length = l.length := by
  simp [splice]; omega

theorem bitAt_splice {l s : Bytes} {a : Nat} (h : a + s.length ≤ l.length) (i : Nat) :
    bitAt (splice l a s) i =
      if 8 * a ≤ i ∧ i < 8 * (a + s.length) then bitAt s (i - 8 * a) else bitAt l i := by
  unfold splice
  rw [bitAt_append, bitAt_append, bitAt_take, bitAt_drop]
  have e1 : (List.take a l).length = a := by simp; omega
  simp only [List.length_append, e1]
  by_cases h1 : i < 8 * a
  · rw [if_pos (by omega), if_pos h1, if_pos h1, if_neg (by omega)]
  · by_cases h2 : i < 8 * (a + s.length)
    · rw [if_pos h2, if_neg h1, if_pos (by omega)]
    · rw [if_neg h2, if_neg (by omega)]
      congr 1; omega

theorem splice_self {l : Bytes} {a n : Nat} (h : a + n ≤ l.length) :
    splice l a ((l.drop a).take n) = l := by
  unfold splice
  have : ((l.drop a).take n).length = n := by simp; omega
  rw [this, List.append_assoc]
  rw [show l.drop (a + n) = (l.drop a).drop n by rw [List.drop_drop]]
  rw [List.take_append_drop, List.take_append_drop]

end Proto
