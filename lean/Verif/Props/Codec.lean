import Verif.Runtime.CodecLemmas

/-!
# C01–C07: the byte, bit and array codecs

`sz` is the byte width of the Rust integer type (`IntSize`), a buffer is a `List UInt8`,
`p` ranges over both overflow profiles.
-/

namespace Proto.Props

open Proto Spec

/-- The byte widths of `u8`, `u16`, `u32`, `u64`. -/
def IntSize (sz : Nat) : Prop := sz = 1 ∨ sz = 2 ∨ sz = 4 ∨ sz = 8

instance (sz : Nat) : Decidable (IntSize sz) := by unfold IntSize; infer_instance

/-! ## C01 -/

/-- C01: a little-endian byte write stores the base-256 digits of the value, least significant
first, in the first `min sz len` bytes, keeps every later byte and the length, and a read returns
the value modulo `256 ^ min sz len`. -/
theorem C01_byte_le_write_read {sz : Nat} (hsz : IntSize sz) (buf : Bytes) (v : Nat)
    (hlen : buf.length ≤ 8) :
    ∃ b, ByteCodec.write .little sz buf v = .ok b ∧
      b.length = buf.length ∧
      (∀ i, i < min sz buf.length → (b[i]?).map UInt8.toNat = some (v / 256 ^ i % 256)) ∧
      (∀ i, sz ≤ i → b[i]? = buf[i]?) ∧
      ByteCodec.read .little sz b = .ok (v % 256 ^ min sz buf.length) := by
  have h8 : sz ≤ 8 := by unfold IntSize at hsz; omega
  have hrw := ByteCodec.readLE_writeLE (buf := buf) v h8 hlen
  have hw := ByteCodec.writeLE_eq (buf := buf) v h8 (.inl hlen)
  rw [hw] at hrw
  refine ⟨_, hw, by simp; omega, ?_, ?_, hrw⟩
  · intro i hi
    rw [List.getElem?_append_left (by simp; omega), List.getElem?_take_of_lt (by omega)]
    have := natLe_drop sz v i
    have e : (natLe sz v)[i]? = ((natLe sz v).drop i)[0]? := by simp
    rw [e, this]
    obtain ⟨k, hk⟩ : ∃ k, sz - i = k + 1 := ⟨sz - i - 1, by omega⟩
    rw [hk, natLe]
    simp
  · intro i hi
    by_cases h : sz ≤ buf.length
    · rw [List.getElem?_append_right (by simp; omega)]
      simp only [List.length_take, natLe_length, List.getElem?_drop]
      congr 1; omega
    · rw [List.getElem?_eq_none (by simp; omega), List.getElem?_eq_none (by omega)]

example : ∃ b, ByteCodec.write .little 4 [9, 9, 9] 0x01020304 = .ok b ∧ b.length = 3 ∧
    ByteCodec.read .little 4 b = .ok 0x020304 :=
  let ⟨b, h1, h2, _, _, h3⟩ := C01_byte_le_write_read (sz := 4) (by decide) [9, 9, 9] 0x01020304 (by decide)
  ⟨b, h1, h2, h3⟩

/-- C01: a little-endian byte read is the value of the first `sz` bytes (zero-extended when the
slice is shorter) as base-256 digits, least significant first. -/
theorem C01_byte_le_read {sz : Nat} (hsz : IntSize sz) (buf : Bytes) (hlen : buf.length ≤ 8) :
    ByteCodec.read .little sz buf = .ok (bitsLE buf 0 (8 * sz)) := by
  have h8 : sz ≤ 8 := by unfold IntSize at hsz; omega
  rw [ByteCodec.readLE_eq h8 (.inl hlen)]
  congr 1
  apply Nat.eq_of_testBit_eq
  intro i
  rw [testBit_leNat, testBit_bitsLE, bitAt_take]
  by_cases h : i < 8 * sz <;> simp [h]

example : ByteCodec.read .little 4 [1, 2, 3] = .ok (bitsLE [1, 2, 3] 0 32) :=
  C01_byte_le_read (by decide) _ (by decide)

/-- C01: outside that domain (a slice longer than 8 bytes that is not exactly the integer's width)
both operations panic, in either byte order. -/
theorem C01_byte_domain {e : Endian} {sz : Nat} (buf : Bytes) (v : Nat)
    (hlen : 8 < buf.length) (hne : buf.length ≠ sz) :
    ByteCodec.read e sz buf = .panic ∧ ByteCodec.write e sz buf v = .panic := by
  exact ⟨ByteCodec.read_length (by omega) hne, ByteCodec.write_length v (by omega) hne⟩

example : ByteCodec.write .little 4 [9, 9, 9] 0x01020304 = .ok [4, 3, 2] := by decide
example : ByteCodec.read .little 4 [4, 3, 2] = .ok 0x020304 := by decide

/-! ## C02 -/

/-- C02, the full claim: big-endian read after write returns every value that fits the slice. -/
def C02_full : Prop :=
  ∀ (sz : Nat), IntSize sz → ∀ (buf : Bytes), buf.length ≤ 8 → ∀ v, v < 256 ^ min sz buf.length →
    (do let b ← ByteCodec.write .big sz buf v; ByteCodec.read .big sz b) = .ok v

/-- C02 when the slice is at least as long as the integer (for shorter slices see
`C02_byte_be_lossy`).  When the widths agree the stored bytes are the big-endian digits. -/
theorem C02_byte_be_write_read {sz : Nat} (buf : Bytes) (v : Nat)
    (hlen : buf.length ≤ 8) (hfit : sz ≤ buf.length) :
    ∃ b, ByteCodec.write .big sz buf v = .ok b ∧ b.length = buf.length ∧
      (∀ i, i < sz → (b[i]?).map UInt8.toNat = some (v / 256 ^ (sz - 1 - i) % 256)) ∧
      (∀ i, sz ≤ i → b[i]? = buf[i]?) ∧
      ByteCodec.read .big sz b = .ok (v % 256 ^ sz) := by
  have h8 : sz ≤ 8 := by omega
  have hrw := ByteCodec.readBE_writeBE (buf := buf) v h8 hlen
  have hw := ByteCodec.writeBE_eq (buf := buf) v h8 hlen
  rw [hw] at hrw
  have e0 : sz - buf.length = 0 := by omega
  simp only [e0, Nat.pow_zero, Nat.div_one, Nat.mul_one, Res.bind_ok] at hrw
  refine ⟨_, hw, by simp; omega, ?_, ?_, hrw⟩
  · intro i hi
    rw [List.getElem?_append_left (by simp; omega), List.getElem?_take_of_lt (by omega), natBe,
      List.getElem?_reverse (by simpa using hi), natLe_length]
    have e : (natLe sz v)[sz - 1 - i]? = ((natLe sz v).drop (sz - 1 - i))[0]? := by simp
    rw [e, natLe_drop]
    obtain ⟨k, hk⟩ : ∃ k, sz - (sz - 1 - i) = k + 1 := ⟨sz - (sz - 1 - i) - 1, by omega⟩
    rw [hk, natLe]
    simp
  · intro i hi
    rw [List.getElem?_append_right (by simp; omega)]
    simp only [List.length_take, natBe_length, List.getElem?_drop]
    congr 1; omega

example : ∃ b, ByteCodec.write .big 2 [0, 0] 0x0102 = .ok b ∧ ByteCodec.read .big 2 b = .ok 0x0102 :=
  let ⟨b, h1, _, _, _, h2⟩ := C02_byte_be_write_read (sz := 2) [0, 0] 0x0102 (by decide) (by decide)
  ⟨b, h1, h2⟩

/-- C02: the exact behaviour on every slice of at most 8 bytes: the `sz - len` low bytes of the
value are replaced by zero. -/
theorem C02_byte_be_lossy {sz : Nat} (hsz : IntSize sz) (buf : Bytes) (v : Nat)
    (hlen : buf.length ≤ 8) :
    (do let b ← ByteCodec.write .big sz buf v; ByteCodec.read .big sz b) =
      .ok (v % 256 ^ sz - v % 256 ^ sz % 256 ^ (sz - buf.length)) := by
  have h8 : sz ≤ 8 := by unfold IntSize at hsz; omega
  rw [ByteCodec.readBE_writeBE v h8 hlen]
  have := Nat.div_add_mod (v % 256 ^ sz) (256 ^ (sz - buf.length))
  rw [Nat.mul_comm] at this
  congr 1
  omega

example : (do let b ← ByteCodec.write .big 4 [0, 0, 0] 0x01020304; ByteCodec.read .big 4 b) =
    .ok 0x01020300 :=
  C02_byte_be_lossy (sz := 4) (by decide) [0, 0, 0] 0x01020304 (by decide)

/-- C02: a value survives the round trip exactly when it fits the integer and its bytes that do not
fit the slice, the least significant ones, are zero. -/
theorem C02_value_iff {sz : Nat} (hsz : IntSize sz) (buf : Bytes) (v : Nat) (hlen : buf.length ≤ 8) :
    (do let b ← ByteCodec.write .big sz buf v; ByteCodec.read .big sz b) = .ok v ↔
      v < 256 ^ sz ∧ 256 ^ (sz - buf.length) ∣ v := by
  rw [C02_byte_be_lossy hsz buf v hlen, Res.ok.injEq]
  have hp : 0 < 256 ^ sz := Nat.pow_pos (by decide)
  have hm := Nat.mod_lt v hp
  have hs := Nat.mod_le (v % 256 ^ sz) (256 ^ (sz - buf.length))
  constructor
  · intro h
    have hv : v < 256 ^ sz := by omega
    rw [Nat.mod_eq_of_lt hv] at h hs
    refine ⟨hv, Nat.dvd_of_mod_eq_zero ?_⟩
    omega
  · rintro ⟨hv, hd⟩
    rw [Nat.mod_eq_of_lt hv, Nat.mod_eq_zero_of_dvd hd]
    omega

example : (do let b ← ByteCodec.write .big 4 [0, 0, 0] 0x01020300; ByteCodec.read .big 4 b) =
    .ok 0x01020300 :=
  (C02_value_iff (by decide) _ _ (by decide)).2 (by decide)

/-- C02: every value that fits the slice survives exactly when the slice is at least as long as the
integer (or empty, when only 0 fits). -/
theorem C02_slice_iff {sz : Nat} (hsz : IntSize sz) (buf : Bytes) (hlen : buf.length ≤ 8) :
    (∀ v, v < 256 ^ min sz buf.length →
      (do let b ← ByteCodec.write .big sz buf v; ByteCodec.read .big sz b) = .ok v) ↔
    sz ≤ buf.length ∨ buf = [] := by
  simp only [C02_value_iff hsz buf _ hlen]
  constructor
  · intro h
    refine Classical.byContradiction fun hn => ?_
    have h0 : 0 < buf.length := by
      cases buf with
      | nil => exact absurd (.inr rfl) hn
      | cons => simp
    have h1 : buf.length < sz := by omega
    have hm : min sz buf.length = buf.length := by omega
    have h2 := (h 1 (by rw [hm]; exact Nat.one_lt_pow (by omega) (by decide))).2
    have h3 := Nat.eq_one_of_dvd_one h2
    have h4 : 1 < 256 ^ (sz - buf.length) := Nat.one_lt_pow (by omega) (by decide)
    omega
  · rintro (h | rfl) v hv
    · rw [Nat.min_eq_left h] at hv
      refine ⟨hv, ?_⟩
      have : sz - buf.length = 0 := by omega
      rw [this]
      exact ⟨v, by simp⟩
    · have : v = 0 := by simpa using hv
      subst this
      exact ⟨Nat.pow_pos (by decide), Nat.dvd_zero _⟩

example : ¬ ∀ v, v < 256 ^ min 4 ([0, 0, 0] : Bytes).length →
    (do let b ← ByteCodec.write .big 4 [0, 0, 0] v; ByteCodec.read .big 4 b) = .ok v := by
  rw [C02_slice_iff (by decide) _ (by decide)]
  simp

/-- C02: the full claim is false: 1 written as a 24-bit big-endian field reads back as 0. -/
theorem C02_full_false : ¬ C02_full := by
  intro h
  exact absurd (h 4 (by decide) [0, 0, 0] (by decide) 1 (by decide)) (by decide)

example : ByteCodec.write .big 2 [0, 0] 0x1234 = .ok [0x12, 0x34] := by decide

/-! ## C03 -/

/-- C03: a little-endian bit read returns exactly the addressed bits of the slice (bits beyond the
slice or beyond the integer's width count as zero). -/
theorem C03_bit_le_read (p : Profile) {sz off size : Nat} (hsz : IntSize sz) (buf : Bytes)
    (hlen : buf.length ≤ 8) (hoff : off < 8 * sz) (hsize : size < 64) :
    BitCodec.read p .little sz off size buf = .ok (bitsLE (buf.take sz) off size) :=
  BitCodec.readLE_ok p (by unfold IntSize at hsz; omega) (by unfold IntSize at hsz; omega) hsize
    hoff (.inl hlen)

example (p : Profile) : BitCodec.read p .little 4 3 7 [0xAB, 0xCD] = .ok (bitsLE [0xAB, 0xCD] 3 7) :=
  C03_bit_le_read p (by decide) _ (by decide) (by decide) (by decide)

/-- C03: when the range lies inside the slice and the integer, the result is the plain bit range of
the slice. -/
theorem C03_bit_le_read_fits (p : Profile) {sz off size : Nat} (hsz : IntSize sz) (buf : Bytes)
    (hlen : buf.length ≤ 8) (hsize : size < 64) (hoff : off < 8 * sz)
    (hfit : off + size ≤ 8 * sz) :
    BitCodec.read p .little sz off size buf = .ok (bitsLE buf off size) := by
  rw [C03_bit_le_read p hsz buf hlen hoff hsize]
  congr 1
  apply Nat.eq_of_testBit_eq
  intro k
  rw [testBit_bitsLE, testBit_bitsLE, bitAt_take]
  by_cases hk : k < size
  · rw [if_pos (by omega)]
  · simp [hk]

example : BitCodec.read .checked .little 2 3 7 [0b10101000, 0b00000010] = .ok 0b1010101 := by decide
example : bitsLE [0b10101000, 0b00000010] 3 7 = 0b1010101 := by decide

/-- C03: a range of 64 bits panics in a checked build. -/
theorem C03_bit_read_64 {e : Endian} {sz off : Nat} (buf : Bytes) :
    BitCodec.readAligned .checked e sz off 64 buf = .panic := by
  simp [BitCodec.readAligned, BitCodec.mask, shlU, usizeBits]

/-! ## C04 -/

/-- C04: a little-endian bit write replaces exactly the addressed bits. -/
theorem C04_bit_le_write (p : Profile) {sz off size : Nat} (hsz : IntSize sz) (buf : Bytes) (v : Nat)
    (hlen : buf.length ≤ 8) (hsize : size < 64) (hoff : off < 8 * sz)
    (hfit : off + size ≤ 8 * sz) :
    ∃ b, BitCodec.write p .little sz off size buf v = .ok b ∧ BitsReplaced buf b off size v := by
  obtain ⟨b, hb, hl, hbits⟩ := BitCodec.writeLE_ok p (buf := buf) (off := off) (size := size) v
    (by unfold IntSize at hsz; omega) (by unfold IntSize at hsz; omega) hsize hoff (.inl hlen)
  refine ⟨b, hb, hl, ?_⟩
  intro i hi
  rw [hbits i hi]
  by_cases h : off ≤ i ∧ i < off + size
  · rw [if_pos ⟨h.1, h.2, by omega⟩, if_pos h]
  · rw [if_neg (by omega), if_neg h]

example (p : Profile) : ∃ b, BitCodec.write p .little 2 3 7 [0xFF, 0xFF] 5 = .ok b ∧
    BitsReplaced [0xFF, 0xFF] b 3 7 5 :=
  C04_bit_le_write p (by decide) _ _ (by decide) (by decide) (by decide) (by decide)

/-- C04, without requiring the range to fit: addressed bits inside the integer are replaced, every
other bit is kept. -/
theorem C04_bit_le_write_any (p : Profile) {sz off size : Nat} (hsz : IntSize sz) (buf : Bytes)
    (v : Nat) (hlen : buf.length ≤ 8) (hsize : size < 64) (hoff : off < 8 * sz) :
    ∃ b, BitCodec.write p .little sz off size buf v = .ok b ∧
      BitsReplaced buf b off (min size (8 * sz - off)) v := by
  obtain ⟨b, hb, hl, hbits⟩ := BitCodec.writeLE_ok p (buf := buf) (off := off) (size := size) v
    (by unfold IntSize at hsz; omega) (by unfold IntSize at hsz; omega) hsize hoff (.inl hlen)
  refine ⟨b, hb, hl, ?_⟩
  intro i hi
  rw [hbits i hi]
  by_cases h : off ≤ i ∧ i < off + size ∧ i < 8 * sz
  · rw [if_pos h, if_pos (by omega)]
  · rw [if_neg h, if_neg (by omega)]

example (p : Profile) : ∃ b, BitCodec.write p .little 1 6 7 [0xFF] 5 = .ok b ∧
    BitsReplaced [0xFF] b 6 2 5 :=
  C04_bit_le_write_any p (by decide) _ _ (by decide) (by decide) (by decide)

/-- C04: read after write. -/
theorem C04_bit_le_write_read (p : Profile) {sz off size : Nat} (hsz : IntSize sz) (buf : Bytes)
    (v : Nat) (hlen : buf.length ≤ 8) (hsize : size < 64) (hoff : off < 8 * sz)
    (hfit : off + size ≤ 8 * sz) (hfit' : off + size ≤ 8 * buf.length) :
    (do let b ← BitCodec.write p .little sz off size buf v
        BitCodec.read p .little sz off size b) = .ok (v % 2 ^ size) := by
  obtain ⟨b, hb, hr⟩ := C04_bit_le_write p hsz buf v hlen hsize hoff hfit
  rw [hb]
  simp only [Res.bind_ok]
  rw [C03_bit_le_read_fits p hsz b (by rw [hr.1]; exact hlen) hsize hoff hfit,
    hr.bitsLE_eq hfit']

example : BitCodec.write .checked .little 1 2 3 [0xFF] 0b010 = .ok [0b11101011] := by decide

/-! ## C05 -/

/-- C05: a big-endian bit read on a slice as long as the integer, whose last byte contains the end
of the range, returns the addressed bits counted most-significant-first. -/
theorem C05_bit_be_read (p : Profile) {sz off size : Nat} (hsz : IntSize sz) (buf : Bytes)
    (hlen : buf.length = sz) (hsize : sz = size / 8 + 1) (hoff : off + size % 8 ≤ 8)
    (hpos : 0 < off + size % 8) :
    BitCodec.read p .big sz off size buf = .ok (bitsBE buf off size) := by
  have h8 : sz ≤ 8 := by unfold IntSize at hsz; omega
  obtain ⟨r, hr, hbit⟩ := BitCodec.readBE_testBit p (buf := buf) (off := off) (size := size)
    (by omega) h8 (by omega) hoff (by omega) hlen
  rw [hr]
  congr 1
  apply Nat.eq_of_testBit_eq
  intro k
  rw [hbit, testBit_bitsBE, testBit_beNat]
  by_cases hk : k < size
  · have h1 : 8 - size % 8 - off + k < 8 * List.length buf := by omega
    have h2 : 8 * List.length buf - 1 - (8 - size % 8 - off + k) = off + (size - 1 - k) := by omega
    simp [hk, h1, h2]
  · simp [hk]

example : BitCodec.read .checked .big 2 0 12 [0xAB, 0xF0] = .ok 0xABF := by decide
example : bitsBE [0xAB, 0xF0] 0 12 = 0xABF := by decide

/-! ## C06 -/

/-- C06, the full claim: a big-endian bit write replaces exactly the addressed bits. -/
def C06_full : Prop :=
  ∀ (p : Profile) (sz off size : Nat), IntSize sz → ∀ (buf : Bytes) (v : Nat), buf.length = sz →
    sz = size / 8 + 1 → 0 < size % 8 → off + size % 8 ≤ 8 →
    ∃ b, BitCodec.write p .big sz off size buf v = .ok b ∧ BitsReplacedMSB buf b off size v

/-- C06: exact behaviour of a big-endian bit write in the situation of C05.  Counting bits
most-significant-first, bit `i` keeps its old value unless it lies in the *mirrored* range
`8*sz - off - size ≤ i < 8*sz - off` (which is cleared), and the addressed bits are then or-ed with
the value. -/
theorem C06_bit_be_write_exact (p : Profile) {sz off size : Nat} (hsz : IntSize sz) (buf : Bytes)
    (v : Nat) (hlen : buf.length = sz) (hsize : sz = size / 8 + 1) (hpos : 0 < size % 8)
    (hoff : off + size % 8 ≤ 8) :
    ∃ b, BitCodec.write p .big sz off size buf v = .ok b ∧ b.length = buf.length ∧
      ∀ i, i < 8 * sz → bitAtMSB b i =
        ((bitAtMSB buf i && !decide (8 * sz - off - size ≤ i ∧ i < 8 * sz - off)) ||
         (decide (off ≤ i ∧ i < off + size) && v.testBit (off + size - 1 - i))) := by
  have h8 : sz ≤ 8 := by unfold IntSize at hsz; omega
  obtain ⟨b, hb, hl, hbit⟩ := BitCodec.writeBE_testBit p (buf := buf) (off := off) (size := size) v
    (by omega) h8 (by omega) hoff (by omega) hlen
  refine ⟨b, hb, hl, ?_⟩
  intro i hi
  have h := hbit (8 * sz - 1 - i) (by omega)
  rw [testBit_beNat, testBit_beNat, hl, hlen] at h
  have e1 : 8 * sz - 1 - i < 8 * sz := by omega
  have e2 : 8 * sz - 1 - (8 * sz - 1 - i) = i := by omega
  simp only [e1, e2, decide_true, Bool.true_and] at h
  rw [h]
  congr 1
  · congr 2
    apply Bool.eq_iff_iff.mpr
    simp only [decide_eq_true_eq]
    omega
  · have c1 : (8 - size % 8 - off ≤ 8 * sz - 1 - i ∧ 8 * sz - 1 - i < 8 - size % 8 - off + size) ↔
        (off ≤ i ∧ i < off + size) := by omega
    by_cases h3 : off ≤ i ∧ i < off + size
    · have e3 : 8 * sz - 1 - i - (8 - size % 8 - off) = off + size - 1 - i := by omega
      rw [decide_eq_true (c1.mpr h3), decide_eq_true h3, e3]
    · rw [decide_eq_false (fun h => h3 (c1.mp h)), decide_eq_false h3]; simp

/-- C06: the write replaces exactly the addressed bits when the
addressed bits and the mirrored bits outside it are zero, or when the range is symmetric. -/
theorem C06_bit_be_write (p : Profile) {sz off size : Nat} (hsz : IntSize sz) (buf : Bytes)
    (v : Nat) (hlen : buf.length = sz) (hsize : sz = size / 8 + 1) (hpos : 0 < size % 8)
    (hoff : off + size % 8 ≤ 8)
    (hok : 2 * off + size = 8 * sz ∨
      ((∀ i, off ≤ i → i < off + size → bitAtMSB buf i = false) ∧
       (∀ i, 8 * sz - off - size ≤ i → i < 8 * sz - off → bitAtMSB buf i = false))) :
    ∃ b, BitCodec.write p .big sz off size buf v = .ok b ∧ BitsReplacedMSB buf b off size v := by
  obtain ⟨b, hb, hl, hbit⟩ := C06_bit_be_write_exact p hsz buf v hlen hsize hpos hoff
  refine ⟨b, hb, hl, ?_⟩
  intro i hi
  rw [hbit i (by omega)]
  by_cases h3 : off ≤ i ∧ i < off + size
  · rw [if_pos h3]
    rcases hok with h | h
    · have : 8 * sz - off - size ≤ i ∧ i < 8 * sz - off := by omega
      simp [this, h3]
    · simp [h.1 i h3.1 h3.2, h3]
  · rw [if_neg h3]
    rcases hok with h | h
    · have : ¬ (8 * sz - off - size ≤ i ∧ i < 8 * sz - off) := by omega
      rw [decide_eq_false this, decide_eq_false h3]; simp
    · by_cases h4 : 8 * sz - off - size ≤ i ∧ i < 8 * sz - off
      · simp [h.2 i h4.1 h4.2, h3]
      · rw [decide_eq_false h4, decide_eq_false h3]; simp

example (p : Profile) : ∃ b, BitCodec.write p .big 2 2 12 [0xFF, 0xFF] 0xABC = .ok b ∧
    BitsReplacedMSB [0xFF, 0xFF] b 2 12 0xABC :=
  C06_bit_be_write p (by decide) _ _ (by decide) (by decide) (by decide) (by decide) (.inl (by decide))

/-- C06: read after write in the situations of `C06_bit_be_write`. -/
theorem C06_bit_be_write_read (p : Profile) {sz off size : Nat} (hsz : IntSize sz)
    (buf : Bytes) (v : Nat) (hlen : buf.length = sz) (hsize : sz = size / 8 + 1)
    (hpos : 0 < size % 8) (hoff : off + size % 8 ≤ 8)
    (hok : 2 * off + size = 8 * sz ∨
      ((∀ i, off ≤ i → i < off + size → bitAtMSB buf i = false) ∧
       (∀ i, 8 * sz - off - size ≤ i → i < 8 * sz - off → bitAtMSB buf i = false))) :
    (do let b ← BitCodec.write p .big sz off size buf v
        BitCodec.read p .big sz off size b) = .ok (v % 2 ^ size) := by
  obtain ⟨b, hb, hr⟩ := C06_bit_be_write p hsz buf v hlen hsize hpos hoff hok
  rw [hb]
  simp only [Res.bind_ok]
  rw [C05_bit_be_read p hsz b (by rw [hr.1]; exact hlen) hsize hoff (by omega)]
  congr 1
  apply Nat.eq_of_testBit_eq
  intro k
  rw [testBit_bitsBE, Nat.testBit_mod_two_pow]
  by_cases hk : k < size
  · rw [hr.2 _ (by omega), if_pos (by omega)]
    have : off + size - 1 - (off + (size - 1 - k)) = k := by omega
    simp [this]
  · simp [hk]

example : BitCodec.write .checked .big 2 0 12 [0, 0] 0xABF = .ok [0xAB, 0xF0] := by decide

/-- Whether bit `i` lies in `n` bits from `o` on. -/
abbrev InRange (o n i : Nat) : Prop := o ≤ i ∧ i < o + n

/-- C06: on a given slice every value is written correctly exactly when the bits in one but not both of
the addressed and the mirrored range are zero. -/
theorem C06_slice_iff (p : Profile) {sz off size : Nat} (hsz : IntSize sz) (buf : Bytes)
    (hlen : buf.length = sz) (hsize : sz = size / 8 + 1) (hpos : 0 < size % 8)
    (hoff : off + size % 8 ≤ 8) :
    (∀ v, ∃ b, BitCodec.write p .big sz off size buf v = .ok b ∧ BitsReplacedMSB buf b off size v) ↔
    ∀ i, i < 8 * sz → ¬ (InRange off size i ↔ InRange (8 * sz - off - size) size i) →
      bitAtMSB buf i = false := by
  constructor
  · intro h i hi hne
    obtain ⟨b, hb, hr⟩ := h 0
    obtain ⟨b', hb', _, hbit⟩ := C06_bit_be_write_exact p hsz buf 0 hlen hsize hpos hoff
    rw [hb] at hb'
    cases hb'
    have h1 := hbit i hi
    rw [hr.2 i (by omega)] at h1
    simp only [Nat.zero_testBit, Bool.and_false, Bool.or_false] at h1
    by_cases h2 : off ≤ i ∧ i < off + size
    · have h3 : ¬ (8 * sz - off - size ≤ i ∧ i < 8 * sz - off) := by
        intro h3
        exact hne ⟨fun _ => ⟨h3.1, by omega⟩, fun _ => h2⟩
      rw [if_pos h2, decide_eq_false h3] at h1
      simpa using h1.symm
    · have h3 : 8 * sz - off - size ≤ i ∧ i < 8 * sz - off := by
        refine Classical.byContradiction fun h3 => hne ⟨fun h => absurd h h2, fun h => ?_⟩
        exact absurd ⟨h.1, by omega⟩ h3
      rw [if_neg h2, decide_eq_true h3] at h1
      simpa using h1
  · intro h v
    obtain ⟨b, hb, hl, hbit⟩ := C06_bit_be_write_exact p hsz buf v hlen hsize hpos hoff
    refine ⟨b, hb, hl, fun i hi => ?_⟩
    have hi : i < 8 * sz := by omega
    rw [hbit i hi]
    have h0 := h i hi
    by_cases h2 : off ≤ i ∧ i < off + size <;>
      by_cases h3 : 8 * sz - off - size ≤ i ∧ i < 8 * sz - off
    · simp [h2, h3]
    · rw [h0 fun e => h3 ⟨(e.1 h2).1, by have := (e.1 h2).2; omega⟩]
      simp [h2]
    · rw [h0 fun e => h2 (e.2 ⟨h3.1, by omega⟩)]
      simp [h2]
    · rw [if_neg h2, decide_eq_false h3, decide_eq_false h2]
      simp

example (p : Profile) : ¬ ∀ v, ∃ b, BitCodec.write p .big 2 0 12 [0xFF, 0xFF] v = .ok b ∧
    BitsReplacedMSB [0xFF, 0xFF] b 0 12 v := by
  rw [C06_slice_iff p (by decide) _ (by decide) (by decide) (by decide) (by decide)]
  intro h
  exact absurd (h 0 (by decide) (by unfold InRange; omega)) (by decide)

/-- C06: every value is written correctly on every slice exactly when the field lies in the middle, so
that the mirrored range is the addressed one. -/
theorem C06_field_iff (p : Profile) {sz off size : Nat} (hsz : IntSize sz)
    (hsize : sz = size / 8 + 1) (hpos : 0 < size % 8) (hoff : off + size % 8 ≤ 8) :
    (∀ buf : Bytes, buf.length = sz → ∀ v, ∃ b, BitCodec.write p .big sz off size buf v = .ok b ∧
      BitsReplacedMSB buf b off size v) ↔ 2 * off + size = 8 * sz := by
  constructor
  · intro h
    have h1 := (C06_slice_iff p hsz (List.replicate sz 0xff) (by simp) hsize hpos hoff).1
      (h _ (by simp))
    have ones : ∀ i, i < 8 * sz → bitAtMSB (List.replicate sz 0xff) i = true := by
      intro i hi
      have : i / 8 < sz := by omega
      simp only [bitAtMSB, List.getElem?_replicate, this, if_true]
      have : i % 8 < 8 := Nat.mod_lt _ (by decide)
      generalize i % 8 = k at this
      rcases k with _ | _ | _ | _ | _ | _ | _ | _ | k
      all_goals first | decide | omega
    refine Classical.byContradiction fun hne => ?_
    have key : ∀ i, i < 8 * sz → (InRange off size i ↔ InRange (8 * sz - off - size) size i) := by
      intro i hi
      refine Classical.byContradiction fun hc => ?_
      have := h1 i hi hc
      rw [ones i hi] at this
      cases this
    have hs : 0 < size := by omega
    by_cases hc : off ≤ 8 * sz - off - size
    · have := (key off (by omega)).1 ⟨Nat.le_refl _, by omega⟩
      unfold InRange at this
      omega
    · have := (key (8 * sz - off - size) (by omega)).2 ⟨Nat.le_refl _, by omega⟩
      unfold InRange at this
      omega
  · intro h buf hlen
    rw [C06_slice_iff p hsz buf hlen hsize hpos hoff]
    intro i hi hne
    exact absurd (by unfold InRange; omega) hne

example (p : Profile) : ∀ buf : Bytes, buf.length = 2 → ∀ v, ∃ b,
    BitCodec.write p .big 2 2 12 buf v = .ok b ∧ BitsReplacedMSB buf b 2 12 v :=
  (C06_field_iff p (by decide) (by decide) (by decide) (by decide)).2 (by decide)

/-- C06: the full claim is false: overwriting the 4-bit field `1111` with 0 leaves it unchanged and
clears its neighbour instead. -/
theorem C06_full_false : ¬ C06_full := by
  intro h
  obtain ⟨b, hb, hr⟩ := h .checked 1 0 4 (by decide) [0xFF] 0 (by decide) (by decide) (by decide)
    (by decide)
  have e : BitCodec.write .checked .big 1 0 4 [0xFF] 0 = .ok [0xF0] := by decide
  rw [e] at hb
  cases hb
  exact absurd (hr.2 0 (by decide)) (by decide)

/-! ## C07 -/

/-- C07: the reported length. -/
theorem C07_array_len {bits n : Nat} (buf : Bytes) (hw : 0 < bits / 8)
    (hlen : buf.length = n * (bits / 8)) : ArrayCodec.len bits buf = .ok n := by
  rw [ArrayCodec.len, divU_ok hw, hlen, Nat.mul_div_cancel _ hw]

example : ArrayCodec.len 24 [1, 2, 3, 4, 5, 6] = .ok 2 := C07_array_len _ (by decide) (by decide)

/-- C07: item `i` of a little-endian array is the `i`-th block of bits. -/
theorem C07_array_get (p : Profile) {sz bits n i : Nat} (hsz : IntSize sz) (buf : Bytes)
    (hw8 : bits / 8 ≤ sz) (hlen : buf.length = n * (bits / 8))
    (hmem : buf.length < 2 ^ 64) (hi : i < n) :
    ArrayCodec.getRaw p .little sz bits buf i =
      .ok (bitsLE buf (8 * (bits / 8) * i) (8 * (bits / 8))) := by
  have h8 : sz ≤ 8 := by unfold IntSize at hsz; omega
  have hb : (i + 1) * (bits / 8) ≤ buf.length := by
    rw [hlen]; exact Nat.mul_le_mul_right _ hi
  rw [ArrayCodec.getRaw_eq p .little hb hmem, ByteCodec.readLE_eq h8 (.inl (by simp; omega))]
  congr 1
  apply Nat.eq_of_testBit_eq
  intro k
  rw [testBit_leNat, testBit_bitsLE, bitAt_take, bitAt_take, bitAt_drop,
    show 8 * (i * (bits / 8)) = 8 * (bits / 8) * i by
      rw [Nat.mul_comm i, Nat.mul_assoc]]
  by_cases h : k < 8 * (bits / 8)
  · rw [if_pos (by omega), if_pos h]; simp [h]
  · simp [h]

example (p : Profile) : ArrayCodec.getRaw p .little 4 24 [1, 2, 3, 4, 5, 6] 1 =
    .ok (bitsLE [1, 2, 3, 4, 5, 6] 24 24) :=
  C07_array_get p (n := 2) (by decide) _ (by decide) (by decide) (by decide) (by decide)

/-- C07: setting item `i` in a little-endian array replaces exactly the `i`-th block. -/
theorem C07_array_set (p : Profile) {sz bits n i : Nat} (hsz : IntSize sz) (buf : Bytes) (v : Nat)
    (hw8 : bits / 8 ≤ sz) (hlen : buf.length = n * (bits / 8))
    (hmem : buf.length < 2 ^ 64) (hi : i < n) :
    ∃ b, ArrayCodec.setRaw p .little sz bits buf i v = .ok b ∧
      BitsReplaced buf b (8 * (bits / 8) * i) (8 * (bits / 8)) v := by
  have h8 : sz ≤ 8 := by unfold IntSize at hsz; omega
  have hb : (i + 1) * (bits / 8) ≤ buf.length := by
    rw [hlen]; exact Nat.mul_le_mul_right _ hi
  rw [ArrayCodec.setRaw_eq p .little v hb hmem,
    ByteCodec.writeLE_eq v h8 (.inl (by simp; omega))]
  rw [Nat.succ_mul] at hb
  have hs : ((buf.drop (i * (bits / 8))).take (bits / 8)).length = bits / 8 := by simp; omega
  rw [hs, List.drop_eq_nil_of_le (by omega), List.append_nil]
  have hs2 : ((natLe sz v).take (bits / 8)).length = bits / 8 := by simp; omega
  refine ⟨_, rfl, splice_length (by omega), ?_⟩
  intro j hj
  rw [bitAt_splice (by omega), hs2, bitAt_take, bitAt_natLe]
  have e : 8 * (bits / 8) * i = 8 * (i * (bits / 8)) := by rw [Nat.mul_comm i, Nat.mul_assoc]
  rw [e]
  by_cases h : 8 * (i * (bits / 8)) ≤ j ∧ j < 8 * (i * (bits / 8)) + 8 * (bits / 8)
  · rw [if_pos (by omega), if_pos h, if_pos (by omega)]
    have : j - 8 * (i * (bits / 8)) < 8 * sz := by omega
    simp [this]
  · rw [if_neg (by omega), if_neg h]

example (p : Profile) : ∃ b, ArrayCodec.setRaw p .little 4 24 [1, 2, 3, 4, 5, 6] 1 7 = .ok b ∧
    BitsReplaced [1, 2, 3, 4, 5, 6] b 24 24 7 :=
  C07_array_set p (n := 2) (by decide) _ _ (by decide) (by decide) (by decide) (by decide)

theorem C07_block_disjoint {w i j : Nat} (h : i ≠ j) :
    w * j + w ≤ w * i ∨ w * i + w ≤ w * j := by
  rcases Nat.lt_or_gt_of_ne h with h | h
  · right
    have := Nat.mul_le_mul_left w h
    rw [Nat.mul_succ] at this
    exact this
  · left
    have := Nat.mul_le_mul_left w h
    rw [Nat.mul_succ] at this
    exact this

example : 3 * 1 + 3 ≤ 3 * 2 ∨ 3 * 2 + 3 ≤ 3 * 1 := C07_block_disjoint (by decide)

/-- C07: set then get. -/
theorem C07_array_set_get (p : Profile) {sz bits n i j : Nat} (hsz : IntSize sz) (buf : Bytes)
    (v : Nat) (hw8 : bits / 8 ≤ sz)
    (hlen : buf.length = n * (bits / 8)) (hmem : buf.length < 2 ^ 64) (hi : i < n) (hj : j < n) :
    (do let b ← ArrayCodec.setRaw p .little sz bits buf i v
        ArrayCodec.getRaw p .little sz bits b j) =
      if i = j then .ok (v % 256 ^ (bits / 8))
      else ArrayCodec.getRaw p .little sz bits buf j := by
  obtain ⟨b, hb, hr⟩ := C07_array_set p hsz buf v hw8 hlen hmem hi
  rw [hb]
  simp only [Res.bind_ok]
  rw [C07_array_get p hsz b hw8 (by rw [hr.1, hlen]) (by rw [hr.1]; exact hmem) hj]
  split
  · next h =>
    subst h
    rw [hr.bitsLE_eq, pow256]
    rw [hlen, Nat.mul_assoc, ← Nat.mul_add 8, ← Nat.mul_succ]
    rw [Nat.mul_comm n]
    exact Nat.mul_le_mul_left _ (Nat.mul_le_mul_left _ hi)
  · next h =>
    rw [C07_array_get p hsz buf hw8 hlen hmem hj,
      hr.bitsLE_disjoint (C07_block_disjoint h)]

example (p : Profile) : (do let b ← ArrayCodec.setRaw p .little 4 24 [1, 2, 3, 4, 5, 6] 1 0x01020304
                            ArrayCodec.getRaw p .little 4 24 b 1) = .ok 0x020304 :=
  (C07_array_set_get p (n := 2) (by decide) _ _ (by decide) (by decide) (by decide) (by decide)
    (by decide)).trans (if_pos rfl)

/-- C07: in either byte order, setting item `i` leaves every other item as it was. -/
theorem C07_array_set_frame (p : Profile) (e : Endian) {sz bits n i j : Nat} (hsz : IntSize sz)
    (buf : Bytes) (v : Nat) (hw8 : bits / 8 ≤ sz)
    (hlen : buf.length = n * (bits / 8)) (hmem : buf.length < 2 ^ 64) (hi : i < n) (hj : j < n)
    (hij : i ≠ j) :
    ∃ b, ArrayCodec.setRaw p e sz bits buf i v = .ok b ∧ b.length = buf.length ∧
      ArrayCodec.getRaw p e sz bits b j = ArrayCodec.getRaw p e sz bits buf j := by
  have h8 : sz ≤ 8 := by unfold IntSize at hsz; omega
  have hbi : (i + 1) * (bits / 8) ≤ buf.length := by
    rw [hlen]; exact Nat.mul_le_mul_right _ hi
  have hbj : (j + 1) * (bits / 8) ≤ buf.length := by
    rw [hlen]; exact Nat.mul_le_mul_right _ hj
  have hs : ((buf.drop (i * (bits / 8))).take (bits / 8)).length = bits / 8 := by
    rw [Nat.succ_mul] at hbi; simp; omega
  obtain ⟨s, hsw, hsl⟩ := ByteCodec.write_ok e (sz := sz)
    (buf := (buf.drop (i * (bits / 8))).take (bits / 8)) v h8 (by omega)
  rw [ArrayCodec.setRaw_eq p e v hbi hmem, hsw]
  have hsplit : i * (bits / 8) + s.length ≤ buf.length := by
    rw [hsl, hs]; rw [Nat.succ_mul] at hbi; exact hbi
  refine ⟨_, rfl, splice_length hsplit, ?_⟩
  rw [ArrayCodec.getRaw_eq p e (by rw [splice_length hsplit]; exact hbj)
    (by rw [splice_length hsplit]; exact hmem), ArrayCodec.getRaw_eq p e hbj hmem,
    ArrayCodec.splice_window_other hsplit]
  rw [hsl, hs]
  have := C07_block_disjoint (w := bits / 8) hij
  rw [Nat.mul_comm i, Nat.mul_comm j]
  exact this

example (p : Profile) (e : Endian) : ∃ b, ArrayCodec.setRaw p e 4 24 [1, 2, 3, 4, 5, 6] 1 7 = .ok b ∧
    b.length = 6 ∧
    ArrayCodec.getRaw p e 4 24 b 0 = ArrayCodec.getRaw p e 4 24 [1, 2, 3, 4, 5, 6] 0 :=
  C07_array_set_frame p e (n := 2) (by decide) _ _ (by decide) (by decide) (by decide) (by decide)
    (by decide) (by decide)

/-- C07: a big-endian array whose item width is the integer's width also reads back what was set. -/
theorem C07_array_set_get_be (p : Profile) {sz bits n i : Nat} (hsz : IntSize sz) (buf : Bytes)
    (v : Nat) (hw : bits / 8 = sz) (hlen : buf.length = n * (bits / 8)) (hmem : buf.length < 2 ^ 64)
    (hi : i < n) :
    (do let b ← ArrayCodec.setRaw p .big sz bits buf i v
        ArrayCodec.getRaw p .big sz bits b i) = .ok (v % 256 ^ sz) := by
  have h8 : sz ≤ 8 := by unfold IntSize at hsz; omega
  have hbi : (i + 1) * (bits / 8) ≤ buf.length := by
    rw [hlen]; exact Nat.mul_le_mul_right _ hi
  have hs : ((buf.drop (i * (bits / 8))).take (bits / 8)).length = bits / 8 := by
    rw [Nat.succ_mul] at hbi; simp; omega
  obtain ⟨s, hsw, hsl⟩ := ByteCodec.write_ok .big (sz := sz)
    (buf := (buf.drop (i * (bits / 8))).take (bits / 8)) v h8 (by omega)
  have hrw := ByteCodec.readBE_writeBE (sz := sz)
    (buf := (buf.drop (i * (bits / 8))).take (bits / 8)) v h8 (by omega)
  rw [ArrayCodec.setRaw_eq p .big v hbi hmem, hsw]
  rw [hsw] at hrw
  have hsplit : i * (bits / 8) + s.length ≤ buf.length := by
    rw [hsl, hs]; rw [Nat.succ_mul] at hbi; exact hbi
  have e0 : sz - bits / 8 = 0 := by omega
  simp only [Res.bind_ok, Res.pure_eq, hs, e0, Nat.pow_zero, Nat.div_one, Nat.mul_one] at hrw ⊢
  rw [ArrayCodec.getRaw_eq p .big (by rw [splice_length hsplit]; exact hbi)
    (by rw [splice_length hsplit]; exact hmem)]
  have hsl' : bits / 8 = s.length := by rw [hsl, hs]
  have := ArrayCodec.splice_window_same hsplit
  rw [← hsl'] at this
  rw [this, hrw]

example (p : Profile) : (do let b ← ArrayCodec.setRaw p .big 2 16 [1, 2, 3, 4] 1 0x0506
                            ArrayCodec.getRaw p .big 2 16 b 1) = .ok 0x0506 :=
  C07_array_set_get_be p (n := 2) (by decide) _ _ (by decide) (by decide) (by decide) (by decide)

/-- C07: iterating yields exactly the items `0 .. n-1`, in order. -/
theorem C07_array_iter (p : Profile) (e : Endian) {sz bits n : Nat} (hsz : IntSize sz) (buf : Bytes)
    (hw : 0 < bits / 8) (hw8 : bits / 8 ≤ 8) (hlen : buf.length = n * (bits / 8))
    (hmem : buf.length < 2 ^ 64) :
    ∃ l, ArrayCodec.iterRaw e sz bits buf = .ok l ∧ l.length = n ∧
      ∀ i, (h : i < l.length) → ArrayCodec.getRaw p e sz bits buf i = .ok l[i] := by
  have h8 : sz ≤ 8 := by unfold IntSize at hsz; omega
  have hn : n ≤ buf.length := by rw [hlen]; exact Nat.le_mul_of_pos_right n hw
  have hread : ∀ b : Bytes, b.length ≤ 8 → ∃ v, ByteCodec.read e sz b = .ok v :=
    fun b hb => ByteCodec.read_ok e h8 hb
  let g : Bytes → Nat := fun b => match ByteCodec.read e sz b with | .ok v => v | _ => 0
  have hg : ∀ b : Bytes, b.length ≤ 8 → ByteCodec.read e sz b = .ok (g b) := by
    intro b hb
    obtain ⟨v, hv⟩ := hread b hb
    simp only [g, hv]
  refine ⟨((List.range n).map (fun i => (buf.drop (i * (bits / 8))).take (bits / 8))).map g,
    ?_, by simp, ?_⟩
  · unfold ArrayCodec.iterRaw ArrayCodec.chunks
    rw [if_neg (by omega), ArrayCodec.chunksAux_eq hw n _ _ hlen hn]
    simp only [Res.bind_ok]
    apply ArrayCodec.mapM_ok
    intro b hb
    obtain ⟨i, _, rfl⟩ := List.mem_map.mp hb
    exact hg _ (by simp; omega)
  · intro i hi
    have hin : i < n := by simpa using hi
    rw [ArrayCodec.getRaw_eq p e (by rw [hlen]; exact Nat.mul_le_mul_right _ hin) hmem]
    simp only [List.getElem_map, List.getElem_range]
    exact hg _ (by simp; omega)

example (p : Profile) (e : Endian) : ∃ l, ArrayCodec.iterRaw e 2 16 [1, 2, 3, 4] = .ok l ∧
    l.length = 2 ∧
    ∀ i, (h : i < l.length) → ArrayCodec.getRaw p e 2 16 [1, 2, 3, 4] i = .ok l[i] :=
  C07_array_iter p e (by decide) _ (by decide) (by decide) (by decide) (by decide)

/-- C07: an index at or beyond the length panics (in a wrapping build: as long as its byte position
is representable), for getting and for setting. -/
theorem C07_array_out_of_range (p : Profile) (e : Endian) {sz bits n i : Nat} (buf : Bytes) (v : Nat)
    (hlen : buf.length = n * (bits / 8)) (hw : 0 < bits / 8) (hi : n ≤ i)
    (hrep : p = .checked ∨ (i + 1) * (bits / 8) < 2 ^ 64) :
    ArrayCodec.getRaw p e sz bits buf i = .panic ∧
    ArrayCodec.setRaw p e sz bits buf i v = .panic := by
  by_cases hs : (i + 1) * (bits / 8) < 2 ^ 64
  · unfold ArrayCodec.getRaw ArrayCodec.setRaw
    rw [ArrayCodec.range_ok p hs]
    simp only [Res.bind_ok]
    have : ¬ i * (bits / 8) + bits / 8 ≤ buf.length := by
      have := Nat.mul_le_mul_right (bits / 8) hi
      omega
    simp [slice, this]
  · rcases hrep with rfl | h
    · rw [Nat.succ_mul] at hs
      have : (ArrayCodec.range .checked bits i) = .panic := by
        unfold ArrayCodec.range usizeBits
        by_cases hm : i * (bits / 8) < 2 ^ 64
        · simp only [mulU_ok .checked hm, Res.bind_ok]
          simp [addU, hs]
        · simp [mulU, hm]
      unfold ArrayCodec.getRaw ArrayCodec.setRaw
      simp [this]
    · exact absurd h hs

example (p : Profile) (e : Endian) : ArrayCodec.getRaw p e 2 16 [1, 2, 3, 4] 2 = .panic :=
  (C07_array_out_of_range p e (n := 2) _ 0 (by decide) (by decide) (by decide) (.inr (by decide))).1

/-- C07: in a wrapping build the byte position of a huge index can wrap around, and the access then
silently hits item 0. -/
theorem C07_array_wrapping_index :
    ArrayCodec.getRaw .wrapping .little 8 64 [1, 0, 0, 0, 0, 0, 0, 0] (2 ^ 61) = .ok 1 := by decide

/-- C07: items narrower than a byte make the length query panic (division by zero). -/
theorem C07_array_sub_byte_items {bits : Nat} (h : bits < 8) (buf : Bytes) :
    ArrayCodec.len bits buf = .panic := by
  have : bits / 8 = 0 := by omega
  simp [ArrayCodec.len, divU, this]

/-- Applying a sequence of `set` calls. -/
def arraySets (p : Profile) (sz bits : Nat) : Bytes → List (Nat × Nat) → R Bytes
  | buf, [] => .ok buf
  | buf, (i, v) :: rest => do
    let b ← ArrayCodec.setRaw p .little sz bits buf i v
    arraySets p sz bits b rest

/-- What an ideal array would contain at `j` after the sets, starting from `init`. -/
def idealArray (w : Nat) (init : Nat → Nat) : List (Nat × Nat) → Nat → Nat
  | [], j => init j
  | (i, v) :: rest, j => idealArray w (fun k => if k = i then v % 256 ^ w else init k) rest j

/-- C07: after any sequence of in-range sets, every item reads as in an ideal array. -/
theorem C07_array_history (p : Profile) {sz bits n : Nat} (hsz : IntSize sz)
    (hw8 : bits / 8 ≤ sz) (sets : List (Nat × Nat)) (hin : ∀ s ∈ sets, s.1 < n) :
    ∀ (buf : Bytes) (init : Nat → Nat), buf.length = n * (bits / 8) → buf.length < 2 ^ 64 →
      (∀ j, j < n → ArrayCodec.getRaw p .little sz bits buf j = .ok (init j)) →
      ∃ b, arraySets p sz bits buf sets = .ok b ∧ b.length = buf.length ∧
        ∀ j, j < n →
          ArrayCodec.getRaw p .little sz bits b j = .ok (idealArray (bits / 8) init sets j) := by
  induction sets with
  | nil => intro buf init _ _ hi; exact ⟨buf, rfl, rfl, hi⟩
  | cons s rest ih =>
    intro buf init hlen hmem hi
    obtain ⟨i, v⟩ := s
    have hin' : i < n := hin (i, v) (by simp)
    obtain ⟨b, hb, hr⟩ := C07_array_set p hsz buf v hw8 hlen hmem hin'
    have hstep : ∀ j, j < n → ArrayCodec.getRaw p .little sz bits b j =
        .ok ((fun k => if k = i then v % 256 ^ (bits / 8) else init k) j) := by
      intro j hj
      have := C07_array_set_get p hsz buf v hw8 hlen hmem hin' hj
      rw [hb] at this
      simp only [Res.bind_ok] at this
      rw [this, hi j hj]
      by_cases h : i = j
      · simp [h]
      · simp [h, Ne.symm h]
    obtain ⟨b', hb', hl', hget⟩ := ih (fun s hs => hin s (by simp [hs])) b _
      (by rw [hr.1, hlen]) (by rw [hr.1]; exact hmem) hstep
    refine ⟨b', ?_, by rw [hl', hr.1], hget⟩
    simp only [arraySets, hb, Res.bind_ok, hb']

example : arraySets .checked 4 24 [0, 0, 0, 0, 0, 0] [(0, 5), (1, 0x010203), (0, 7)] =
    .ok [7, 0, 0, 3, 2, 1] := by decide

end Proto.Props
