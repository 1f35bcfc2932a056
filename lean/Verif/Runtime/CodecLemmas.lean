import Verif.Runtime.Codec
import Verif.Spec.Bits

/-! # Lemmas about the codecs -/

namespace Proto

open Spec

theorem pow256 (n : Nat) : (256 : Nat) ^ n = 2 ^ (8 * n) := by rw [Nat.pow_mul]

theorem pad8_ok {buf : Bytes} (h : buf.length ≤ 8) :
    pad8 buf = .ok (buf ++ List.replicate (8 - buf.length) 0) := by simp [pad8, h]

theorem pad8_length {buf d : Bytes} (h : pad8 buf = .ok d) : d.length = 8 := by
  unfold pad8 at h
  split at h
  · cases h; simp; omega
  · cases h

theorem pad8_take {buf : Bytes} (n : Nat) :
    bitAt (buf ++ List.replicate n 0) i = bitAt buf i := by
  rw [bitAt_append]
  split
  · rfl
  · next h => rw [bitAt_replicate_zero, bitAt_of_le (by omega)]

namespace ByteCodec

theorem readLE_eq {sz : Nat} {buf : Bytes} (hsz : sz ≤ 8) (hlen : buf.length ≤ 8 ∨ buf.length = sz) :
    read .little sz buf = .ok (leNat (buf.take sz)) := by
  have h8 : buf.length ≤ 8 := by omega
  unfold read
  by_cases h : sz = buf.length
  · simp [h, readAligned, readBytes]
  · rw [if_pos h]
    simp only [readUnaligned, pad8_ok h8, Res.bind_ok, readAligned, readBytes]
    rw [if_pos (by simp; omega)]
    congr 1
    apply Nat.eq_of_testBit_eq
    intro i
    rw [testBit_leNat, testBit_leNat, bitAt_take, bitAt_take, pad8_take]

theorem writeLE_eq {sz : Nat} {buf : Bytes} (v : Nat) (hsz : sz ≤ 8)
    (hlen : buf.length ≤ 8 ∨ buf.length = sz) :
    write .little sz buf v = .ok ((natLe sz v).take buf.length ++ buf.drop sz) := by
  have h8 : buf.length ≤ 8 := by omega
  unfold write
  by_cases h : sz = buf.length
  · subst h
    simp [writeAligned, writeBytes, List.take_of_length_le]
  · rw [if_pos h]
    simp only [writeUnaligned, pad8_ok h8, Res.bind_ok, writeAligned, writeBytes]
    rw [if_pos (by simp; omega)]
    simp only [Res.bind_ok]
    rw [slice_ok (by omega) (by simp; omega)]
    congr 1
    simp only [List.drop_zero, Nat.sub_zero]
    by_cases h2 : sz ≤ buf.length
    · rw [List.take_append, natLe_length]
      congr 1
      rw [List.drop_append, List.take_append, List.take_of_length_le (by simp)]
      simp
    · rw [List.take_append_of_le_length (by simp; omega), List.drop_eq_nil_of_le (by omega)]
      simp

end ByteCodec

namespace BitCodec

theorem mask_ok (p : Profile) {size : Nat} (h : size < 64) : mask p size = .ok (2 ^ size - 1) := by
  have hlt : (2 : Nat) ^ size < 2 ^ 64 := Nat.pow_lt_pow_right (by omega) h
  have hpos := Nat.two_pow_pos size
  simp only [mask, usizeBits, shlU_ok p h, Res.bind_ok, Nat.one_shiftLeft, Nat.mod_eq_of_lt hlt]
  rw [subU_ok p (by omega)]

theorem testBit_mask (size i : Nat) : (2 ^ size - 1).testBit i = decide (i < size) :=
  Nat.testBit_two_pow_sub_one size i

theorem beShift_ok (p : Profile) {off size : Nat} (h : off + size % 8 ≤ 8) :
    beShift p off size = .ok (8 - size % 8 - off) := by
  simp only [beShift]
  rw [subU_ok p (by omega)]
  simp only [Res.bind_ok]
  rw [subU_ok p (by omega)]

theorem fromUsize_small {sz n : Nat} (hsz : 0 < sz) (h : n < 256) : fromUsize sz n = n := by
  unfold fromUsize
  apply Nat.mod_eq_of_lt
  exact Nat.lt_of_lt_of_le h (Nat.le_self_pow (by omega) 256)

theorem testBit_fromUsize (sz n i : Nat) :
    (fromUsize sz n).testBit i = (decide (i < 8 * sz) && n.testBit i) := by
  rw [fromUsize, pow256, Nat.testBit_mod_two_pow]

/-- Bits of an aligned or unaligned read, for either byte order, given the value `raw` the byte
order assigns to the first `sz` bytes. -/
theorem readAligned_testBit (p : Profile) (e : Endian) {sz off size sh raw : Nat} {buf : Bytes}
    (hsz : 0 < sz) (hsz8 : sz ≤ 8) (hsize : size < 64) (hraw : readBytes e sz buf = .ok raw)
    (hrawlt : raw < 2 ^ (8 * sz))
    (hsh : shiftAmount p e off size = .ok sh) (hshlt : sh < 8 * sz) :
    ∃ r, readAligned p e sz off size buf = .ok r ∧
      ∀ k, r.testBit k = (decide (k < size) && raw.testBit (sh + k)) := by
  refine ⟨(raw >>> sh) &&& fromUsize sz (2 ^ size - 1), ?_, ?_⟩
  · simp only [readAligned, mask_ok p hsize, hraw, hsh, Res.bind_ok]
    rw [fromUsize_small hsz (by omega), shrU_ok p hshlt]
    rfl
  · intro k
    rw [Nat.testBit_and, Nat.testBit_shiftRight, testBit_fromUsize, testBit_mask]
    by_cases hk : k < size
    · by_cases hk8 : k < 8 * sz
      · simp [hk, hk8]
      · have : raw.testBit (sh + k) = false :=
          Nat.testBit_lt_two_pow (Nat.lt_of_lt_of_le hrawlt
            (Nat.pow_le_pow_right (by omega) (by omega)))
        simp [this]
    · simp [hk]

/-- Bits of the integer stored by an aligned write, for either byte order. -/
theorem writeAligned_testBit (p : Profile) (e : Endian) {sz off size sh raw : Nat} {buf : Bytes}
    (v : Nat) (hsz : 0 < sz) (hsz8 : sz ≤ 8) (hsize : size < 64) (hoff : off < 64)
    (hraw : readBytes e sz buf = .ok raw)
    (hsh : shiftAmount p e off size = .ok sh) (hshlt : sh < 8 * sz) :
    ∃ r, writeAligned p e sz off size buf v = writeBytes e sz buf r ∧
      ∀ i, i < 8 * sz → r.testBit i =
        ((raw.testBit i && !decide (off ≤ i ∧ i < off + size)) ||
         (decide (sh ≤ i ∧ i < sh + size) && v.testBit (i - sh))) := by
  refine ⟨(raw &&& fromUsize sz (notU 64 (((2 ^ size - 1) <<< off) % 2 ^ 64))) |||
    (((v &&& fromUsize sz (2 ^ size - 1)) <<< sh) % 2 ^ (8 * sz)), ?_, ?_⟩
  · simp only [writeAligned, mask_ok p hsize, hraw, hsh, Res.bind_ok, usizeBits]
    rw [shlU_ok p hoff]
    simp only [Res.bind_ok]
    rw [fromUsize_small (n := sh) hsz (by omega), shlU_ok p hshlt]
    rfl
  · intro i hi
    have hi64 : i < 64 := by omega
    rw [Nat.testBit_or, Nat.testBit_and, testBit_fromUsize, testBit_notU hi64,
      Nat.testBit_mod_two_pow, Nat.testBit_mod_two_pow, Nat.testBit_shiftLeft,
      Nat.testBit_shiftLeft, testBit_mask, Nat.testBit_and, testBit_fromUsize, testBit_mask]
    congr 1
    · simp only [hi, hi64, decide_true, Bool.true_and]
      congr 2
      by_cases h1 : off ≤ i
      · by_cases h2 : i < off + size
        · have : i - off < size := by omega
          simp [h1, h2, this]
        · have : ¬ i - off < size := by omega
          simp [h2, this]
      · simp [h1]
    · simp only [hi, decide_true, Bool.true_and, ge_iff_le]
      by_cases h1 : sh ≤ i
      · have h3 : i - sh < 8 * sz := by omega
        by_cases h2 : i < sh + size
        · have : i - sh < size := by omega
          simp [h1, h2, this, h3]
        · have : ¬ i - sh < size := by omega
          simp [h2, this]
      · simp [h1]

theorem readLE_ok (p : Profile) {sz off size : Nat} {buf : Bytes} (hsz : 0 < sz) (hsz8 : sz ≤ 8)
    (hsize : size < 64) (hoff : off < 8 * sz) (hlen : buf.length ≤ 8 ∨ buf.length = sz) :
    read p .little sz off size buf = .ok (bitsLE (buf.take sz) off size) := by
  have h8 : buf.length ≤ 8 := by omega
  have key : ∀ b : Bytes, sz ≤ b.length → (∀ i, bitAt b i = bitAt buf i) →
      readAligned p .little sz off size b = .ok (bitsLE (buf.take sz) off size) := by
    intro b hb hbits
    have hraw : readBytes .little sz b = .ok (leNat (b.take sz)) := by simp [readBytes, hb]
    have hlt : leNat (b.take sz) < 2 ^ (8 * sz) := by
      have := leNat_lt (b.take sz)
      rw [pow256] at this
      simpa [Nat.min_eq_left hb] using this
    obtain ⟨r, hr, hbit⟩ := readAligned_testBit p .little (off := off) (size := size) hsz hsz8 hsize
      hraw hlt rfl hoff
    rw [hr]
    congr 1
    apply Nat.eq_of_testBit_eq
    intro k
    rw [hbit, testBit_bitsLE, testBit_leNat, bitAt_take, bitAt_take, hbits]
  unfold read
  by_cases h : sz = buf.length
  · rw [if_neg (by simpa using h)]
    exact key buf (by omega) (fun _ => rfl)
  · rw [if_pos h]
    simp only [readUnaligned, pad8_ok h8, Res.bind_ok]
    exact key _ (by simp; omega) (fun i => pad8_take _)

/-- Full description of a little-endian bit write: bits in the range and inside the integer are
replaced, all others kept. -/
theorem writeLE_ok (p : Profile) {sz off size : Nat} {buf : Bytes} (v : Nat) (hsz : 0 < sz)
    (hsz8 : sz ≤ 8) (hsize : size < 64) (hoff : off < 8 * sz)
    (hlen : buf.length ≤ 8 ∨ buf.length = sz) :
    ∃ b, write p .little sz off size buf v = .ok b ∧ b.length = buf.length ∧
      ∀ i, i < 8 * buf.length →
        bitAt b i = if off ≤ i ∧ i < off + size ∧ i < 8 * sz then v.testBit (i - off)
          else bitAt buf i := by
  have h8 : buf.length ≤ 8 := by omega
  have key : ∀ b : Bytes, sz ≤ b.length → ∃ b', writeAligned p .little sz off size b v = .ok b' ∧
      b'.length = b.length ∧ ∀ i, i < 8 * b.length →
        bitAt b' i = if off ≤ i ∧ i < off + size ∧ i < 8 * sz then v.testBit (i - off)
          else bitAt b i := by
    intro b hb
    have hraw : readBytes .little sz b = .ok (leNat (b.take sz)) := by simp [readBytes, hb]
    obtain ⟨r, hr, hbit⟩ := writeAligned_testBit p .little (off := off) (size := size) v hsz hsz8
      hsize (by omega) hraw rfl hoff
    refine ⟨natLe sz r ++ b.drop sz, ?_, by simp; omega, ?_⟩
    · rw [hr]; simp [writeBytes, hb]
    · intro i hi
      rw [bitAt_append, natLe_length, bitAt_drop, bitAt_natLe]
      by_cases h1 : i < 8 * sz
      · rw [if_pos h1, hbit i h1, testBit_leNat, bitAt_take, if_pos h1]
        by_cases h2 : off ≤ i ∧ i < off + size
        · rw [if_pos ⟨h2.1, h2.2, h1⟩]
          simp [h1, h2]
        · rw [if_neg (by omega)]
          simp [h1, h2]
      · rw [if_neg h1, if_neg (by omega)]
        congr 1; omega
  unfold write
  by_cases h : sz = buf.length
  · rw [if_neg (by simpa using h)]
    exact key buf (by omega)
  · rw [if_pos h]
    simp only [writeUnaligned, pad8_ok h8, Res.bind_ok]
    obtain ⟨b', hb', hl, hbits⟩ := key (buf ++ List.replicate (8 - buf.length) 0) (by simp; omega)
    rw [hb']
    simp only [Res.bind_ok]
    have hl8 : b'.length = 8 := by rw [hl]; simp; omega
    rw [slice_ok (by omega) (by omega)]
    refine ⟨_, rfl, by simp; omega, ?_⟩
    intro i hi
    rw [List.drop_zero, Nat.sub_zero, bitAt_take, if_pos hi, hbits i (by simp; omega), pad8_take]

/-- Bits of a big-endian read on a slice as long as the integer. -/
theorem readBE_testBit (p : Profile) {sz off size : Nat} {buf : Bytes} (hsz : 0 < sz)
    (hsz8 : sz ≤ 8) (hsize : size < 64) (hoff : off + size % 8 ≤ 8)
    (hsh : 8 - size % 8 - off < 8 * sz) (hlen : buf.length = sz) :
    ∃ r, read p .big sz off size buf = .ok r ∧
      ∀ k, r.testBit k = (decide (k < size) && (beNat buf).testBit (8 - size % 8 - off + k)) := by
  have hraw : readBytes .big sz buf = .ok (beNat buf) := by
    simp [readBytes, hlen, List.take_of_length_le]
  have hlt : beNat buf < 2 ^ (8 * sz) := by
    have := beNat_lt buf
    rwa [pow256, hlen] at this
  obtain ⟨r, hr, hbit⟩ := readAligned_testBit p .big (off := off) (size := size) hsz hsz8 hsize
    hraw hlt (beShift_ok p hoff) hsh
  refine ⟨r, ?_, hbit⟩
  unfold read
  rw [if_neg (by simp [hlen]), hr]

/-- Bits (of the big-endian value) after a big-endian write on a slice as long as the integer. -/
theorem writeBE_testBit (p : Profile) {sz off size : Nat} {buf : Bytes} (v : Nat) (hsz : 0 < sz)
    (hsz8 : sz ≤ 8) (hsize : size < 64) (hoff : off + size % 8 ≤ 8)
    (hsh : 8 - size % 8 - off < 8 * sz) (hlen : buf.length = sz) :
    ∃ b, write p .big sz off size buf v = .ok b ∧ b.length = buf.length ∧
      ∀ i, i < 8 * sz → (beNat b).testBit i =
        (((beNat buf).testBit i && !decide (off ≤ i ∧ i < off + size)) ||
         (decide (8 - size % 8 - off ≤ i ∧ i < 8 - size % 8 - off + size) &&
            v.testBit (i - (8 - size % 8 - off)))) := by
  have hraw : readBytes .big sz buf = .ok (beNat buf) := by
    simp [readBytes, hlen, List.take_of_length_le]
  obtain ⟨r, hr, hbit⟩ := writeAligned_testBit p .big (off := off) (size := size) v hsz hsz8 hsize
    (by omega) hraw (beShift_ok p hoff) hsh
  refine ⟨natBe sz r, ?_, by simp [hlen], ?_⟩
  · unfold write
    rw [if_neg (by simp [hlen]), hr]
    simp [writeBytes, hlen, List.drop_eq_nil_of_le]
  · intro i hi
    rw [beNat_natBe, pow256, Nat.testBit_mod_two_pow, hbit i hi]
    simp [hi]

end BitCodec

theorem natLe_drop (n v k : Nat) : (natLe n v).drop k = natLe (n - k) (v / 256 ^ k) := by
  induction k generalizing n v with
  | zero => simp
  | succ k ih =>
    cases n with
    | zero => simp [natLe]
    | succ n =>
      rw [natLe, List.drop_succ_cons, ih, Nat.succ_sub_succ, Nat.div_div_eq_div_mul, Nat.pow_succ,
        Nat.mul_comm 256]

namespace ByteCodec

theorem readBE_eq {sz : Nat} {buf : Bytes} (hsz : sz ≤ 8) (hlen : buf.length ≤ 8) :
    read .big sz buf = .ok (beNat (buf.take sz) * 256 ^ (sz - buf.length)) := by
  unfold read
  by_cases h : sz = buf.length
  · simp [h, readAligned, readBytes]
  · rw [if_pos h]
    simp only [readUnaligned, pad8_ok hlen, Res.bind_ok, readAligned, readBytes]
    rw [if_pos (by simp; omega)]
    congr 1
    rw [List.take_append, List.take_replicate]
    simp only [beNat, List.reverse_append, List.reverse_replicate]
    rw [leNat_append, leNat_replicate_zero, Nat.zero_add, List.length_replicate,
      Nat.min_eq_left (by omega), Nat.mul_comm]

theorem writeBE_eq {sz : Nat} {buf : Bytes} (v : Nat) (hsz : sz ≤ 8) (hlen : buf.length ≤ 8) :
    write .big sz buf v = .ok ((natBe sz v).take buf.length ++ buf.drop sz) := by
  unfold write
  by_cases h : sz = buf.length
  · subst h
    simp [writeAligned, writeBytes, List.take_of_length_le]
  · rw [if_pos h]
    simp only [writeUnaligned, pad8_ok hlen, Res.bind_ok, writeAligned, writeBytes]
    rw [if_pos (by simp; omega)]
    simp only [Res.bind_ok]
    rw [slice_ok (by omega) (by simp; omega)]
    congr 1
    simp only [List.drop_zero, Nat.sub_zero]
    by_cases h2 : sz ≤ buf.length
    · rw [List.take_append, natBe_length]
      congr 1
      rw [List.drop_append, List.take_append, List.take_of_length_le (by simp)]
      simp
    · rw [List.take_append_of_le_length (by simp; omega), List.drop_eq_nil_of_le (by omega)]
      simp

/-- Big-endian read after write: the `sz - len` low bytes of the value are lost. -/
theorem readBE_writeBE {sz : Nat} {buf : Bytes} (v : Nat) (hsz : sz ≤ 8) (hlen : buf.length ≤ 8) :
    (do let b ← write .big sz buf v; read .big sz b) =
      .ok (v % 256 ^ sz / 256 ^ (sz - buf.length) * 256 ^ (sz - buf.length)) := by
  rw [writeBE_eq v hsz hlen]
  simp only [Res.bind_ok]
  have hl : ((natBe sz v).take buf.length ++ buf.drop sz).length = buf.length := by simp; omega
  rw [readBE_eq hsz (by omega), hl]
  congr 2
  have ht : ((natBe sz v).take buf.length ++ buf.drop sz).take sz = (natBe sz v).take buf.length := by
    rw [List.take_append]
    have : ((natBe sz v).take buf.length).length = min buf.length sz := by simp
    rw [List.take_of_length_le (by omega), this]
    by_cases h2 : sz ≤ buf.length
    · rw [Nat.min_eq_right h2]; simp
    · rw [List.drop_eq_nil_of_le (by omega)]; simp
  rw [ht, natBe, beNat, List.take_reverse, List.reverse_reverse, natLe_length, natLe_drop,
    leNat_natLe]
  have e : sz - buf.length + (sz - (sz - buf.length)) = sz := by omega
  rw [← Nat.mod_mul_left_div_self, Nat.mul_comm, ← Nat.pow_add, e]

theorem read_length {e : Endian} {sz : Nat} {buf : Bytes} (h1 : ¬ buf.length ≤ 8)
    (h2 : buf.length ≠ sz) : read e sz buf = .panic := by
  unfold read
  rw [if_pos (by omega)]
  simp [readUnaligned, pad8, h1]

theorem write_length {e : Endian} {sz : Nat} {buf : Bytes} (v : Nat) (h1 : ¬ buf.length ≤ 8)
    (h2 : buf.length ≠ sz) : write e sz buf v = .panic := by
  unfold write
  rw [if_pos (by omega)]
  simp [writeUnaligned, pad8, h1]

theorem write_ok (e : Endian) {sz : Nat} {buf : Bytes} (v : Nat) (hsz : sz ≤ 8)
    (hlen : buf.length ≤ 8) : ∃ b, write e sz buf v = .ok b ∧ b.length = buf.length := by
  cases e with
  | little => exact ⟨_, writeLE_eq v hsz (.inl hlen), by simp; omega⟩
  | big => exact ⟨_, writeBE_eq v hsz hlen, by simp; omega⟩

theorem read_ok (e : Endian) {sz : Nat} {buf : Bytes} (hsz : sz ≤ 8) (hlen : buf.length ≤ 8) :
    ∃ v, read e sz buf = .ok v := by
  cases e with
  | little => exact ⟨_, readLE_eq hsz (.inl hlen)⟩
  | big => exact ⟨_, readBE_eq hsz hlen⟩

theorem readLE_writeLE {sz : Nat} {buf : Bytes} (v : Nat) (hsz : sz ≤ 8) (hlen : buf.length ≤ 8) :
    (do let b ← write .little sz buf v; read .little sz b) =
      .ok (v % 256 ^ min sz buf.length) := by
  rw [writeLE_eq v hsz (.inl hlen)]
  simp only [Res.bind_ok]
  have hl : ((natLe sz v).take buf.length ++ buf.drop sz).length = buf.length := by simp; omega
  rw [readLE_eq hsz (by omega)]
  congr 1
  apply Nat.eq_of_testBit_eq
  intro i
  rw [testBit_leNat, bitAt_take, bitAt_append, bitAt_take, bitAt_natLe, pow256,
    Nat.testBit_mod_two_pow, List.length_take, natLe_length]
  by_cases h1 : i < 8 * sz
  · rw [if_pos h1]
    by_cases h2 : i < 8 * min buf.length sz
    · rw [if_pos h2, if_pos (by omega)]
      have : i < 8 * min sz buf.length := by omega
      simp [h1, this]
    · rw [if_neg h2, bitAt_drop, bitAt_of_le (by omega)]
      have : ¬ i < 8 * min sz buf.length := by omega
      simp [this]
  · rw [if_neg h1]
    have : ¬ i < 8 * min sz buf.length := by omega
    simp [this]

end ByteCodec

namespace ArrayCodec

theorem chunksAux_eq {n : Nat} (hn : 0 < n) (k : Nat) : ∀ (fuel : Nat) (buf : Bytes),
    buf.length = k * n → k ≤ fuel →
    chunksAux n fuel buf = (List.range k).map (fun i => (buf.drop (i * n)).take n) := by
  induction k with
  | zero =>
    intro fuel buf hl _
    have : buf = [] := List.eq_nil_of_length_eq_zero (by simpa using hl)
    subst this
    cases fuel <;> simp [chunksAux]
  | succ k ih =>
    intro fuel buf hl hf
    cases fuel with
    | zero => omega
    | succ fuel =>
      have hne : buf ≠ [] := by
        intro h; subst h
        rw [Nat.succ_mul] at hl
        simp at hl; omega
      rw [chunksAux, if_neg hne, ih fuel (buf.drop n) (by rw [Nat.succ_mul] at hl; simp; omega)
        (by omega), List.range_succ_eq_map]
      simp only [List.map_cons, List.map_map, Nat.zero_mul, List.drop_zero, List.cons.injEq,
        true_and]
      apply List.map_congr_left
      intro i _
      simp only [Function.comp, List.drop_drop]
      rw [Nat.succ_mul, Nat.add_comm]

theorem mapM_ok {α β : Type} {f : α → R β} {l : List α} {g : α → β}
    (h : ∀ a ∈ l, f a = .ok (g a)) : l.mapM f = .ok (l.map g) := by
  induction l with
  | nil => simp
  | cons a as ih =>
    rw [List.mapM_cons, h a (by simp), Res.bind_ok, ih (fun b hb => h b (by simp [hb]))]
    simp

theorem range_ok (p : Profile) {bits i : Nat} (h : (i + 1) * (bits / 8) < 2 ^ 64) :
    range p bits i = .ok (i * (bits / 8), i * (bits / 8) + bits / 8) := by
  rw [Nat.succ_mul] at h
  unfold range usizeBits
  simp only
  rw [mulU_ok p (by omega)]
  simp only [Res.bind_ok]
  rw [addU_ok p (by omega)]
  rfl

theorem getRaw_eq (p : Profile) (e : Endian) {sz bits i : Nat} {buf : Bytes}
    (h : (i + 1) * (bits / 8) ≤ buf.length) (hlen : buf.length < 2 ^ 64) :
    getRaw p e sz bits buf i =
      ByteCodec.read e sz ((buf.drop (i * (bits / 8))).take (bits / 8)) := by
  unfold getRaw
  rw [range_ok p (by omega)]
  rw [Nat.succ_mul] at h
  simp only [Res.bind_ok]
  rw [slice_ok (by omega) (by omega)]
  simp [Nat.add_sub_cancel_left]

theorem setRaw_eq (p : Profile) (e : Endian) {sz bits i : Nat} {buf : Bytes} (v : Nat)
    (h : (i + 1) * (bits / 8) ≤ buf.length) (hlen : buf.length < 2 ^ 64) :
    setRaw p e sz bits buf i v =
      (do let s ← ByteCodec.write e sz ((buf.drop (i * (bits / 8))).take (bits / 8)) v
          pure (splice buf (i * (bits / 8)) s)) := by
  unfold setRaw
  rw [range_ok p (by omega)]
  rw [Nat.succ_mul] at h
  simp only [Res.bind_ok]
  rw [slice_ok (by omega) (by omega)]
  simp [Nat.add_sub_cancel_left]

theorem splice_window_same {l s : Bytes} {a : Nat} (h : a + s.length ≤ l.length) :
    ((splice l a s).drop a).take s.length = s := by
  unfold splice
  rw [List.append_assoc, List.drop_append]
  have : (l.take a).length = a := by simp; omega
  rw [this, List.drop_eq_nil_of_le (by omega)]
  simp

theorem splice_window_other {l s : Bytes} {a b n : Nat} (h : a + s.length ≤ l.length)
    (hd : b + n ≤ a ∨ a + s.length ≤ b) :
    ((splice l a s).drop b).take n = (l.drop b).take n := by
  apply bytes_ext
  · simp [splice_length h]
  · intro i hi
    rw [bitAt_take, bitAt_take, bitAt_drop, bitAt_drop, bitAt_splice h]
    split
    · rw [if_neg (by omega)]
    · rfl

end ArrayCodec

end Proto
