import Verif.Spec.Layout
import Verif.Runtime.CodecLemmas

/-! # Lemmas about the generated structure accessors -/

namespace Proto

open Spec

theorem Loc.fromModel_eq (bits o : Nat) : Loc.fromModel bits o = ⟨o / 8, o % 8, ceil8 bits, bits⟩ := by
  unfold Loc.fromModel ceil8
  simp only [Loc.mk.injEq, true_and, and_true]
  constructor
  · omega
  · split <;> omega

theorem Loc.abs_mk (o a b : Nat) : Loc.abs ⟨o / 8, o % 8, a, b⟩ = o := by
  simp only [Loc.abs]; omega

/-- The raw integer type of a width from 1 to 64. -/
theorem Loc.unsignedTy_ok {l : Loc} (h1 : 1 ≤ l.bitSize) (h2 : l.bitSize ≤ 64) :
    l.unsignedTy = .ok (if l.bitSize > 32 then .u64 else if l.bitSize > 16 then .u32
      else if l.bitSize > 8 then .u16 else .u8) := by
  unfold Loc.unsignedTy FixedTy.fromModel
  simp only [Model.FieldTy.simple, Model.FieldTy.bitSize?, Res.ofOption_some, Res.bind_ok,
    FixedTy.mapNumeric]
  by_cases a : l.bitSize > 32
  · simp [a, h2]
  · by_cases b : l.bitSize > 16
    · have : l.bitSize ≤ 32 := by omega
      simp [a, b, this]
    · by_cases c : l.bitSize > 8
      · have : l.bitSize ≤ 16 := by omega
        simp [a, b, c, this]
      · have : 0 < l.bitSize ∧ l.bitSize ≤ 8 := by omega
        simp [a, b, c, this]

theorem Loc.rawSize_eq {l : Loc} (h1 : 1 ≤ l.bitSize) (h2 : l.bitSize ≤ 64) :
    l.rawSize = if l.bitSize > 32 then 8 else if l.bitSize > 16 then 4
      else if l.bitSize > 8 then 2 else 1 := by
  unfold Loc.rawSize
  rw [Loc.unsignedTy_ok h1 h2]
  simp only
  split
  · rfl
  · split
    · rfl
    · split <;> rfl

theorem Loc.rawSize_le {l : Loc} (h1 : 1 ≤ l.bitSize) (h2 : l.bitSize ≤ 64) :
    0 < l.rawSize ∧ l.rawSize ≤ 8 ∧ l.bitSize ≤ 8 * l.rawSize := by
  rw [Loc.rawSize_eq h1 h2]
  split
  · omega
  · split
    · omega
    · split <;> omega

/-- What a fixed field's accessors need: a width of 1 to 64 bits, little-endian, a byte range sized
after the width. -/
structure FixedField.Valid (f : FixedField) : Prop where
  pos : 1 ≤ f.loc.bitSize
  le64 : f.loc.bitSize ≤ 64
  little : f.endian = .little
  byteSize : f.loc.byteSize = ceil8 f.loc.bitSize
  bitOffset : f.loc.bitOffset < 8

/-- First bit a raw accessor really addresses. -/
def Loc.effOffset (l : Loc) : Nat :=
  if l.bitSize % 8 ≠ 0 then 8 * l.byteOffset + l.bitOffset else 8 * l.byteOffset

/-- Number of bits a raw accessor really addresses. -/
def Loc.effWidth (l : Loc) : Nat :=
  if l.bitSize % 8 ≠ 0 then min l.bitSize (8 * l.byteSize - l.bitOffset) else l.bitSize

theorem window_bits {buf : Bytes} {a n o w : Nat} (h : o + w ≤ 8 * n) :
    bitsLE ((buf.drop a).take n) o w = bitsLE buf (8 * a + o) w := by
  apply Nat.eq_of_testBit_eq
  intro k
  rw [testBit_bitsLE, testBit_bitsLE, bitAt_take, bitAt_drop]
  by_cases hk : k < w
  · rw [if_pos (by omega), Nat.add_assoc]
  · simp [hk]

theorem window_bits_min {buf : Bytes} {a n o w : Nat} (h : o ≤ 8 * n) :
    bitsLE ((buf.drop a).take n) o w = bitsLE buf (8 * a + o) (min w (8 * n - o)) := by
  apply Nat.eq_of_testBit_eq
  intro k
  rw [testBit_bitsLE, testBit_bitsLE, bitAt_take, bitAt_drop]
  by_cases hk : k < w
  · by_cases hk2 : o + k < 8 * n
    · have : k < min w (8 * n - o) := by omega
      rw [if_pos hk2, Nat.add_assoc]
      simp [hk, this]
    · have : ¬ k < min w (8 * n - o) := by omega
      rw [if_neg hk2]
      simp [this]
  · have : ¬ k < min w (8 * n - o) := by omega
    simp [hk, this]

/-- Replacing bits inside a window of the buffer replaces them in the buffer. -/
theorem BitsReplaced_window {buf s' : Bytes} {a n o w v : Nat} (hn : a + n ≤ buf.length)
    (hr : BitsReplaced ((buf.drop a).take n) s' o w v) :
    (splice buf a s').length = buf.length ∧
    BitsReplaced buf (splice buf a s') (8 * a + o) (min w (8 * n - o)) v := by
  have hl : ((buf.drop a).take n).length = n := by simp; omega
  have hl' : s'.length = n := by rw [hr.1, hl]
  have hsp : a + s'.length ≤ buf.length := by omega
  refine ⟨splice_length hsp, splice_length hsp, ?_⟩
  intro i hi
  rw [bitAt_splice hsp, hl']
  by_cases h1 : 8 * a ≤ i ∧ i < 8 * (a + n)
  · rw [if_pos h1, hr.2 (i - 8 * a) (by omega), bitAt_take, bitAt_drop]
    have e : 8 * a + (i - 8 * a) = i := by omega
    by_cases h2 : o ≤ i - 8 * a ∧ i - 8 * a < o + w
    · rw [if_pos h2, if_pos (by omega)]
      congr 1; omega
    · rw [if_neg h2, if_pos (by omega), if_neg (by omega), e]
  · rw [if_neg h1, if_neg (by omega)]

namespace FixedField

theorem getRaw_codec (p : Profile) {f : FixedField} {buf : Bytes}
    (hbuf : f.loc.stop ≤ buf.length) :
    f.getRaw p buf =
      if f.loc.bitSize % 8 ≠ 0 then
        BitCodec.read p f.endian f.loc.rawSize f.loc.bitOffset f.loc.bitSize
          ((buf.drop f.loc.byteOffset).take f.loc.byteSize)
      else ByteCodec.read f.endian f.loc.rawSize
          ((buf.drop f.loc.byteOffset).take f.loc.byteSize) := by
  unfold getRaw
  unfold Loc.stop at *
  rw [slice_ok (by omega) hbuf]
  simp only [Res.bind_ok, Nat.add_sub_cancel_left]
  have hl : ((buf.drop f.loc.byteOffset).take f.loc.byteSize).length = f.loc.byteSize := by
    simp; omega
  unfold BitCodec.read ByteCodec.read unaligned
  rw [hl]
  simp only [decide_not, Bool.not_eq_eq_eq_not, Bool.not_true, decide_eq_false_iff_not, ne_eq]

theorem setRaw_codec (p : Profile) {f : FixedField} {buf : Bytes} (v : Nat)
    (hbuf : f.loc.stop ≤ buf.length) :
    f.setRaw p buf v =
      (do let s' ←
            (if f.loc.bitSize % 8 ≠ 0 then
              BitCodec.write p f.endian f.loc.rawSize f.loc.bitOffset f.loc.bitSize
                ((buf.drop f.loc.byteOffset).take f.loc.byteSize) v
             else ByteCodec.write f.endian f.loc.rawSize
                ((buf.drop f.loc.byteOffset).take f.loc.byteSize) v)
          pure (splice buf f.loc.byteOffset s')) := by
  unfold setRaw
  unfold Loc.stop at *
  rw [slice_ok (by omega) hbuf]
  simp only [Res.bind_ok, Nat.add_sub_cancel_left]
  have hl : ((buf.drop f.loc.byteOffset).take f.loc.byteSize).length = f.loc.byteSize := by
    simp; omega
  unfold BitCodec.write ByteCodec.write unaligned
  rw [hl]
  by_cases h1 : f.loc.bitSize % 8 = 0 <;> by_cases h2 : f.loc.rawSize = f.loc.byteSize <;>
    simp [h1, h2]

/-- What a raw getter returns, for every placement. -/
theorem getRaw_eq (p : Profile) {f : FixedField} (hf : f.Valid) {buf : Bytes}
    (hbuf : f.loc.stop ≤ buf.length) :
    f.getRaw p buf = .ok (bitsLE buf f.loc.effOffset f.loc.effWidth) := by
  obtain ⟨h1, h2, hle, hbs, hbo⟩ := hf
  obtain ⟨r1, r2, r3⟩ := Loc.rawSize_le h1 h2
  rw [getRaw_codec p hbuf, hle]
  unfold Loc.stop at hbuf
  have hbs8 : f.loc.byteSize ≤ f.loc.rawSize := by rw [hbs]; unfold ceil8; omega
  have hl : ((buf.drop f.loc.byteOffset).take f.loc.byteSize).length = f.loc.byteSize := by
    simp; omega
  unfold Loc.effOffset Loc.effWidth
  by_cases hb : f.loc.bitSize % 8 ≠ 0
  · rw [if_pos hb, if_pos hb, if_pos hb,
      BitCodec.readLE_ok p r1 r2 (by omega) (by omega) (.inl (by omega)),
      List.take_of_length_le (by omega), window_bits_min (by rw [hbs]; unfold ceil8; omega)]
  · rw [if_neg hb, if_neg hb, if_neg hb, ByteCodec.readLE_eq r2 (.inl (by omega)),
      List.take_of_length_le (by omega)]
    congr 1
    have : 8 * f.loc.byteSize = f.loc.bitSize := by rw [hbs]; unfold ceil8; omega
    rw [← this]
    apply Nat.eq_of_testBit_eq
    intro i
    rw [testBit_leNat, testBit_bitsLE, bitAt_take, bitAt_drop]
    by_cases hi : i < 8 * f.loc.byteSize <;> simp [hi]

/-- What a raw setter does, for every placement. -/
theorem setRaw_eq (p : Profile) {f : FixedField} (hf : f.Valid) {buf : Bytes} (v : Nat)
    (hbuf : f.loc.stop ≤ buf.length) :
    ∃ b, f.setRaw p buf v = .ok b ∧ BitsReplaced buf b f.loc.effOffset f.loc.effWidth v := by
  obtain ⟨h1, h2, hle, hbs, hbo⟩ := hf
  obtain ⟨r1, r2, r3⟩ := Loc.rawSize_le h1 h2
  rw [setRaw_codec p v hbuf, hle]
  unfold Loc.stop at hbuf
  have hbs8 : f.loc.byteSize ≤ f.loc.rawSize := by rw [hbs]; unfold ceil8; omega
  have hl : ((buf.drop f.loc.byteOffset).take f.loc.byteSize).length = f.loc.byteSize := by
    simp; omega
  unfold Loc.effOffset Loc.effWidth
  by_cases hb : f.loc.bitSize % 8 ≠ 0
  · rw [if_pos hb, if_pos hb, if_pos hb]
    obtain ⟨s', hs', hsl, hbits⟩ := BitCodec.writeLE_ok p (size := f.loc.bitSize)
      (off := f.loc.bitOffset) (buf := (buf.drop f.loc.byteOffset).take f.loc.byteSize) v r1 r2
      (by omega) (by omega) (.inl (by omega))
    have hr : BitsReplaced ((buf.drop f.loc.byteOffset).take f.loc.byteSize) s' f.loc.bitOffset
        f.loc.bitSize v := by
      refine ⟨hsl, ?_⟩
      intro i hi
      rw [hbits i hi]
      rw [hl] at hi
      by_cases h : f.loc.bitOffset ≤ i ∧ i < f.loc.bitOffset + f.loc.bitSize
      · rw [if_pos ⟨h.1, h.2, by omega⟩, if_pos h]
      · rw [if_neg (by omega), if_neg h]
    rw [hs']
    exact ⟨_, rfl, (BitsReplaced_window hbuf hr).2⟩
  · rw [if_neg hb, if_neg hb, if_neg hb]
    have h8 : 8 * f.loc.byteSize = f.loc.bitSize := by rw [hbs]; unfold ceil8; omega
    have hw := ByteCodec.writeLE_eq (sz := f.loc.rawSize)
      (buf := (buf.drop f.loc.byteOffset).take f.loc.byteSize) v r2 (.inl (by omega))
    rw [hw, hl, List.drop_eq_nil_of_le (by omega), List.append_nil]
    have hr : BitsReplaced ((buf.drop f.loc.byteOffset).take f.loc.byteSize)
        ((natLe f.loc.rawSize v).take f.loc.byteSize) 0 f.loc.bitSize v := by
      refine ⟨by simp; omega, ?_⟩
      intro i hi
      rw [hl] at hi
      rw [bitAt_take, bitAt_natLe, if_pos hi, if_pos (by omega)]
      have : i < 8 * f.loc.rawSize := by omega
      simp [this]
    have := (BitsReplaced_window hbuf hr).2
    rw [h8, Nat.sub_zero, Nat.min_self] at this
    exact ⟨_, rfl, this⟩

end FixedField

theorem Loc.eff_of_fits {l : Loc} (h : l.bitOffset + l.bitSize ≤ 8 * l.byteSize)
    (hb : l.byteSize = ceil8 l.bitSize) :
    l.effOffset = l.abs ∧ l.effWidth = l.bitSize := by
  unfold Loc.effOffset Loc.effWidth Loc.abs
  unfold ceil8 at hb
  constructor
  · split <;> omega
  · split <;> omega

end Proto
