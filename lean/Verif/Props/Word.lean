import Verif.Gen.WordLemmas
import Verif.Props.Struct
import Verif.Props.Message
import Verif.Base.Lit

/-!
# C104, C105: targets whose `usize` is narrower than 64 bits
-/

namespace Proto

open Spec

theorem Access.fits_of_narrow {w : Nat} (hw : w = 16 ∨ w = 32 ∨ w = 64) {s : Structure} {a : Access}
    (ha : s.HasAccess a) (hwf : s.WF) (hs : s.Sized) (hsize : s.byteSize < 2 ^ w) (hn : a.Narrow w) :
    a.fitsAt w = true := by
  induction ha with
  | @fixed s f hf =>
    obtain ⟨hwf', _, _⟩ := SField.listWF_mem hwf.list _ hf
    have hl := SField.loc_of_WF hwf'
    have hsz := hs.mem _ hf
    simp only [SField.Sized] at hsz
    simp only [SField.loc] at hl
    have ho : f.loc.bitOffset < 8 := by rw [hl]; exact Nat.mod_lt _ (by omega)
    have hr := Loc.rawSize_eq hsz.1 hsz.2.1
    simp only [Access.Narrow] at hn
    simp only [Access.fitsAt, FixedField.fitsAt, Bool.or_eq_true, Bool.and_eq_true, decide_eq_true_eq]
    by_cases h8 : f.loc.bitSize % 8 = 0
    · exact .inl h8
    · have hlt : f.loc.bitSize < w := by omega
      refine .inr ⟨⟨hlt, ?_⟩, by omega⟩
      rw [hr]
      split
      · omega
      · split
        · omega
        · split <;> omega
  | @item s f k hf hk =>
    obtain ⟨hwf', _, _⟩ := SField.listWF_mem hwf.list _ hf
    have hb := ArrayField.item_bounds' hwf' hk
    have hst := hwf.stop_le hf
    simp only [SField.loc, Loc.stop] at hst
    rw [Nat.succ_mul] at hb
    simp only [Access.fitsAt, decide_eq_true_eq]
    omega
  | @nested s n r loc a hf ha ih =>
    obtain ⟨hrw, hbs⟩ := hwf.nested hf
    have hst := hwf.stop_le hf
    simp only [SField.loc, Loc.stop] at hst
    have hsz := hs.mem _ hf
    simp only [SField.Sized] at hsz
    exact ih hrw hsz (by omega) hn

theorem Access.wide_panics {w : Nat} : ∀ {a : Access}, ¬ a.Narrow w → ∀ buf,
    a.getAt w .checked buf = .panic ∧ ∀ v, a.setAt w .checked buf v = .panic
  | .fixed f, h, buf => by
    simp only [Access.Narrow] at h
    have h8 : f.loc.bitSize % 8 ≠ 0 := by omega
    have hw : w ≤ f.loc.bitSize := by omega
    simp only [Access.getAt, Access.setAt, FixedField.getRawAt, FixedField.setRawAt]
    cases hsl : slice buf f.loc.byteOffset f.loc.stop with
    | err e => exact absurd hsl slice_ne_err
    | panic => exact ⟨rfl, fun _ => rfl⟩
    | ok s =>
      simp only [Res.bind_ok, if_pos h8, BitCodec.readUnalignedAt_checked hw,
        BitCodec.readAlignedAt_checked hw, BitCodec.writeUnalignedAt_checked hw,
        BitCodec.writeAlignedAt_checked hw, ite_self, Res.bind_panic, implies_true, and_self]
  | .item f k, h, buf => absurd trivial h
  | .nested loc rest, h, buf => by
    simp only [Access.Narrow] at h
    simp only [Access.getAt, Access.setAt]
    cases hsl : slice buf loc.byteOffset loc.stop with
    | err e => exact absurd hsl slice_ne_err
    | panic => exact ⟨rfl, fun _ => rfl⟩
    | ok s =>
      have := Access.wide_panics (a := rest) h s
      simp only [Res.bind_ok, this.1, this.2, Res.bind_panic, implies_true, and_self]

namespace BitCodec

theorem maskAt_wrapping {w size : Nat} (hw : 0 < w) :
    maskAt w .wrapping size = .ok (2 ^ (size % w) - 1) := by
  have h := maskAt_ok .wrapping (w := w) (size := size % w) (Nat.mod_lt _ hw)
  rw [← h]
  simp only [maskAt, shlU]
  rw [if_pos (Nat.mod_lt _ hw)]
  by_cases hs : size < w
  · rw [if_pos hs, Nat.mod_eq_of_lt hs]
  · rw [if_neg hs]

theorem readAlignedAt_wrapping {w sz off size : Nat} (hw : 0 < w) (hsz : 0 < sz) (hsz8 : sz ≤ 8)
    (hoff : off < 8 * sz) {b : Bytes} (hb : sz ≤ b.length) :
    readAlignedAt w .wrapping .little sz off size b = .ok (bitsLE (b.take sz) off (size % w)) := by
  have hraw : readBytes .little sz b = .ok (leNat (b.take sz)) := by simp [readBytes, hb]
  have hlt : leNat (b.take sz) < 2 ^ (8 * sz) := by
    have := leNat_lt (b.take sz)
    rw [pow256] at this
    simpa [Nat.min_eq_left hb] using this
  simp only [readAlignedAt, maskAt_wrapping hw, hraw, shiftAmountAt, Res.bind_ok]
  rw [fromUsize_small hsz (by omega), shrU_ok _ hoff]
  simp only [Res.bind_ok, Res.pure_eq]
  congr 1
  apply Nat.eq_of_testBit_eq
  intro k
  rw [Nat.testBit_and, Nat.testBit_shiftRight, testBit_fromUsize, testBit_mask, testBit_bitsLE,
    testBit_leNat]
  by_cases hk : k < size % w
  · by_cases hk8 : k < 8 * sz
    · simp [hk, hk8]
    · have : bitAt (b.take sz) (off + k) = false := by
        rw [bitAt_take, if_neg (by omega)]
      simp [this]
  · simp [hk]

theorem writeAlignedAt_wrapping {w sz off size : Nat} (hoff : off < w) (hsz : 0 < sz) (hsz8 : sz ≤ 8)
    (hoff8 : off < 8 * sz) (v : Nat) {b : Bytes} (hb : sz ≤ b.length) :
    ∃ b', writeAlignedAt w .wrapping .little sz off size b v = .ok b' ∧ b'.length = b.length ∧
      ∀ i, i < 8 * b.length →
        bitAt b' i = if off ≤ i ∧ i < off + size % w ∧ i < 8 * sz then v.testBit (i - off)
          else if i < w ∨ 8 * sz ≤ i then bitAt b i else false := by
  have hraw : readBytes .little sz b = .ok (leNat (b.take sz)) := by simp [readBytes, hb]
  have hw : 0 < w := by omega
  refine ⟨natLe sz ((leNat (b.take sz) &&& fromUsize sz (notU w (((2 ^ (size % w) - 1) <<< off) % 2 ^ w))) |||
    (((v &&& fromUsize sz (2 ^ (size % w) - 1)) <<< off) % 2 ^ (8 * sz))) ++ b.drop sz, ?_, by simp; omega, ?_⟩
  · simp only [writeAlignedAt, maskAt_wrapping hw, hraw, shiftAmountAt, Res.bind_ok]
    rw [shlU_ok _ hoff]
    simp only [Res.bind_ok]
    rw [fromUsize_small (n := off) hsz (by omega), shlU_ok _ hoff8]
    simp [writeBytes, hb]
  · intro i hi
    rw [bitAt_append, natLe_length, bitAt_drop, bitAt_natLe]
    by_cases h1 : i < 8 * sz
    · rw [if_pos h1]
      have hnot : ∀ y, (notU w y).testBit i = (decide (i < w) && !y.testBit i) := by
        intro y
        by_cases hi : i < w
        · rw [testBit_notU hi]; simp [hi]
        · have : (notU w y).testBit i = false :=
            Nat.testBit_lt_two_pow (Nat.lt_of_lt_of_le notU_lt (Nat.pow_le_pow_right (by omega) (by omega)))
          simp [hi, this]
      rw [Nat.testBit_or, Nat.testBit_and, testBit_fromUsize, hnot,
        Nat.testBit_mod_two_pow, Nat.testBit_mod_two_pow, Nat.testBit_shiftLeft,
        Nat.testBit_shiftLeft, testBit_mask, Nat.testBit_and, testBit_fromUsize, testBit_mask,
        testBit_leNat, bitAt_take, if_pos h1]
      have h4 : ¬ 8 * sz ≤ i := by omega
      have h5 : i - off < 8 * sz := by omega
      by_cases h2 : off ≤ i
      · by_cases h3 : i < off + size % w
        · have : i - off < size % w := by omega
          by_cases hiw : i < w <;> simp [h1, h2, h3, this, h5, hiw]
        · have : ¬ i - off < size % w := by omega
          by_cases hiw : i < w <;> simp [h1, h2, h3, this, hiw, h4]
      · by_cases hiw : i < w <;> simp [h1, h2, hiw, h4]
    · rw [if_neg h1, if_neg (by omega), if_pos (by omega)]
      congr 1; omega

theorem readAt_wrapping {w sz off size : Nat} (hw : 0 < w) (hsz : 0 < sz) (hsz8 : sz ≤ 8)
    (hoff : off < 8 * sz) {buf : Bytes} (hlen : buf.length ≤ 8) :
    readAt w .wrapping .little sz off size buf = .ok (bitsLE (buf.take sz) off (size % w)) := by
  unfold readAt
  by_cases h : sz = buf.length
  · rw [if_neg (by simpa using h)]
    exact readAlignedAt_wrapping hw hsz hsz8 hoff (by omega)
  · rw [if_pos h]
    simp only [readUnalignedAt, pad8_ok hlen, Res.bind_ok]
    rw [readAlignedAt_wrapping hw hsz hsz8 hoff (by simp; omega)]
    congr 1
    apply Nat.eq_of_testBit_eq
    intro k
    rw [testBit_bitsLE, testBit_bitsLE, bitAt_take, bitAt_take, pad8_take]

theorem writeAt_wrapping {w sz off size : Nat} (hoff : off < w) (hsz : 0 < sz) (hsz8 : sz ≤ 8)
    (hoff8 : off < 8 * sz) (v : Nat) {buf : Bytes} (hlen : buf.length ≤ 8) :
    ∃ b', writeAt w .wrapping .little sz off size buf v = .ok b' ∧ b'.length = buf.length ∧
      ∀ i, i < 8 * buf.length →
        bitAt b' i = if off ≤ i ∧ i < off + size % w ∧ i < 8 * sz then v.testBit (i - off)
          else if i < w ∨ 8 * sz ≤ i then bitAt buf i else false := by
  unfold writeAt
  by_cases h : sz = buf.length
  · rw [if_neg (by simpa using h)]
    exact writeAlignedAt_wrapping hoff hsz hsz8 hoff8 v (by omega)
  · rw [if_pos h]
    simp only [writeUnalignedAt, pad8_ok hlen, Res.bind_ok]
    obtain ⟨b', hb', hl, hbits⟩ := writeAlignedAt_wrapping (size := size) hoff hsz hsz8 hoff8 v
      (b := buf ++ List.replicate (8 - buf.length) 0) (by simp; omega)
    rw [hb']
    simp only [Res.bind_ok]
    have hl8 : b'.length = 8 := by rw [hl]; simp; omega
    rw [slice_ok (by omega) (by omega)]
    refine ⟨_, rfl, by simp; omega, ?_⟩
    intro i hi
    rw [List.drop_zero, Nat.sub_zero, bitAt_take, if_pos hi, hbits i (by simp; omega), pad8_take]

end BitCodec

theorem FixedField.getRawAt_codec (w : Nat) (p : Profile) {f : FixedField} {buf : Bytes}
    (h8 : f.loc.bitSize % 8 ≠ 0) (hbuf : f.loc.stop ≤ buf.length) :
    f.getRawAt w p buf = BitCodec.readAt w p f.endian f.loc.rawSize f.loc.bitOffset f.loc.bitSize
      ((buf.drop f.loc.byteOffset).take f.loc.byteSize) := by
  unfold getRawAt
  unfold Loc.stop at *
  rw [slice_ok (by omega) hbuf]
  simp only [Res.bind_ok, Nat.add_sub_cancel_left]
  have hl : ((buf.drop f.loc.byteOffset).take f.loc.byteSize).length = f.loc.byteSize := by
    simp; omega
  unfold BitCodec.readAt unaligned
  rw [hl, if_pos h8]
  simp only [decide_not, Bool.not_eq_eq_eq_not, Bool.not_true, decide_eq_false_iff_not, ne_eq]

theorem FixedField.setRawAt_codec (w : Nat) (p : Profile) {f : FixedField} {buf : Bytes} (v : Nat)
    (h8 : f.loc.bitSize % 8 ≠ 0) (hbuf : f.loc.stop ≤ buf.length) :
    f.setRawAt w p buf v =
      (do let s' ← BitCodec.writeAt w p f.endian f.loc.rawSize f.loc.bitOffset f.loc.bitSize
            ((buf.drop f.loc.byteOffset).take f.loc.byteSize) v
          pure (splice buf f.loc.byteOffset s')) := by
  unfold setRawAt
  unfold Loc.stop at *
  rw [slice_ok (by omega) hbuf]
  simp only [Res.bind_ok, Nat.add_sub_cancel_left]
  have hl : ((buf.drop f.loc.byteOffset).take f.loc.byteSize).length = f.loc.byteSize := by
    simp; omega
  unfold BitCodec.writeAt unaligned
  rw [hl]
  by_cases h2 : f.loc.rawSize = f.loc.byteSize <;> simp [h8, h2]

theorem Out.run_counterAt (w : Nat) (p : Profile) (o : Out) (n : Nat) (h : n + o.bytes.length < 2 ^ w) :
    o.run (Sink.counterAt w p) n = (o.res, n + o.bytes.length) := by
  obtain ⟨cs, r⟩ := o
  simp only [Out.run, Out.bytes] at h ⊢
  induction cs generalizing n with
  | nil => simp [Sink.runChunks]
  | cons c cs ih =>
    simp only [List.flatten_cons, List.length_append] at h
    have e : (addU p w n c.length : R Nat) = .ok (n + c.length) := addU_ok p (by omega)
    have e2 : (Sink.counterAt w p).writeAll c n = (.ok (), n + c.length) := by
      simp only [Sink.counterAt, e]
    simp only [Sink.runChunks, e2]
    rw [ih (n + c.length) (by omega)]
    simp [Nat.add_assoc]

namespace Props

/-- C104: on a target of 16, 32 or 64 bits, reading and writing an integer that is an array item, a whole
number of bytes or narrower than a machine word gives what it gives at 64 bits, whatever the buffer and
the profile. -/
theorem C104_accessors {w : Nat} (hw : w = 16 ∨ w = 32 ∨ w = 64) (p : Profile) {s : Structure}
    {a : Access} (ha : s.HasAccess a) (hwf : s.WF) (hs : s.Sized) (hsize : s.byteSize < 2 ^ w)
    (hn : a.Narrow w) (buf : Bytes) :
    a.getAt w p buf = a.get p buf ∧ ∀ v, a.setAt w p buf v = a.set p buf v := by
  have hf := Access.fits_of_narrow hw ha hwf hs hsize hn
  have h64 : w ≤ 64 := by omega
  exact ⟨Access.getAt_eq h64 p hf buf, fun v => Access.setAt_eq h64 p hf buf v⟩

example (p : Profile) (buf : Bytes) : Ex.hiA.getAt 32 p buf = Ex.hiA.get p buf :=
  (C104_accessors (.inr (.inl rfl)) p Ex.hi_access Ex.outer_WF Ex.outer_Sized (by decide) (.inr (by decide)) buf).1

/-- C104: with overflow checks these are the only integers that can be read or written there: any other
panics on every buffer. -/
theorem C104_wide {w : Nat} {a : Access} (hn : ¬ a.Narrow w) (buf : Bytes) :
    a.getAt w .checked buf = .panic ∧ ∀ v, a.setAt w .checked buf v = .panic :=
  Access.wide_panics hn buf

/-- C104: so the integers of a structure that can be read with overflow checks are exactly the narrow
ones. -/
theorem C104_iff {w : Nat} (hw : w = 16 ∨ w = 32 ∨ w = 64) {s : Structure} {a : Access}
    (ha : s.HasAccess a) (hwf : s.WF) (hs : s.Sized) (hsize : s.byteSize < 2 ^ w) (buf : Bytes)
    (hbuf : s.byteSize ≤ buf.length) (hlen : buf.length < 2 ^ w) :
    ((∃ v, a.getAt w .checked buf = .ok v) ↔ a.Narrow w) ∧
    ∀ x, ((∃ b, a.setAt w .checked buf x = .ok b) ↔ a.Narrow w) := by
  have h64 : (2 : Nat) ^ w ≤ 2 ^ 64 := Nat.pow_le_pow_right (by omega) (by omega)
  obtain ⟨hg, hset⟩ := C09_no_panic .checked ha hwf hs buf hbuf (by omega)
  by_cases hn : a.Narrow w
  · obtain ⟨h1, h2⟩ := C104_accessors hw .checked ha hwf hs hsize hn buf
    simp only [h1, h2, hn, iff_true]
    exact ⟨hg, fun x => (hset x).imp fun _ h => h.1⟩
  · obtain ⟨h1, h2⟩ := C104_wide hn buf
    simp [h1, h2, hn]

example (buf : Bytes) (hbuf : 10 ≤ buf.length) (hlen : buf.length < 2 ^ 16) :
    ∃ v, Ex.hiA.getAt 16 .checked buf = .ok v :=
  (C104_iff (.inl rfl) Ex.hi_access Ex.outer_WF Ex.outer_Sized (by decide) buf hbuf hlen).1.2 (.inr (by decide))

/-- A field of 33 bits, then one of 7. -/
def Ex.wideA : FixedField :=
  { name := "a".toList, ty := .u64, loc := ⟨0, 0, 5, 33⟩, view := .none, endian := .little }
def Ex.wideB : FixedField :=
  { name := "b".toList, ty := .u8, loc := ⟨4, 1, 1, 7⟩, view := .none, endian := .little }

/-- On 32 bits the wider one cannot be read: checked builds panic. -/
example (buf : Bytes) : Ex.wideA.getRawAt 32 .checked buf = .panic :=
  (C104_wide (w := 32) (a := .fixed Ex.wideA) (by simp [Access.Narrow, Ex.wideA]) buf).1
example : Ex.wideA.getRaw .checked [1, 2, 3, 4, 0xFF] = .ok 0x104030201 := by decide

/-- C104: the bit codecs themselves, for any byte order: an integer of at most a machine word, less than a
word of bits, gives what it gives at 64 bits on every slice. -/
theorem C104_codec {w : Nat} (hw : w ≤ 64) (p : Profile) (e : Endian) {sz off size : Nat}
    (hsz : 8 * sz ≤ w) (hs : size < w) (buf : Bytes) :
    BitCodec.readAt w p e sz off size buf = BitCodec.read p e sz off size buf ∧
    (off < w → ∀ v, BitCodec.writeAt w p e sz off size buf v = BitCodec.write p e sz off size buf v) := by
  refine ⟨?_, fun ho v => ?_⟩
  · simp only [BitCodec.readAt, BitCodec.read, BitCodec.readUnalignedAt_eq p e off hsz hw hs,
      BitCodec.readAlignedAt_eq p e off hsz hw hs]
  · simp only [BitCodec.writeAt, BitCodec.write, BitCodec.writeUnalignedAt_eq p e hsz hw hs ho,
      BitCodec.writeAlignedAt_eq p e hsz hw hs ho]

example (p : Profile) (buf : Bytes) :
    BitCodec.readAt 32 p .big 4 3 13 buf = BitCodec.read p .big 4 3 13 buf :=
  (C104_codec (by decide) p .big (by decide) (by decide) buf).1

/-- C104: at 64 bits nothing differs. -/
theorem C104_same (p : Profile) (e : Endian) (sz off size : Nat) (buf : Bytes) (v : Nat) :
    BitCodec.readAt 64 p e sz off size buf = BitCodec.read p e sz off size buf ∧
    BitCodec.writeAt 64 p e sz off size buf v = BitCodec.write p e sz off size buf v := by
  constructor
  · simp only [BitCodec.readAt, BitCodec.read]; cases e <;> rfl
  · simp only [BitCodec.writeAt, BitCodec.write]; cases e <;> rfl

/-- C104: without overflow checks a bit field as wide as a word or wider is read through the low bits of
its width only. -/
theorem C104_release_read {w : Nat} (hw : 0 < w) {f : FixedField} (h8 : f.loc.bitSize % 8 ≠ 0)
    (h64 : f.loc.bitSize ≤ 64) (hle : f.endian = .little) (hsz : f.loc.byteSize ≤ f.loc.rawSize)
    (hoff : f.loc.bitOffset < 8) (buf : Bytes) (hbuf : f.loc.stop ≤ buf.length) :
    f.getRawAt w .wrapping buf =
      .ok (bitsLE ((buf.drop f.loc.byteOffset).take f.loc.byteSize) f.loc.bitOffset (f.loc.bitSize % w)) := by
  obtain ⟨r1, r2, r3⟩ := Loc.rawSize_le (l := f.loc) (by omega) h64
  have hl : ((buf.drop f.loc.byteOffset).take f.loc.byteSize).length ≤ f.loc.byteSize := by
    simp; omega
  rw [FixedField.getRawAt_codec w _ h8 hbuf, hle, BitCodec.readAt_wrapping hw r1 r2 (by omega) (by omega),
    List.take_of_length_le (by omega)]

/-- Only one bit of the 33 is read. -/
example : Ex.wideA.getRawAt 32 .wrapping [3, 2, 3, 4, 0xFF] = .ok 1 := by decide
example (buf : Bytes) (h : 5 ≤ buf.length) :
    Ex.wideA.getRawAt 32 .wrapping buf = .ok (bitsLE ((buf.drop 0).take 5) 0 1) :=
  C104_release_read (by decide) (by decide) (by decide) rfl (by decide) (by decide) buf h

/-- C104: and writing it replaces those bits and clears every bit of its bytes from the word's width on. -/
theorem C104_release_write {w : Nat} {f : FixedField} (h8 : f.loc.bitSize % 8 ≠ 0)
    (h64 : f.loc.bitSize ≤ 64) (hle : f.endian = .little) (hsz : f.loc.byteSize ≤ f.loc.rawSize)
    (hoff : f.loc.bitOffset < 8) (hoffw : f.loc.bitOffset < w) (buf : Bytes) (v : Nat)
    (hbuf : f.loc.stop ≤ buf.length) :
    ∃ b, f.setRawAt w .wrapping buf v =
        .ok (buf.take f.loc.byteOffset ++ b ++ buf.drop (f.loc.byteOffset + f.loc.byteSize)) ∧
      b.length = f.loc.byteSize ∧
      ∀ i, i < 8 * f.loc.byteSize → bitAt b i =
        if f.loc.bitOffset ≤ i ∧ i < f.loc.bitOffset + f.loc.bitSize % w then v.testBit (i - f.loc.bitOffset)
        else if i < w then bitAt buf (8 * f.loc.byteOffset + i) else false := by
  obtain ⟨r1, r2, r3⟩ := Loc.rawSize_le (l := f.loc) (by omega) h64
  have hst := hbuf
  unfold Loc.stop at hst
  have hl : ((buf.drop f.loc.byteOffset).take f.loc.byteSize).length = f.loc.byteSize := by
    simp; omega
  obtain ⟨b, hb, hbl, hbits⟩ := BitCodec.writeAt_wrapping (size := f.loc.bitSize) (sz := f.loc.rawSize)
    hoffw r1 r2 (by omega) v (buf := (buf.drop f.loc.byteOffset).take f.loc.byteSize) (by omega)
  rw [hl] at hbl hbits
  refine ⟨b, ?_, hbl, ?_⟩
  · rw [FixedField.setRawAt_codec w _ v h8 hbuf, hle, hb]
    simp only [Res.bind_ok, Res.pure_eq, splice, hbl]
  · intro i hi
    rw [hbits i hi, bitAt_take, bitAt_drop, if_pos hi]
    by_cases h1 : f.loc.bitOffset ≤ i ∧ i < f.loc.bitOffset + f.loc.bitSize % w
    · rw [if_pos ⟨h1.1, h1.2, by omega⟩, if_pos h1]
    · rw [if_neg (by omega), if_neg h1]
      by_cases h2 : i < w
      · rw [if_pos (.inl h2), if_pos h2]
      · rw [if_neg (by omega), if_neg h2]

/-- Writing the field of 33 bits clears the neighbour's 7. -/
example : Ex.wideA.setRawAt 32 .wrapping [0, 0, 0, 0, 0xFE] 0x1FFFFFFFF = .ok [1, 0, 0, 0, 0] ∧
    Ex.wideB.getRawAt 32 .wrapping [0, 0, 0, 0, 0xFE] = .ok 127 ∧
    Ex.wideB.getRawAt 32 .wrapping [1, 0, 0, 0, 0] = .ok 0 := by decide
/-- On 64 bits it does not. -/
example : Ex.wideA.setRaw .wrapping [0, 0, 0, 0, 0xFE] 0x1FFFFFFFF = .ok [0xFF, 0xFF, 0xFF, 0xFF, 0xFF] := by
  decide

/-- C104: with overflow checks, reaching into an array gives the same at every width, whatever the index,
on every slice the target can hold. -/
theorem C104_items_checked {w : Nat} (hw : w ≤ 64) {buf : Bytes} (hb : buf.length < 2 ^ w) (isz len k : Nat)
    (g : Bytes → Bytes) (e : Endian) (sz bits v : Nat) :
    Arr.getAt w .checked isz ⟨buf, len⟩ k = Arr.get .checked isz ⟨buf, len⟩ k ∧
    Arr.modifyAt w .checked isz ⟨buf, len⟩ k g = Arr.modify .checked isz ⟨buf, len⟩ k g ∧
    ArrayCodec.getRawAt w .checked e sz bits buf k = ArrayCodec.getRaw .checked e sz bits buf k ∧
    ArrayCodec.setRawAt w .checked e sz bits buf k v = ArrayCodec.setRaw .checked e sz bits buf k v := by
  refine ⟨?_, ?_, ?_, ?_⟩
  · have := Arr.rangeAt_checked hw hb isz k (fun _ s => .ok s)
    have hid : ∀ x : R Bytes, (x >>= fun s => .ok s) = x := by intro x; cases x <;> rfl
    simpa only [Arr.getAt, Arr.get, hid] using this
  · exact Arr.rangeAt_checked hw hb isz k (fun r s => pure (⟨splice buf r.1 (g s), len⟩ : Seq Bytes))
  · exact Arr.rangeAt_checked hw hb (bits / 8) k (fun _ s => ByteCodec.read e sz s)
  · exact Arr.rangeAt_checked hw hb (bits / 8) k (fun r s => do
      let s' ← ByteCodec.write e sz s v
      pure (splice buf r.1 s'))

example (k : Nat) : Arr.getAt 32 .checked 2 ⟨[1, 2, 3, 4], 2⟩ k = Arr.get .checked 2 ⟨[1, 2, 3, 4], 2⟩ k :=
  (C104_items_checked (by decide) (by decide) 2 2 k id .little 2 16 0).1

/-- C104: an item that lies in the slice is reached at every width, in both profiles. -/
theorem C104_items {w : Nat} (hw : w ≤ 64) (p : Profile) {buf : Bytes} (hb : buf.length < 2 ^ w)
    {isz k : Nat} (hk : (k + 1) * isz ≤ buf.length) (len : Nat) (g : Bytes → Bytes) (e : Endian) (sz v : Nat)
    (bits : Nat) (hbits : bits / 8 = isz) :
    Arr.getAt w p isz ⟨buf, len⟩ k = .ok ((buf.drop (k * isz)).take isz) ∧
    Arr.modifyAt w p isz ⟨buf, len⟩ k g = Arr.modify p isz ⟨buf, len⟩ k g ∧
    ArrayCodec.getRawAt w p e sz bits buf k = ArrayCodec.getRaw p e sz bits buf k ∧
    ArrayCodec.setRawAt w p e sz bits buf k v = ArrayCodec.setRaw p e sz bits buf k v := by
  have h64 : (2 : Nat) ^ w ≤ 2 ^ 64 := Nat.pow_le_pow_right (by omega) hw
  rw [Nat.succ_mul] at hk
  have h1 := Arr.rangeAt_ok (w := w) p (isz := isz) (index := k) (by omega)
  have h2 := Arr.range_ok p (isz := isz) (index := k) (by omega)
  subst hbits
  refine ⟨?_, ?_, ?_, ?_⟩
  · simp only [Arr.getAt, h1, Res.bind_ok]
    rw [slice_ok (by omega) (by omega), Nat.add_sub_cancel_left]
  · simp only [Arr.modifyAt, Arr.modify, h1, h2]
  · simp only [ArrayCodec.getRawAt, ArrayCodec.getRaw, ArrayCodec.rangeAt_eq, ArrayCodec.range_eq, h1, h2]
  · simp only [ArrayCodec.setRawAt, ArrayCodec.setRaw, ArrayCodec.rangeAt_eq, ArrayCodec.range_eq, h1, h2]

example (p : Profile) : Arr.getAt 16 p 2 ⟨[1, 2, 3, 4], 2⟩ 1 = .ok [3, 4] :=
  (C104_items (by decide) p (by decide) (k := 1) (by decide) 2 id .little 2 0 16 rfl).1

/-- C104: without overflow checks, an index reaches the item at the wrapped position. -/
theorem C104_items_release (w isz : Nat) (a : Seq Bytes) (k : Nat) :
    Arr.getAt w .wrapping isz a k = slice a.data (k * isz % 2 ^ w) ((k + 1) * isz % 2 ^ w) := by
  have h1 : ∀ x y, (addU .wrapping w x y : R Nat) = .ok ((x + y) % 2 ^ w) := by
    intro x y
    unfold addU
    split
    · next h => rw [Nat.mod_eq_of_lt h]
    · rfl
  have h2 : ∀ x y, (mulU .wrapping w x y : R Nat) = .ok ((x * y) % 2 ^ w) := by
    intro x y
    unfold mulU
    split
    · next h => rw [Nat.mod_eq_of_lt h]
    · rfl
  simp only [Arr.getAt, Arr.rangeAt, h1, h2, Res.bind_ok, Res.pure_eq, Nat.mod_add_mod, Nat.succ_mul]

/-- An index far outside the array finds an item on 32 bits, and none on 64. -/
example : Arr.getAt 32 .wrapping 2 ⟨[1, 2, 3, 4], 2⟩ (2 ^ 31) = .ok [1, 2] ∧
    Arr.get .wrapping 2 ⟨[1, 2, 3, 4], 2⟩ (2 ^ 31) = .panic := by
  rw [C104_items_release]
  decide

/-- C104: an array is made from parts when the byte count is the item count times the item size; where
that product is no machine word, checked builds panic and others compare with the product wrapped. -/
theorem C104_parts (w : Nat) (p : Profile) (isz : Nat) (data : Bytes) (len : Nat) :
    (len * isz < 2 ^ w → Arr.fromPartsAt w p isz data len =
      .ok (if data.length = len * isz then some ⟨data, len⟩ else none)) ∧
    (2 ^ w ≤ len * isz → Arr.fromPartsAt w .checked isz data len = .panic ∧
      Arr.fromPartsAt w .wrapping isz data len =
        .ok (if data.length = len * isz % 2 ^ w then some ⟨data, len⟩ else none)) := by
  constructor
  · intro h
    simp only [Arr.fromPartsAt, mulU_ok p h, Res.bind_ok, Res.pure_eq]
  · intro h
    simp only [Arr.fromPartsAt, mulU]
    rw [if_neg (by omega), if_neg (by omega)]
    simp only [Res.bind_ok, Res.bind_panic, Res.pure_eq, and_self]

example (p : Profile) : Arr.fromPartsAt 16 p 2 [1, 2, 3, 4] 2 = .ok (some ⟨[1, 2, 3, 4], 2⟩) :=
  (C104_parts 16 p 2 [1, 2, 3, 4] 2).1 (by decide)

/-! ## C105 -/

theorem leaf_same {w : Nat} (hw : w ≤ 64) (p : Profile) : LeafRelated @SameRes w p (MFieldTy.sizesAt w) where
  varchar ty e hq b hb := by
    simp only [MFieldTy.sizesAt, MFieldTy.wordsAt, decide_eq_true_eq] at hq
    exact Varchar.fromSliceAt_eq hw p e hq hb
  array ty s e hq b hb := by
    simp only [MFieldTy.sizesAt, Bool.and_eq_true, decide_eq_true_eq] at hq
    exact Arr.fromSliceAt_eq hw p e hq.1 hq.2 b
  list ty m hq := by
    simpa only [MFieldTy.sizesAt, MFieldTy.wordsAt, MFieldTy.countsAt, decide_eq_true_eq] using hq
  union u on i hq env on' := by
    simp only [MFieldTy.sizesAt, MFieldTy.wordsAt, MFieldTy.countsAt] at hq
    exact ⟨Discriminant.readAt_eq hw p hq env on', fun n => Discriminant.read_bound hq⟩

theorem Access.rawBytes_le : ∀ {a : Access}, a.rawBytes ≤ 8
  | .fixed f => by
    simp only [Access.rawBytes, Loc.rawSize]
    split
    · exact FixedTy.byteSize_le _
    · exact Nat.zero_le _
  | .item f _ => f.ty.byteSize_le
  | .nested _ rest => Access.rawBytes_le (a := rest)

theorem Access.getAt_64 (p : Profile) : ∀ (a : Access) (buf : Bytes), a.getAt 64 p buf = a.get p buf
  | .fixed f, buf => by
    simp only [Access.getAt, Access.get, FixedField.getRawAt, FixedField.getRaw]
    cases f.endian <;> rfl
  | .item f k, buf => rfl
  | .nested loc rest, buf => by
    simp only [Access.getAt, Access.get, Access.getAt_64 p rest]

theorem leaf_64 (p : Profile) : LeafRelated @SameRes 64 p (fun _ => true) where
  varchar ty e _ b hb := Varchar.fromSliceAt_eq (by omega) p e (by have := ty.byteSize_le; omega) hb
  array ty s e _ b hb := by
    have hle := ty.byteSize_le
    simp only [SameRes, Arr.fromSliceAt, Arr.fromSlice, usizeBits]
    cases hs : Scalar.fromSlice e ty.byteSize b with
    | err e => rfl
    | panic => rfl
    | ok m =>
      obtain ⟨_, _, hd⟩ := Scalar.fromSlice_bound hs
      simp only [Res.bind_ok]
      rw [toUsizeAt_of_lt (Nat.lt_of_lt_of_le hd (Nat.pow_le_pow_right (by omega) (by omega)))]
  list ty m _ := by have := ty.byteSize_le; omega
  union u on i _ env on' := by
    constructor
    · unfold Discriminant.readAt Discriminant.read
      cases env.lookup on' with
      | none => rfl
      | some v => cases v <;> cases u.discriminant.access <;> first | rfl | exact Access.getAt_64 p _ _
    · intro n hn
      unfold Discriminant.read at hn
      split at hn
      · next b a hb ha =>
        exact Nat.lt_of_lt_of_le (Access.get_bound hn)
          (Nat.pow_le_pow_right (by omega) (by have := Access.rawBytes_le (a := a); omega))
      · cases hn

theorem allFields_true (m : Message) : m.allFields (fun _ => true) = true := by
  have ind : SchemaInd (fun m => m.allFields (fun _ => true) = true)
      (fun t => t.allFields (fun _ => true) = true) := by
    constructor
    case union =>
      intro n d cs sz on i h
      simp only [MFieldTy.allFields, Union.allFields]
      induction cs with
      | nil => simp only [UCase.listAllFields]
      | cons k cs ih =>
        have ih := ih (fun k hk => h k (by simp [hk]))
        obtain ⟨a, b, _ | r⟩ := k
        · simpa only [UCase.listAllFields] using ih
        · have := h (.mk a b (some r)) (by simp) r rfl
          simp only [MFieldTy.allFields] at this
          simp only [UCase.listAllFields, this, ih, Bool.and_self]
    case msg =>
      intro id n fs sz h
      simp only [Message.allFields]
      induction fs with
      | nil => simp only [MField.listAllFields]
      | cons f fs ih =>
        have ih := ih (fun k hk => h k (by simp [hk]))
        have := h f (by simp)
        obtain ⟨a, b, c, d, e⟩ := f
        simp only [MField.ty] at this
        simp only [MField.listAllFields, this, ih, Bool.and_self]
    all_goals simp [MFieldTy.allFields, Referenced.allFields]
  exact ind.all m

theorem leaf_safe {w : Nat} (hw : w ≤ 32) : LeafRelated @SafeRes w .checked (MFieldTy.wordsAt w) where
  varchar ty e hq b hb := by
    simp only [MFieldTy.wordsAt, decide_eq_true_eq] at hq
    exact .inl (Varchar.fromSliceAt_eq (by omega) _ e hq hb)
  array ty s e hq b hb := by
    simp only [MFieldTy.wordsAt, MFieldTy.countsAt, Bool.and_eq_true, decide_eq_true_eq] at hq
    exact Arr.fromSliceAt_safe hw e hq.1 hq.2 hb
  list ty m hq := by
    simpa only [MFieldTy.wordsAt, MFieldTy.countsAt, decide_eq_true_eq] using hq
  union u on i hq env on' := by
    simp only [MFieldTy.wordsAt, MFieldTy.countsAt] at hq
    exact ⟨Discriminant.readAt_eq (by omega) _ hq env on', fun n => Discriminant.read_bound hq⟩

theorem leaf_keeps {w : Nat} (hw : w ≤ 32) (p : Profile) :
    LeafRelated @KeepsRes w p (MFieldTy.countsAt w) where
  varchar ty e hq b hb := Varchar.fromSliceAt_keeps (by omega) p e ty.byteSize_le hb
  array ty s e hq b hb := by
    simp only [MFieldTy.countsAt, Bool.and_eq_true, decide_eq_true_eq] at hq
    exact Arr.fromSliceAt_keeps hw p e hq.1 hq.2 hb
  list ty m hq := by simpa only [MFieldTy.countsAt, decide_eq_true_eq] using hq
  union u on i hq env on' := by
    simp only [MFieldTy.countsAt] at hq
    exact ⟨Discriminant.readAt_eq (by omega) p hq env on', fun n => Discriminant.read_bound hq⟩

/-- C105: a message whose counts, lengths and discriminants fit in a machine word, and whose arrays cannot
announce more bytes than a word counts, is decoded the same: on every slice the target can hold, in both
profiles, whatever the outcome. -/
theorem C105_same {w : Nat} (hw : w ≤ 64) (c : Ctx) (m : Message)
    (hm : m.allFields (fun f => f.ty.sizesAt w) = true) (b : Bytes) (hb : b.length < 2 ^ w) :
    m.parseAt w c b = m.parse c b :=
  (relatedInd sameRelates c (leaf_same hw c.p)).all m hm b hb

example (b : Bytes) (hb : b.length < 2 ^ 16) : Ex.full.parseAt 16 Ex.ctx b = Ex.full.parse Ex.ctx b :=
  C105_same (by decide) Ex.ctx Ex.full (by decide) b hb

/-- C105: at 64 bits every message is decoded the same. -/
theorem C105_64 (c : Ctx) (m : Message) (b : Bytes) (hb : b.length < 2 ^ 64) :
    m.parseAt 64 c b = m.parse c b := by
  refine (relatedInd sameRelates c (leaf_64 c.p)).all m ?_ b hb
  exact allFields_true m

/-- C105: without the condition on arrays, with overflow checks: a slice is decoded the same or the
decoder panics, and it panics only on slices the 64-bit decoder does not accept. -/
theorem C105_checked {w : Nat} (hw : w ≤ 32) (c : Ctx) (hc : c.p = .checked) (m : Message)
    (hm : m.allFields (fun f => f.ty.wordsAt w) = true) (b : Bytes) (hb : b.length < 2 ^ w) :
    m.parseAt w c b = m.parse c b ∨ (m.parseAt w c b = .panic ∧ ∀ r, m.parse c b ≠ .ok r) :=
  (relatedInd safeRelates c (hc ▸ leaf_safe hw)).all m hm b hb

/-- An array of two-byte items with a count of four bytes. -/
def Ex.wideCount : Message :=
  .mk 40 "WideCount".toList [ .mk "a".toList (.array .u32 Ex.keyS) false ⟨true, false⟩ .little ] ⟨true, false⟩

example (b : Bytes) (hb : b.length < 2 ^ 32) : Ex.wideCount.parseAt 32 Ex.ctx b = Ex.wideCount.parse Ex.ctx b ∨
    (Ex.wideCount.parseAt 32 Ex.ctx b = .panic ∧ ∀ r, Ex.wideCount.parse Ex.ctx b ≠ .ok r) :=
  C105_checked (by decide) Ex.ctx rfl Ex.wideCount (by decide) b hb

/-- The condition on arrays in `C105_same` is needed: a 32-bit release build accepts six bytes as an array
of 2147483649 items; a 64-bit build refuses them. -/
example : Ex.wideCount.parseAt 32 { Ex.ctx with p := .wrapping } [1, 0, 0, 0x80, 7, 8] =
      .ok ⟨6, .msg [("a".toList, .seq ⟨[7, 8], 2147483649⟩)]⟩ ∧
    Ex.wideCount.parse { Ex.ctx with p := .wrapping } [1, 0, 0, 0x80, 7, 8] = .err .truncated :=
  ⟨by krfl, by krfl⟩
example : Ex.wideCount.parseAt 32 Ex.ctx [1, 0, 0, 0x80, 7, 8] = .panic := by krfl
example : Ex.wideCount.parseAt 64 Ex.ctx [1, 0, 0, 0x80, 7, 8] = .err .truncated := by
  rw [C105_64 _ _ _ (by decide)]; krfl

/-- C105: in both profiles, and whatever the length prefixes of strings: what the 64-bit decoder accepts is
accepted and decoded the same. -/
theorem C105_accepts {w : Nat} (hw : w ≤ 32) (c : Ctx) (m : Message)
    (hm : m.allFields (fun f => f.ty.countsAt w) = true) (b : Bytes) (hb : b.length < 2 ^ w)
    (r : Msg Value) (h : m.parse c b = .ok r) : m.parseAt w c b = .ok r :=
  (relatedInd keepsRelates c (leaf_keeps hw c.p)).all m hm b hb r h

example (b : Bytes) (hb : b.length < 2 ^ 32) (r : Msg Value) (h : Ex.wideCount.parse Ex.ctx b = .ok r) :
    Ex.wideCount.parseAt 32 Ex.ctx b = .ok r :=
  C105_accepts (by decide) Ex.ctx Ex.wideCount (by decide) b hb r h

/-- A string with a length of eight bytes. -/
def Ex.wideLength : Message :=
  .mk 41 "WideLength".toList [ .mk "s".toList (.varcharString .u64) false ⟨true, false⟩ .little ] ⟨true, false⟩

/-- What is accepted need not be acceptable to a 64-bit target: the upper half of the length is ignored. -/
example : Ex.wideLength.parseAt 32 Ex.ctx [1, 0, 0, 0, 1, 0, 0, 0, 65] =
      .ok ⟨9, .msg [("s".toList, .str [65])]⟩ ∧
    Ex.wideLength.parse Ex.ctx [1, 0, 0, 0, 1, 0, 0, 0, 65] = .panic :=
  ⟨by krfl, by krfl⟩

/-- C105: the decoder that also records offsets, under the conditions of `C105_same`: the same value, the
same offsets at every depth, the same outcome. -/
theorem C105_offsets {w : Nat} (hw : w ≤ 64) (c : Ctx) (m : Message)
    (hm : m.allFields (fun f => f.ty.sizesAt w) = true) (b : Bytes) (hb : b.length < 2 ^ w) :
    m.parseOffAt w c b = m.parseOff c b :=
  (offRelatedInd sameRelates c (leaf_same hw c.p)).all m hm b hb

example (b : Bytes) (hb : b.length < 2 ^ 16) : Ex.pair.parseOffAt 16 Ex.ctx b = Ex.pair.parseOff Ex.ctx b :=
  C105_offsets (by decide) Ex.ctx Ex.pair (by decide) b hb

/-- C105: at 64 bits offsets are recorded the same for every message. -/
theorem C105_offsets_64 (c : Ctx) (m : Message) (b : Bytes) (hb : b.length < 2 ^ 64) :
    m.parseOffAt 64 c b = m.parseOff c b :=
  (offRelatedInd sameRelates c (leaf_64 c.p)).all m (allFields_true m) b hb

example : Ex.wideCount.parseOffAt 64 Ex.ctx [1, 0, 0, 0x80, 7, 8] = Ex.wideCount.parseOff Ex.ctx [1, 0, 0, 0x80, 7, 8] :=
  C105_offsets_64 _ _ _ (by decide)

/-- C105: offsets under the conditions of `C105_checked`. -/
theorem C105_offsets_checked {w : Nat} (hw : w ≤ 32) (c : Ctx) (hc : c.p = .checked) (m : Message)
    (hm : m.allFields (fun f => f.ty.wordsAt w) = true) (b : Bytes) (hb : b.length < 2 ^ w) :
    m.parseOffAt w c b = m.parseOff c b ∨
      (m.parseOffAt w c b = .panic ∧ ∀ r, m.parseOff c b ≠ .ok r) :=
  (offRelatedInd safeRelates c (hc ▸ leaf_safe hw)).all m hm b hb

example (b : Bytes) (hb : b.length < 2 ^ 32) :
    Ex.wideCount.parseOffAt 32 Ex.ctx b = Ex.wideCount.parseOff Ex.ctx b ∨
      (Ex.wideCount.parseOffAt 32 Ex.ctx b = .panic ∧ ∀ r, Ex.wideCount.parseOff Ex.ctx b ≠ .ok r) :=
  C105_offsets_checked (by decide) Ex.ctx rfl Ex.wideCount (by decide) b hb

/-- C105: offsets under the conditions of `C105_accepts`. -/
theorem C105_offsets_accepts {w : Nat} (hw : w ≤ 32) (c : Ctx) (m : Message)
    (hm : m.allFields (fun f => f.ty.countsAt w) = true) (b : Bytes) (hb : b.length < 2 ^ w)
    (r : Msg (Value × Offsets)) (h : m.parseOff c b = .ok r) : m.parseOffAt w c b = .ok r :=
  (offRelatedInd keepsRelates c (leaf_keeps hw c.p)).all m hm b hb r h

example (b : Bytes) (hb : b.length < 2 ^ 32) (r : Msg (Value × Offsets))
    (h : Ex.wideCount.parseOff Ex.ctx b = .ok r) : Ex.wideCount.parseOffAt 32 Ex.ctx b = .ok r :=
  C105_offsets_accepts (by decide) Ex.ctx Ex.wideCount (by decide) b hb r h

/-- C105: at every width, with no condition on the message: recording offsets does not change what is
decoded. -/
theorem C105_forget (w : Nat) (c : Ctx) (m : Message) (b : Bytes) :
    (m.parseOffAt w c b).bind (fun r => .ok ⟨r.size, r.data.1⟩) = m.parseAt w c b := by
  have := congrFun ((offFstInd (w := w) c).all m) b
  unfold Parser.map at this
  rw [← this]
  cases m.parseOffAt w c b <;> rfl

/-- Also where the narrower target accepts what the wider one refuses. -/
example : Ex.wideCount.parseOffAt 32 { Ex.ctx with p := .wrapping } [1, 0, 0, 0x80, 7, 8] =
    .ok ⟨6, (.msg [("a".toList, .seq ⟨[7, 8], 2147483649⟩)], .msg [("a".toList, ⟨0, 6⟩, .unit)])⟩ := by krfl

theorem MField.parseOffListAt_tiles {w : Nat} {c : Ctx} {emb : Bool} {fs : List MField} {env : Env}
    {offs : OffEnv} {off : Nat} {b : Bytes} {n : Nat} {env' : Env} {offs' : OffEnv}
    (h : MField.parseOffListAt w c emb fs env offs off b = .ok (n, env', offs')) :
    ∃ (vs : Env) (os : OffEnv), env' = env ++ vs ∧ offs' = offs ++ os ∧ vs.length = fs.length ∧
      os.length = fs.length ∧ (fs = [] → n = off) ∧
      ∀ i f, fs[i]? = some f → ∃ r o v, os[i]? = some (f.name, r, o) ∧ vs[i]? = some (f.name, v) ∧
        r.start ≤ r.stop ∧ r.start ≤ b.length ∧ (i = 0 → r.start = off) ∧
        (∀ p, i ≠ 0 → os[i - 1]? = some p → r.start = p.2.1.stop) ∧ (i + 1 = fs.length → r.stop = n) ∧
        f.parseOffAt w c emb (env ++ vs.take i) (b.drop r.start) = .ok ⟨r.stop - r.start, (v, o)⟩ := by
  induction fs generalizing env offs off with
  | nil =>
    simp only [MField.parseOffListAt, Res.ok.injEq, Prod.mk.injEq] at h
    obtain ⟨rfl, rfl, rfl⟩ := h
    exact ⟨[], [], by simp, by simp, rfl, rfl, fun _ => rfl, fun i f hf => by simp at hf⟩
  | cons f fs ih =>
    simp only [MField.parseOffListAt] at h
    obtain ⟨rest, hd, h⟩ := Res.bind_eq_ok.mp h
    obtain ⟨⟨k, v, o⟩, hm, h⟩ := Res.bind_eq_ok.mp h
    obtain ⟨vs, os, he, ho, hv1, ho1, hn, hall⟩ := ih h
    obtain ⟨hle, rfl⟩ := dropFrom_eq_ok.mp hd
    refine ⟨(f.name, v) :: vs, (f.name, ⟨off, off + k⟩, o) :: os, by simp [he], by simp [ho], by simp [hv1],
      by simp [ho1], by simp, ?_⟩
    intro i g hg
    cases i with
    | zero =>
      obtain rfl : f = g := by simpa using hg
      refine ⟨⟨off, off + k⟩, o, v, rfl, rfl, by simp, hle, fun _ => rfl, by simp, ?_, ?_⟩
      · intro hl
        have : fs = [] := by simpa using hl
        exact (hn this).symm
      · simpa using hm
    | succ i =>
      obtain ⟨r, o', v', h1, h2, h3, h4, h5, h6, h7, h8⟩ := hall i g (by simpa using hg)
      refine ⟨r, o', v', by simpa using h1, by simpa using h2, h3, h4, by simp, ?_, ?_, ?_⟩
      · intro p _ hp
        cases i with
        | zero =>
          obtain rfl : (f.name, (⟨off, off + k⟩ : FieldOffset), o) = p := by simpa using hp
          exact h5 rfl
        | succ i => exact h6 p (by simp) (by simpa using hp)
      · intro hl; exact h7 (by simpa using hl)
      · simpa using h8

/-- C105: at every width the reported ranges tile what was decoded: the first starts at 0, each starts where
the one before stops, the last stops at the reported size, and each is what the field's own decoder took. -/
theorem C105_tiles {w : Nat} (c : Ctx) (m : Message) {b : Bytes} {n : Nat} {v : Value} {o : Offsets}
    (h : m.parseOffAt w c b = .ok ⟨n, (v, o)⟩) :
    ∃ (vs : Env) (offs : OffEnv), v = .msg vs ∧ o = .msg offs ∧
      vs.length = m.fields.length ∧ offs.length = m.fields.length ∧ (m.fields = [] → n = 0) ∧
      ∀ i f, m.fields[i]? = some f → ∃ r o v, offs[i]? = some (f.name, r, o) ∧
        vs[i]? = some (f.name, v) ∧ r.start ≤ r.stop ∧ r.start ≤ b.length ∧ (i = 0 → r.start = 0) ∧
        (∀ p, i ≠ 0 → offs[i - 1]? = some p → r.start = p.2.1.stop) ∧
        (i + 1 = m.fields.length → r.stop = n) ∧
        f.parseOffAt w c (c.emb m.id) (vs.take i) (b.drop r.start) = .ok ⟨r.stop - r.start, (v, o)⟩ := by
  obtain ⟨id, nm, fs, sz⟩ := m
  simp only [Message.parseOffAt] at h
  obtain ⟨⟨k, vs, offs⟩, hr, h⟩ := Res.bind_eq_ok.mp h
  cases h
  obtain ⟨vs', os, rfl, rfl, h1, h2, h3, h4⟩ := MField.parseOffListAt_tiles hr
  exact ⟨_, _, rfl, rfl, h1, h2, h3, h4⟩

example (c : Ctx) {b : Bytes} {n : Nat} {v : Value} {o : Offsets}
    (h : Ex.pair.parseOffAt 32 c b = .ok ⟨n, (v, o)⟩) : ∃ vs offs, v = .msg vs ∧ o = .msg offs ∧
      vs.length = 3 ∧ offs.length = 3 := by
  obtain ⟨vs, offs, h1, h2, h3, h4, _⟩ := C105_tiles c Ex.pair h
  exact ⟨vs, offs, h1, h2, h3, h4⟩

/-- C105: writing is the same, chunk by chunk and with the same outcome, when discriminants are words. -/
theorem C105_write {w : Nat} (hw : w ≤ 64) (c : Ctx) (m : Message)
    (hm : m.allFields (fun f => f.ty.keysAt w) = true) (v : Value) : m.writeAt w c v = m.write c v :=
  (writeInd hw c).all m hm v

example (v : Value) : Ex.full.writeAt 16 Ex.ctx v = Ex.full.write Ex.ctx v :=
  C105_write (by decide) Ex.ctx Ex.full (by decide) v

/-- C105: so a message written on a 64-bit target is read back on a smaller one. -/
theorem C105_roundtrip {w : Nat} (hw : w ≤ 32) (c : Ctx) {m : Message} (ht : m.tailGreedy c.emb = true)
    (hm : m.allFields (fun f => f.ty.countsAt w) = true) {v : Value} (hv : m.Repr c v)
    (hb : (m.write c v).bytes.length < 2 ^ w) :
    m.parseAt w c (m.write c v).bytes = .ok ⟨(m.write c v).bytes.length, v⟩ :=
  C105_accepts hw c m hm _ hb _ (C22_roundtrip c ht hv).2

example : Ex.full.parseAt 16 Ex.ctx (Ex.full.write Ex.ctx Ex.fullV).bytes =
    .ok ⟨(Ex.full.write Ex.ctx Ex.fullV).bytes.length, Ex.fullV⟩ :=
  C105_roundtrip (by decide) Ex.ctx (by decide) (by decide) Ex.fullV_repr (by decide)

/-- C105: the size of an encoding is the number of its bytes at every width that can count them. -/
theorem C105_size {w : Nat} (hw : w ≤ 64) (p : Profile) (o : Out) (hb : o.bytes.length < 2 ^ w) :
    sizeOfAt w p o = sizeOf p o := by
  have h64 : (2 : Nat) ^ w ≤ 2 ^ 64 := Nat.pow_le_pow_right (by omega) hw
  unfold sizeOfAt sizeOf
  rw [Out.run_counterAt w p o 0 (by omega), Out.run_counter p o 0 (by omega)]
  cases o.res <;> rfl

example (p : Profile) : sizeOfAt 16 p (Varchar.writeTo .little 2 [1, 2, 3]) = .ok 5 := by
  rw [C105_size (by decide) p _ (by decide)]; cases p <;> decide

/-- C105: an encoding with more bytes than a word can count: with overflow checks, asking for its size stops the
program; without, the size is what is left of the count. -/
theorem C105_size_large (w : Nat) (o : Out) (hb : 2 ^ w ≤ o.bytes.length) :
    sizeOfAt w .checked o = .panic ∧
      (o.res = .ok () → sizeOfAt w .wrapping o = .ok (o.bytes.length % 2 ^ w)) := by
  obtain ⟨cs, r⟩ := o
  have hpos : (0 : Nat) < 2 ^ w := Nat.pow_pos (by omega)
  simp only [Out.bytes] at hb
  constructor
  · have key : ∀ (cs : List Bytes) (n : Nat), n < 2 ^ w → 2 ^ w ≤ n + cs.flatten.length →
        ∃ k, (Sink.counterAt w .checked).runChunks r cs n = (.panic, k) := by
      intro cs
      induction cs with
      | nil => intro n h1 h2; simp at h2; omega
      | cons c cs ih =>
        intro n h1 h2
        simp only [List.flatten_cons, List.length_append] at h2
        by_cases hc : n + c.length < 2 ^ w
        · have e : (Sink.counterAt w .checked).writeAll c n = (.ok (), n + c.length) := by
            simp only [Sink.counterAt, addU, if_pos hc]
          simp only [Sink.runChunks, e]
          exact ih _ hc (by omega)
        · have e : (Sink.counterAt w .checked).writeAll c n = (.panic, n) := by
            simp only [Sink.counterAt, addU, if_neg hc]
          exact ⟨n, by simp only [Sink.runChunks, e]⟩
    obtain ⟨k, hk⟩ := key cs 0 hpos (by omega)
    simp only [sizeOfAt, Out.run, hk]
  · intro hr
    simp only at hr
    subst hr
    have key : ∀ (cs : List Bytes) (n : Nat), n < 2 ^ w →
        (Sink.counterAt w .wrapping).runChunks (.ok ()) cs n = (.ok (), (n + cs.flatten.length) % 2 ^ w) := by
      intro cs
      induction cs with
      | nil => intro n h1; simp [Sink.runChunks, Nat.mod_eq_of_lt h1]
      | cons c cs ih =>
        intro n h1
        have e : (Sink.counterAt w .wrapping).writeAll c n = (.ok (), (n + c.length) % 2 ^ w) := by
          by_cases hc : n + c.length < 2 ^ w
          · simp only [Sink.counterAt, addU, if_pos hc, Nat.mod_eq_of_lt hc]
          · simp only [Sink.counterAt, addU, if_neg hc]
        simp only [Sink.runChunks, e]
        rw [ih _ (Nat.mod_lt _ hpos)]
        simp only [List.flatten_cons, List.length_append, Nat.mod_add_mod, Nat.add_assoc]
    simp only [sizeOfAt, Out.run, key cs 0 hpos, Out.bytes, Nat.zero_add]

example : sizeOfAt 2 .checked (Varchar.writeTo .little 1 [1, 2, 3]) = .panic ∧
    sizeOfAt 2 .wrapping (Varchar.writeTo .little 1 [1, 2, 3]) = .ok 0 :=
  ⟨(C105_size_large 2 _ (by decide)).1, (C105_size_large 2 _ (by decide)).2 rfl⟩

/-- C105: setting the discriminant of a union is the same when the discriminant is a word. -/
theorem C105_discriminant {w : Nat} (hw : w ≤ 64) (p : Profile) (u : Union)
    (hu : u.discriminant.fitsAt w = true) (i : Nat) (key : Bytes) :
    u.setDiscriminantAt w p i key = u.setDiscriminant p i key := by
  unfold Union.setDiscriminantAt Union.setDiscriminant
  unfold Discriminant.fitsAt at hu
  cases ha : u.discriminant.access with
  | none => cases u.cases[i]? <;> rfl
  | some a =>
    rw [ha] at hu
    simp only [Bool.and_eq_true, decide_eq_true_eq] at hu
    cases u.cases[i]? with
    | none => rfl
    | some k => exact Access.setAt_eq hw p hu.1 key k.case

example (p : Profile) (key : Bytes) : Ex.choice.setDiscriminantAt 16 p 2 key = Ex.choice.setDiscriminant p 2 key :=
  C105_discriminant (by decide) p Ex.choice (by decide) 2 key

end Props
end Proto
