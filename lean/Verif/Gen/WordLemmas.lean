import Verif.Gen.OffsetLemmas
import Verif.Spec.Word
import Verif.Gen.MessageLemmas
import Verif.Gen.AccessLemmas

/-!
# Targets of different width compared
-/

namespace Proto

/-! ## Arithmetic -/

theorem mod_mod_pow {a b n : Nat} (h : a ≤ b) : n % 2 ^ b % 2 ^ a = n % 2 ^ a :=
  Nat.mod_mod_of_dvd n (Nat.pow_dvd_pow 2 h)

/-- A complement, cut down, is the complement of what was cut down. -/
theorem notU_mod_pow {a b : Nat} (h : a ≤ b) (y : Nat) : notU b y % 2 ^ a = notU a y := by
  apply Nat.eq_of_testBit_eq
  intro i
  rw [Nat.testBit_mod_two_pow]
  have key : ∀ b, (notU b y).testBit i = (decide (i < b) && !(y % 2 ^ b).testBit i) := by
    intro b
    have hlt : y % 2 ^ b < 2 ^ b := Nat.mod_lt _ (Nat.two_pow_pos b)
    rw [notU, Nat.sub_right_comm, Nat.sub_sub, Nat.add_comm (y % 2 ^ b) 1, ← Nat.sub_sub, Nat.sub_right_comm,
      Nat.sub_sub, Nat.testBit_two_pow_sub_succ hlt]
  rw [key, key, Nat.testBit_mod_two_pow, Nat.testBit_mod_two_pow]
  by_cases hi : i < a
  · simp [hi, Nat.lt_of_lt_of_le hi h]
  · simp [hi]

theorem notU_congr {w y z : Nat} (h : y % 2 ^ w = z % 2 ^ w) : notU w y = notU w z := by
  simp only [notU, h]

namespace BitCodec

theorem maskAt_ok (p : Profile) {w size : Nat} (h : size < w) : maskAt w p size = .ok (2 ^ size - 1) := by
  have hlt : (2 : Nat) ^ size < 2 ^ w := Nat.pow_lt_pow_right (by omega) h
  have hpos := Nat.two_pow_pos size
  simp only [maskAt, shlU_ok p h, Res.bind_ok, Nat.one_shiftLeft, Nat.mod_eq_of_lt hlt]
  rw [subU_ok p (by omega)]

theorem maskAt_checked {w size : Nat} (h : w ≤ size) : maskAt w .checked size = .panic := by
  simp only [maskAt, shlU]
  rw [if_neg (by omega)]
  rfl

theorem subU_mod {w v : Nat} (p : Profile) {sz a b : Nat} (hw : 8 * sz ≤ w) (hv : 8 * sz ≤ v)
    (f : Nat → R α) (hf : ∀ x y, x % 256 ^ sz = y % 256 ^ sz → f x = f y) :
    (subU p w a b >>= f) = (subU p v a b >>= f) := by
  simp only [subU]
  by_cases h : b ≤ a
  · simp only [if_pos h]
  · simp only [if_neg h]
    cases p with
    | checked => rfl
    | wrapping =>
      simp only [Res.bind_ok]
      apply hf
      rw [pow256, mod_mod_pow hw, mod_mod_pow hv]
      have key : ∀ w, 8 * sz ≤ w →
          (a + 2 ^ w - b % 2 ^ w) % 2 ^ (8 * sz) = (a + 2 ^ (8 * sz) - b % 2 ^ (8 * sz)) % 2 ^ (8 * sz) := by
        intro w hw
        have h1 : b % 2 ^ w < 2 ^ w := Nat.mod_lt _ (Nat.two_pow_pos w)
        have h2 : b % 2 ^ (8 * sz) < 2 ^ (8 * sz) := Nat.mod_lt _ (Nat.two_pow_pos _)
        obtain ⟨k, hk⟩ : 2 ^ (8 * sz) ∣ 2 ^ w := Nat.pow_dvd_pow 2 hw
        have h3 : b % 2 ^ w % 2 ^ (8 * sz) = b % 2 ^ (8 * sz) := mod_mod_pow hw
        have h4 := Nat.div_add_mod (b % 2 ^ w) (2 ^ (8 * sz))
        rw [h3] at h4
        generalize hq : b % 2 ^ w / 2 ^ (8 * sz) = q at h4
        have h5 : q < k := by
          rw [← hq]
          apply (Nat.div_lt_iff_lt_mul (Nat.two_pow_pos _)).mpr
          rw [Nat.mul_comm, ← hk]; exact h1
        obtain ⟨j, rfl⟩ : ∃ j, k = q + 1 + j := ⟨k - q - 1, by omega⟩
        have h6 : a + 2 ^ w - b % 2 ^ w =
            (a + 2 ^ (8 * sz) - b % 2 ^ (8 * sz)) + 2 ^ (8 * sz) * j := by
          rw [← h4, hk, Nat.mul_add, Nat.mul_add]
          omega
        rw [h6, Nat.add_mul_mod_self_left]
      rw [key w hw, key v hv]

/-- What is done with the shift amount only depends on its value in the integer type. -/
theorem shiftAmountAt_bind {w : Nat} (p : Profile) (e : Endian) {sz : Nat} (off size : Nat)
    (hw : 8 * sz ≤ w) (hw64 : w ≤ 64) (f : Nat → R α)
    (hf : ∀ x y, fromUsize sz x = fromUsize sz y → f x = f y) :
    (shiftAmountAt w p e off size >>= f) = (shiftAmount p e off size >>= f) := by
  cases e with
  | little => rfl
  | big =>
    simp only [shiftAmountAt, shiftAmount, beShift, usizeBits]
    rw [subU_ok p (show size % 8 ≤ 8 by omega), subU_ok p (show size % 8 ≤ 8 by omega)]
    simp only [Res.bind_ok]
    exact subU_mod p hw (by omega) f (fun x y h => hf x y (by simpa [fromUsize] using h))

theorem readAlignedAt_eq {w : Nat} (p : Profile) (e : Endian) {sz : Nat} (off : Nat) {size : Nat}
    (hw : 8 * sz ≤ w) (hw64 : w ≤ 64) (hs : size < w) (buf : Bytes) :
    readAlignedAt w p e sz off size buf = readAligned p e sz off size buf := by
  simp only [readAlignedAt, readAligned]
  rw [maskAt_ok p hs, mask_ok p (by omega)]
  simp only [Res.bind_ok]
  cases readBytes e sz buf with
  | err e => simp only [Res.bind_err]
  | panic => simp only [Res.bind_panic]
  | ok v =>
    simp only [Res.bind_ok]
    rw [shiftAmountAt_bind (sz := sz) p e off size hw hw64]
    intro x y h
    rw [h]

theorem writeAlignedAt_eq {w : Nat} (p : Profile) (e : Endian) {sz off size : Nat}
    (hw : 8 * sz ≤ w) (hw64 : w ≤ 64) (hs : size < w) (ho : off < w) (buf : Bytes) (v : Nat) :
    writeAlignedAt w p e sz off size buf v = writeAligned p e sz off size buf v := by
  simp only [writeAlignedAt, writeAligned]
  rw [maskAt_ok p hs, mask_ok p (by omega)]
  simp only [Res.bind_ok, usizeBits]
  rw [shlU_ok p ho, shlU_ok p (show off < 64 by omega)]
  simp only [Res.bind_ok]
  have hmask : fromUsize sz (notU w (((2 ^ size - 1) <<< off) % 2 ^ w)) =
      fromUsize sz (notU 64 (((2 ^ size - 1) <<< off) % 2 ^ 64)) := by
    rw [notU_congr (Nat.mod_mod _ _), notU_congr (w := 64) (Nat.mod_mod _ _)]
    rw [fromUsize, fromUsize, pow256, notU_mod_pow hw, notU_mod_pow (by omega)]
  rw [hmask]
  cases readBytes e sz buf with
  | err e => simp only [Res.bind_err]
  | panic => simp only [Res.bind_panic]
  | ok r =>
    simp only [Res.bind_ok]
    rw [shiftAmountAt_bind (sz := sz) p e off size hw hw64]
    intro x y h
    rw [h]

theorem readUnalignedAt_eq {w : Nat} (p : Profile) (e : Endian) {sz : Nat} (off : Nat) {size : Nat}
    (hw : 8 * sz ≤ w) (hw64 : w ≤ 64) (hs : size < w) (buf : Bytes) :
    readUnalignedAt w p e sz off size buf = readUnaligned p e sz off size buf := by
  simp only [readUnalignedAt, readUnaligned, readAlignedAt_eq p e off hw hw64 hs]

theorem writeUnalignedAt_eq {w : Nat} (p : Profile) (e : Endian) {sz off size : Nat}
    (hw : 8 * sz ≤ w) (hw64 : w ≤ 64) (hs : size < w) (ho : off < w) (buf : Bytes) (v : Nat) :
    writeUnalignedAt w p e sz off size buf v = writeUnaligned p e sz off size buf v := by
  simp only [writeUnalignedAt, writeUnaligned, writeAlignedAt_eq p e hw hw64 hs ho]

theorem readAlignedAt_checked {w size : Nat} (h : w ≤ size) (e : Endian) (sz off : Nat) (buf : Bytes) :
    readAlignedAt w .checked e sz off size buf = .panic := by
  simp only [readAlignedAt, maskAt_checked h, Res.bind_panic]

theorem writeAlignedAt_checked {w size : Nat} (h : w ≤ size) (e : Endian) (sz off : Nat) (buf : Bytes)
    (v : Nat) : writeAlignedAt w .checked e sz off size buf v = .panic := by
  simp only [writeAlignedAt, maskAt_checked h, Res.bind_panic]

theorem pad8_ne_err (buf : Bytes) (e : Error) : pad8 buf ≠ .err e := by
  unfold pad8; split <;> simp

theorem readUnalignedAt_checked {w size : Nat} (h : w ≤ size) (e : Endian) (sz off : Nat) (buf : Bytes) :
    readUnalignedAt w .checked e sz off size buf = .panic := by
  simp only [readUnalignedAt, readAlignedAt_checked h]
  cases hp : pad8 buf with
  | ok d => simp only [Res.bind_ok]
  | err e => exact absurd hp (pad8_ne_err buf e)
  | panic => simp only [Res.bind_panic]

theorem writeUnalignedAt_checked {w size : Nat} (h : w ≤ size) (e : Endian) (sz off : Nat) (buf : Bytes)
    (v : Nat) : writeUnalignedAt w .checked e sz off size buf v = .panic := by
  simp only [writeUnalignedAt, writeAlignedAt_checked h, Res.bind_panic]
  cases hp : pad8 buf with
  | ok d => simp only [Res.bind_ok]
  | err e => exact absurd hp (pad8_ne_err buf e)
  | panic => simp only [Res.bind_panic]

end BitCodec

/-! ## Items of arrays -/

/-- Using a range of an array on a slice: with overflow checks the width does not matter. -/
theorem Arr.rangeAt_checked {w : Nat} (hw : w ≤ 64) {buf : Bytes} (hb : buf.length < 2 ^ w)
    (isz index : Nat) (k : Nat × Nat → Bytes → R α) :
    (rangeAt w .checked isz index >>= fun r => slice buf r.1 r.2 >>= k r) =
      (range .checked isz index >>= fun r => slice buf r.1 r.2 >>= k r) := by
  have h64 : (2 : Nat) ^ w ≤ 2 ^ 64 := Nat.pow_le_pow_right (by omega) hw
  by_cases hr : index * isz + isz < 2 ^ w
  · have h1 : rangeAt w .checked isz index = .ok (index * isz, index * isz + isz) := by
      simp only [rangeAt]
      rw [mulU_ok _ (by omega)]
      simp only [Res.bind_ok]
      rw [addU_ok _ hr]
      simp only [Res.bind_ok, Res.pure_eq]
    have h2 : range .checked isz index = .ok (index * isz, index * isz + isz) := by
      simp only [range, usizeBits]
      rw [mulU_ok _ (by omega)]
      simp only [Res.bind_ok]
      rw [addU_ok _ (by omega)]
      simp only [Res.bind_ok, Res.pure_eq]
    rw [h1, h2]
  · have h1 : rangeAt w .checked isz index = .panic := by
      simp only [rangeAt, mulU, addU]
      by_cases hm : index * isz < 2 ^ w
      · simp only [if_pos hm, Res.bind_ok, if_neg hr, Res.bind_panic]
      · simp only [if_neg hm, Res.bind_panic]
    rw [h1]
    have h2 : range .checked isz index = .panic ∨
        range .checked isz index = .ok (index * isz, index * isz + isz) := by
      simp only [range]
      by_cases hm : index * isz < 2 ^ usizeBits
      · rw [mulU_ok _ hm]
        simp only [Res.bind_ok]
        by_cases ha : index * isz + isz < 2 ^ usizeBits
        · rw [addU_ok _ ha]
          simp only [Res.bind_ok, Res.pure_eq, or_true]
        · left
          simp only [addU]
          rw [if_neg ha]
          simp only [Res.bind_panic]
      · left
        simp only [mulU]
        rw [if_neg hm]
        simp only [Res.bind_panic]
    rcases h2 with h2 | h2
    · rw [h2]
    · rw [h2]
      simp only [Res.bind_panic, Res.bind_ok]
      rw [slice, if_neg (by omega)]
      rfl

/-- An item that lies in the buffer is found at every width, in both profiles. -/
theorem Arr.rangeAt_ok {w : Nat} (p : Profile) {isz index : Nat} (h : index * isz + isz < 2 ^ w) :
    rangeAt w p isz index = .ok (index * isz, index * isz + isz) := by
  simp only [rangeAt]
  rw [mulU_ok p (by omega)]
  simp only [Res.bind_ok]
  rw [addU_ok p h]
  simp only [Res.bind_ok, Res.pure_eq]

theorem Arr.range_ok (p : Profile) {isz index : Nat} (h : index * isz + isz < 2 ^ 64) :
    range p isz index = .ok (index * isz, index * isz + isz) := Arr.rangeAt_ok (w := 64) p h

theorem ArrayCodec.rangeAt_eq (w : Nat) (p : Profile) (bits index : Nat) :
    ArrayCodec.rangeAt w p bits index = Arr.rangeAt w p (bits / 8) index := rfl

theorem ArrayCodec.range_eq (p : Profile) (bits index : Nat) :
    ArrayCodec.range p bits index = Arr.range p (bits / 8) index := rfl

/-! ## Values that are read fit their type -/

theorem readBytes_bound {e : Endian} {sz n : Nat} {buf : Bytes} (h : readBytes e sz buf = .ok n) :
    n < 2 ^ (8 * sz) := by
  unfold readBytes at h
  split at h
  · next hl =>
    have hlen : (buf.take sz).length = sz := by simp; omega
    rw [← pow256]
    cases e with
    | little => obtain rfl := Res.ok.inj h; have := leNat_lt (buf.take sz); rwa [hlen] at this
    | big => obtain rfl := Res.ok.inj h; have := beNat_lt (buf.take sz); rwa [hlen] at this
  · cases h

theorem ByteCodec.readUnaligned_bound {e : Endian} {sz n : Nat} {buf : Bytes}
    (h : ByteCodec.readUnaligned e sz buf = .ok n) : n < 2 ^ (8 * sz) := by
  obtain ⟨d, _, h⟩ := Res.bind_eq_ok.mp h
  exact readBytes_bound h

theorem BitCodec.readAligned_bound {p : Profile} {e : Endian} {sz off size n : Nat} {buf : Bytes}
    (h : BitCodec.readAligned p e sz off size buf = .ok n) : n < 2 ^ (8 * sz) := by
  obtain ⟨m, _, h⟩ := Res.bind_eq_ok.mp h
  obtain ⟨v, _, h⟩ := Res.bind_eq_ok.mp h
  obtain ⟨s, _, h⟩ := Res.bind_eq_ok.mp h
  obtain ⟨t, _, h⟩ := Res.bind_eq_ok.mp h
  obtain rfl := Res.ok.inj h
  apply Nat.and_lt_two_pow
  rw [fromUsize, pow256]
  exact Nat.mod_lt _ (Nat.two_pow_pos _)

theorem BitCodec.readUnaligned_bound {p : Profile} {e : Endian} {sz off size n : Nat} {buf : Bytes}
    (h : BitCodec.readUnaligned p e sz off size buf = .ok n) : n < 2 ^ (8 * sz) := by
  obtain ⟨d, _, h⟩ := Res.bind_eq_ok.mp h
  exact BitCodec.readAligned_bound h

theorem ByteCodec.read_bound {e : Endian} {sz n : Nat} {buf : Bytes}
    (h : ByteCodec.read e sz buf = .ok n) : n < 2 ^ (8 * sz) := by
  unfold ByteCodec.read at h
  split at h
  · exact ByteCodec.readUnaligned_bound h
  · exact readBytes_bound h

theorem FixedField.getRaw_bound {p : Profile} {f : FixedField} {buf : Bytes} {n : Nat}
    (h : f.getRaw p buf = .ok n) : n < 2 ^ (8 * f.loc.rawSize) := by
  obtain ⟨s, _, h⟩ := Res.bind_eq_ok.mp h
  split at h
  · split at h
    · exact BitCodec.readUnaligned_bound h
    · exact BitCodec.readAligned_bound h
  · split at h
    · exact ByteCodec.readUnaligned_bound h
    · exact readBytes_bound h

theorem ArrayField.getItem_bound {p : Profile} {f : ArrayField} {buf : Bytes} {k n : Nat}
    (h : f.getItem p buf k = .ok n) : n < 2 ^ (8 * f.ty.byteSize) := by
  obtain ⟨s, _, h⟩ := Res.bind_eq_ok.mp h
  obtain ⟨r, _, h⟩ := Res.bind_eq_ok.mp h
  obtain ⟨t, _, h⟩ := Res.bind_eq_ok.mp h
  exact ByteCodec.read_bound h

/-! ## Accessors -/

theorem FixedField.getRawAt_eq {w : Nat} (hw : w ≤ 64) {f : FixedField} (h : f.fitsAt w = true)
    (p : Profile) (buf : Bytes) : f.getRawAt w p buf = f.getRaw p buf := by
  simp only [FixedField.fitsAt, Bool.or_eq_true, Bool.and_eq_true, decide_eq_true_eq] at h
  simp only [FixedField.getRawAt, FixedField.getRaw]
  rcases h with h | ⟨⟨h1, h2⟩, h3⟩
  · simp only [h, ne_eq, not_true_eq_false, if_false]
  · simp only [BitCodec.readUnalignedAt_eq p f.endian f.loc.bitOffset h2 hw h1,
      BitCodec.readAlignedAt_eq p f.endian f.loc.bitOffset h2 hw h1]

theorem FixedField.setRawAt_eq {w : Nat} (hw : w ≤ 64) {f : FixedField} (h : f.fitsAt w = true)
    (p : Profile) (buf : Bytes) (v : Nat) : f.setRawAt w p buf v = f.setRaw p buf v := by
  simp only [FixedField.fitsAt, Bool.or_eq_true, Bool.and_eq_true, decide_eq_true_eq] at h
  simp only [FixedField.setRawAt, FixedField.setRaw]
  rcases h with h | ⟨⟨h1, h2⟩, h3⟩
  · simp only [h, ne_eq, not_true_eq_false, if_false]
  · simp only [BitCodec.writeUnalignedAt_eq p f.endian h2 hw h1 h3,
      BitCodec.writeAlignedAt_eq p f.endian h2 hw h1 h3]

theorem ArrayField.getItemAt_eq {w : Nat} (hw : w ≤ 64) {f : ArrayField} {k : Nat}
    (h : k * (f.itemBitSize / 8) + f.itemBitSize / 8 < 2 ^ w) (p : Profile) (buf : Bytes) :
    f.getItemAt w p buf k = f.getItem p buf k := by
  have h64 : (2 : Nat) ^ w ≤ 2 ^ 64 := Nat.pow_le_pow_right (by omega) hw
  simp only [ArrayField.getItemAt, ArrayField.getItem, ArrayCodec.getRawAt, ArrayCodec.getRaw,
    ArrayCodec.rangeAt_eq, ArrayCodec.range_eq]
  rw [Arr.rangeAt_ok p h, Arr.range_ok p (by omega)]

theorem ArrayField.setItemAt_eq {w : Nat} (hw : w ≤ 64) {f : ArrayField} {k : Nat}
    (h : k * (f.itemBitSize / 8) + f.itemBitSize / 8 < 2 ^ w) (p : Profile) (buf : Bytes) (v : Nat) :
    f.setItemAt w p buf k v = f.setItem p buf k v := by
  have h64 : (2 : Nat) ^ w ≤ 2 ^ 64 := Nat.pow_le_pow_right (by omega) hw
  simp only [ArrayField.setItemAt, ArrayField.setItem, ArrayCodec.setRawAt, ArrayCodec.setRaw,
    ArrayCodec.rangeAt_eq, ArrayCodec.range_eq]
  rw [Arr.rangeAt_ok p h, Arr.range_ok p (by omega)]

theorem Access.getAt_eq {w : Nat} (hw : w ≤ 64) (p : Profile) : ∀ {a : Access}, a.fitsAt w = true →
    ∀ buf, a.getAt w p buf = a.get p buf
  | .fixed f, h, buf => FixedField.getRawAt_eq hw h p buf
  | .item f k, h, buf => ArrayField.getItemAt_eq hw (of_decide_eq_true h) p buf
  | .nested loc rest, h, buf => by
    simp only [Access.fitsAt] at h
    simp only [Access.getAt, Access.get, Access.getAt_eq hw p h]

theorem Access.setAt_eq {w : Nat} (hw : w ≤ 64) (p : Profile) : ∀ {a : Access}, a.fitsAt w = true →
    ∀ buf v, a.setAt w p buf v = a.set p buf v
  | .fixed f, h, buf, v => FixedField.setRawAt_eq hw h p buf v
  | .item f k, h, buf, v => ArrayField.setItemAt_eq hw (of_decide_eq_true h) p buf v
  | .nested loc rest, h, buf, v => by
    simp only [Access.fitsAt] at h
    simp only [Access.setAt, Access.set, Access.setAt_eq hw p h]

theorem Access.get_bound {p : Profile} : ∀ {a : Access} {buf : Bytes} {n : Nat}, a.get p buf = .ok n →
    n < 2 ^ (8 * a.rawBytes)
  | .fixed f, buf, n, h => FixedField.getRaw_bound h
  | .item f k, buf, n, h => ArrayField.getItem_bound h
  | .nested loc rest, buf, n, h => by
    obtain ⟨s, _, h⟩ := Res.bind_eq_ok.mp h
    exact Access.get_bound (a := rest) h

/-! ## Relating results -/

/-- A relation between results that sequencing respects. -/
structure Relates (L : ∀ {α : Type}, R α → R α → Prop) : Prop where
  refl : ∀ {α : Type} (x : R α), L x x
  bind : ∀ {α β : Type} {x y : R α} {f g : α → R β}, L x y → (∀ a, L (f a) (g a)) →
    L (x >>= f) (y >>= g)

/-- The same result. -/
def SameRes {α : Type} (x y : R α) : Prop := y = x

/-- The same result, or a panic in place of a failure. -/
def SafeRes {α : Type} (x y : R α) : Prop := y = x ∨ (y = .panic ∧ ∀ a, x ≠ .ok a)

/-- The same result if the first is a success. -/
def KeepsRes {α : Type} (x y : R α) : Prop := ∀ a, x = .ok a → y = .ok a

theorem sameRelates : Relates @SameRes where
  refl _ := rfl
  bind := by
    intro α β x y f g h hf
    obtain rfl : y = x := h
    have : g = f := funext fun a => hf a
    rw [this]
    exact rfl

theorem safeRelates : Relates @SafeRes where
  refl _ := .inl rfl
  bind := by
    intro α β x y f g h hf
    rcases h with rfl | ⟨rfl, h⟩
    · cases y with
      | ok a => exact hf a
      | err e => exact .inl rfl
      | panic => exact .inl rfl
    · refine .inr ⟨rfl, fun b hb => ?_⟩
      obtain ⟨a, ha, _⟩ := Res.bind_eq_ok.mp hb
      exact h a ha

theorem keepsRelates : Relates @KeepsRes where
  refl _ := fun _ h => h
  bind := by
    intro α β x y f g h hf b hb
    obtain ⟨a, ha, hfa⟩ := Res.bind_eq_ok.mp hb
    exact Res.bind_eq_ok.mpr ⟨a, h a ha, hf a b hfa⟩

/-- The decoders are related on every slice a target with words of `w` bits can hold. -/
def Parser.Related (L : ∀ {α : Type}, R α → R α → Prop) (w : Nat) (f g : Parser α) : Prop :=
  ∀ b : Bytes, b.length < 2 ^ w → L (f b) (g b)

section Related

variable {L : ∀ {α : Type}, R α → R α → Prop} {w : Nat}

theorem Parser.Related.refl (h : Relates @L) (f : Parser α) : Parser.Related @L w f f :=
  fun _ _ => h.refl _

theorem Parser.Related.map (h : Relates @L) {f g : Parser α} (hf : Parser.Related @L w f g)
    (k : α → β) : Parser.Related @L w (f.map k) (g.map k) := by
  intro b hb
  exact h.bind (f := fun m => .ok (m.map k)) (g := fun m => .ok (m.map k)) (hf b hb)
    (fun _ => h.refl _)

theorem Optional.related (h : Relates @L) {f g : Parser α} (hf : Parser.Related @L w f g) :
    Parser.Related @L w (Optional.fromSlice f) (Optional.fromSlice g) := by
  intro b hb
  cases b with
  | nil => exact h.refl _
  | cons x rest =>
    simp only [Optional.fromSlice]
    by_cases hx : x.toNat > 0
    · simp only [if_pos hx]
      exact h.bind (hf rest (by simp at hb; omega)) (fun _ => h.refl _)
    · simp only [if_neg hx]
      exact h.refl _

theorem dropFrom_length {b r : Bytes} {n : Nat} (h : dropFrom b n = .ok r) : r.length ≤ b.length := by
  obtain ⟨_, _, rfl⟩ := slice_eq_ok.mp h
  simp

theorem dropFrom_related (h : Relates @L) {b : Bytes} (hb : b.length < 2 ^ w) {n : Nat}
    {f g : Bytes → R α} (hf : ∀ r : Bytes, r.length < 2 ^ w → L (f r) (g r)) :
    L (dropFrom b n >>= f) (dropFrom b n >>= g) := by
  cases hd : dropFrom b n with
  | ok r =>
    have := dropFrom_length hd
    exact hf r (by omega)
  | err e => exact h.refl _
  | panic => exact h.refl _

theorem Lst.scan_related (h : Relates @L) {f g : Parser α} (hf : Parser.Related @L w f g)
    {data : Bytes} (hd : data.length < 2 ^ w) (n total : Nat) :
    L (Lst.scan f data n total) (Lst.scan g data n total) := by
  induction n generalizing total with
  | zero => exact h.refl _
  | succ n ih =>
    simp only [Lst.scan]
    exact dropFrom_related h hd fun r hr => h.bind (hf r hr) fun m => ih _

end Related

theorem Scalar.fromSlice_bound {e : Endian} {sz : Nat} {b : Bytes} {m : Msg Nat}
    (h : Scalar.fromSlice e sz b = .ok m) : sz ≤ b.length ∧ m.size = sz ∧ m.data < 2 ^ (8 * sz) := by
  unfold Scalar.fromSlice at h
  split at h
  · cases h
  · next hl =>
    obtain ⟨v, hv, h⟩ := Res.bind_eq_ok.mp h
    obtain rfl := Res.ok.inj h
    exact ⟨by omega, rfl, readBytes_bound hv⟩

theorem toUsizeAt_of_lt {w n : Nat} (h : n < 2 ^ w) : toUsizeAt w n = n := Nat.mod_eq_of_lt h

theorem Lst.fromSliceAt_related {L : ∀ {α : Type}, R α → R α → Prop} {w : Nat} (h : Relates @L)
    {f g : Parser α} (hf : Parser.Related @L w f g) (e : Endian) {sz : Nat} (hsz : 8 * sz ≤ w) :
    Parser.Related @L w (Lst.fromSlice e sz f) (Lst.fromSliceAt w e sz g) := by
  intro b hb
  simp only [Lst.fromSlice, Lst.fromSliceAt]
  cases hs : Scalar.fromSlice e sz b with
  | err e => exact h.refl _
  | panic => exact h.refl _
  | ok m =>
    obtain ⟨_, _, hd⟩ := Scalar.fromSlice_bound hs
    have hd' : toUsizeAt w m.data = m.data :=
      toUsizeAt_of_lt (Nat.lt_of_lt_of_le hd (Nat.pow_le_pow_right (by omega) hsz))
    simp only [Res.bind_ok, hd']
    exact dropFrom_related h hb fun r hr => h.bind (Lst.scan_related h hf hr _ _) fun _ => h.refl _

theorem Lst.unsizedAt_eq {w : Nat} (e : Endian) {sz : Nat} (hsz : 8 * sz ≤ w) (b : Bytes) :
    Lst.unsizedFromSliceAt w e sz b = Lst.unsizedFromSlice e sz b := by
  simp only [Lst.unsizedFromSlice, Lst.unsizedFromSliceAt]
  cases hs : Scalar.fromSlice e sz b with
  | err e => rfl
  | panic => rfl
  | ok m =>
    obtain ⟨_, _, hd⟩ := Scalar.fromSlice_bound hs
    have hd' : toUsizeAt w m.data = m.data :=
      toUsizeAt_of_lt (Nat.lt_of_lt_of_le hd (Nat.pow_le_pow_right (by omega) hsz))
    simp only [Res.bind_ok, hd']

/-- A prefix that is a machine word: the decoder of strings does not depend on the width. -/
theorem Varchar.fromSliceAt_eq {w : Nat} (hw : w ≤ 64) (p : Profile) (e : Endian) {sz : Nat}
    (hsz : 8 * sz ≤ w) {b : Bytes} (hb : b.length < 2 ^ w) :
    Varchar.fromSliceAt w p e sz b = Varchar.fromSlice p e sz b := by
  simp only [Varchar.fromSlice, Varchar.fromSliceAt]
  cases hs : Scalar.fromSlice e sz b with
  | err e => rfl
  | panic => rfl
  | ok m =>
    obtain ⟨hl, hm, hd⟩ := Scalar.fromSlice_bound hs
    have h64 : (2 : Nat) ^ w ≤ 2 ^ 64 := Nat.pow_le_pow_right (by omega) hw
    have hdw : m.data < 2 ^ w := Nat.lt_of_lt_of_le hd (Nat.pow_le_pow_right (by omega) hsz)
    have hd' : toUsizeAt w m.data = m.data := toUsizeAt_of_lt hdw
    simp only [Res.bind_ok, hd', usizeBits]
    by_cases hsum : m.size + m.data < 2 ^ w
    · rw [addU_ok p hsum, addU_ok p (show m.size + m.data < 2 ^ 64 by omega)]
    · have key : ∀ v, w ≤ v → ∀ k : Bytes → R (Msg Bytes),
          ((addU p v m.size m.data : R Nat) >>= fun stop => Proto.slice b m.size stop >>= k) = .panic := by
        intro v hv k
        have hpow : (2 : Nat) ^ w ≤ 2 ^ v := Nat.pow_le_pow_right (by omega) hv
        unfold addU
        split
        · simp only [Res.bind_ok]
          rw [slice, if_neg (by omega)]
          rfl
        · next hge =>
          cases p with
          | checked => rfl
          | wrapping =>
            simp only [Res.bind_ok]
            have : (m.size + m.data) % 2 ^ v = m.size + m.data - 2 ^ v := by
              rw [Nat.mod_eq_sub_mod (by omega)]
              exact Nat.mod_eq_of_lt (by omega)
            rw [this, slice, if_neg (by omega)]
            rfl
      rw [key w (Nat.le_refl _), key 64 hw]

/-- Strings with any prefix: what a wider target accepts is accepted. -/
theorem Varchar.fromSliceAt_keeps {w : Nat} (hw : w ≤ 64) (p : Profile) (e : Endian) {sz : Nat}
    (hsz : sz ≤ 8) {b : Bytes} (hb : b.length < 2 ^ w) :
    KeepsRes (Varchar.fromSlice p e sz b) (Varchar.fromSliceAt w p e sz b) := by
  intro r hr
  have h64 : (2 : Nat) ^ w ≤ 2 ^ 64 := Nat.pow_le_pow_right (by omega) hw
  obtain ⟨n, v⟩ := r
  simp only [Varchar.fromSlice] at hr
  simp only [Varchar.fromSliceAt]
  obtain ⟨m, hm, hr⟩ := Res.bind_eq_ok.mp hr
  obtain ⟨stop, hstop, hr⟩ := Res.bind_eq_ok.mp hr
  obtain ⟨hl, hms, hd⟩ := Scalar.fromSlice_bound hm
  have hd64 : m.data < 2 ^ 64 := Nat.lt_of_lt_of_le hd (Nat.pow_le_pow_right (by omega) (by omega))
  obtain ⟨sub, hsub, hr'⟩ := Res.bind_eq_ok.mp hr
  obtain ⟨h1, h2, _⟩ := slice_eq_ok.mp hsub
  have hs : stop = m.size + m.data := by
    unfold addU at hstop
    split at hstop
    · exact (Res.ok.inj hstop).symm
    · next hge =>
      cases p with
      | checked => cases hstop
      | wrapping =>
        have hst := Res.ok.inj hstop
        have : (m.size + m.data) % 2 ^ usizeBits = m.size + m.data - 2 ^ usizeBits := by
          have hu : (2 : Nat) ^ usizeBits = 2 ^ 64 := rfl
          rw [Nat.mod_eq_sub_mod (by omega)]
          exact Nat.mod_eq_of_lt (by omega)
        have hu : (2 : Nat) ^ usizeBits = 2 ^ 64 := rfl
        omega
  rw [hm]
  simp only [Res.bind_ok]
  rw [toUsizeAt_of_lt (by omega), addU_ok p (by omega)]
  simp only [Res.bind_ok]
  rw [← hs]
  exact hr

/-- An array whose announced size is a machine word. -/
theorem Arr.fromSliceAt_of {w : Nat} {p : Profile} {e : Endian} {sz isz : Nat} {b : Bytes} {m : Msg Nat}
    (hsz : 8 * sz ≤ w) (hw : w ≤ 64) (hm : Scalar.fromSlice e sz b = .ok m)
    (hf : m.data * isz + sz < 2 ^ w) :
    Arr.fromSliceAt w p e sz isz b = Arr.fromSlice p e sz isz b := by
  have h64 : (2 : Nat) ^ w ≤ 2 ^ 64 := Nat.pow_le_pow_right (by omega) hw
  obtain ⟨hl, hms, hd⟩ := Scalar.fromSlice_bound hm
  have hdw : m.data < 2 ^ w := Nat.lt_of_lt_of_le hd (Nat.pow_le_pow_right (by omega) hsz)
  simp only [Arr.fromSliceAt, Arr.fromSlice, hm, Res.bind_ok, toUsizeAt_of_lt hdw, usizeBits]
  rw [mulU_ok p (show m.data * isz < 2 ^ w by omega), mulU_ok p (show m.data * isz < 2 ^ 64 by omega)]
  simp only [Res.bind_ok]
  rw [addU_ok p (show m.size + m.data * isz < 2 ^ w by omega),
    addU_ok p (show m.size + m.data * isz < 2 ^ 64 by omega)]

theorem Arr.fromSliceAt_short {w : Nat} {p : Profile} {e : Endian} {sz isz : Nat} {b : Bytes}
    (hm : ∀ m, Scalar.fromSlice e sz b ≠ .ok m) :
    Arr.fromSliceAt w p e sz isz b = Arr.fromSlice p e sz isz b := by
  simp only [Arr.fromSliceAt, Arr.fromSlice]
  cases hs : Scalar.fromSlice e sz b with
  | err e => rfl
  | panic => rfl
  | ok m => exact absurd hs (hm m)

/-- An array no count of which exceeds a machine word. -/
theorem Arr.fromSliceAt_eq {w : Nat} (hw : w ≤ 64) (p : Profile) (e : Endian) {sz isz : Nat}
    (hsz : 8 * sz ≤ w) (hf : (256 ^ sz - 1) * isz + sz < 2 ^ w) (b : Bytes) :
    Arr.fromSliceAt w p e sz isz b = Arr.fromSlice p e sz isz b := by
  cases hs : Scalar.fromSlice e sz b with
  | err e' => exact Arr.fromSliceAt_short (fun m => by rw [hs]; simp)
  | panic => exact Arr.fromSliceAt_short (fun m => by rw [hs]; simp)
  | ok m =>
    obtain ⟨_, _, hd⟩ := Scalar.fromSlice_bound hs
    refine Arr.fromSliceAt_of hsz hw hs ?_
    have : m.data * isz ≤ (256 ^ sz - 1) * isz := Nat.mul_le_mul_right _ (by rw [pow256]; omega)
    omega

/-- What a wider target accepts was announced with its true size, unless the arithmetic of the wider
target overflowed. -/
theorem Arr.fromSlice_true {p : Profile} {e : Endian} {sz isz : Nat} {b : Bytes} {r : Msg (Seq Bytes)}
    {m : Msg Nat} (hm : Scalar.fromSlice e sz b = .ok m) (hno : m.data * isz + sz < 2 ^ 64)
    (h : Arr.fromSlice p e sz isz b = .ok r) : m.data * isz + sz ≤ b.length := by
  obtain ⟨hl, hms, hd⟩ := Scalar.fromSlice_bound hm
  simp only [Arr.fromSlice, hm, Res.bind_ok, usizeBits] at h
  rw [mulU_ok p (show m.data * isz < 2 ^ 64 by omega)] at h
  simp only [Res.bind_ok] at h
  rw [addU_ok p (show m.size + m.data * isz < 2 ^ 64 by omega)] at h
  simp only [Res.bind_ok] at h
  split at h
  · cases h
  · omega

theorem Arr.no_overflow {w sz isz n : Nat} (hsz : 8 * sz ≤ w) (hw : w ≤ 32) (hi : isz < 2 ^ w)
    (hn : n < 2 ^ (8 * sz)) : n * isz + sz < 2 ^ 64 := by
  have h1 : n < 2 ^ 32 := Nat.lt_of_lt_of_le hn (Nat.pow_le_pow_right (by omega) (by omega))
  have h2 : isz < 2 ^ 32 := Nat.lt_of_lt_of_le hi (Nat.pow_le_pow_right (by omega) hw)
  have h3 : n * isz ≤ (2 ^ 32 - 1) * (2 ^ 32 - 1) := Nat.mul_le_mul (by omega) (by omega)
  have h4 : (2 ^ 32 - 1) * (2 ^ 32 - 1) + 100 < 2 ^ 64 := by decide
  omega

theorem Arr.fromSliceAt_keeps {w : Nat} (hw : w ≤ 32) (p : Profile) (e : Endian) {sz isz : Nat}
    (hsz : 8 * sz ≤ w) (hi : isz < 2 ^ w) {b : Bytes} (hb : b.length < 2 ^ w) :
    KeepsRes (Arr.fromSlice p e sz isz b) (Arr.fromSliceAt w p e sz isz b) := by
  intro r hr
  cases hs : Scalar.fromSlice e sz b with
  | err e' => rw [Arr.fromSliceAt_short (fun m => by rw [hs]; simp)]; exact hr
  | panic => rw [Arr.fromSliceAt_short (fun m => by rw [hs]; simp)]; exact hr
  | ok m =>
    obtain ⟨_, _, hd⟩ := Scalar.fromSlice_bound hs
    have := Arr.fromSlice_true hs (Arr.no_overflow hsz hw hi hd) hr
    rw [Arr.fromSliceAt_of hsz (by omega) hs (by omega)]
    exact hr

/-- With overflow checks, an array that announces too much for a machine word panics, and is one the
wider target refuses. -/
theorem Arr.fromSliceAt_safe {w : Nat} (hw : w ≤ 32) (e : Endian) {sz isz : Nat}
    (hsz : 8 * sz ≤ w) (hi : isz < 2 ^ w) {b : Bytes} (hb : b.length < 2 ^ w) :
    SafeRes (Arr.fromSlice .checked e sz isz b) (Arr.fromSliceAt w .checked e sz isz b) := by
  cases hs : Scalar.fromSlice e sz b with
  | err e' => exact .inl (Arr.fromSliceAt_short (fun m => by rw [hs]; simp))
  | panic => exact .inl (Arr.fromSliceAt_short (fun m => by rw [hs]; simp))
  | ok m =>
    obtain ⟨_, hms, hd⟩ := Scalar.fromSlice_bound hs
    by_cases hf : m.data * isz + sz < 2 ^ w
    · exact .inl (Arr.fromSliceAt_of hsz (by omega) hs hf)
    · right
      constructor
      · have hdw : m.data < 2 ^ w := Nat.lt_of_lt_of_le hd (Nat.pow_le_pow_right (by omega) hsz)
        simp only [Arr.fromSliceAt, hs, Res.bind_ok, toUsizeAt_of_lt hdw, mulU, addU]
        by_cases hm : m.data * isz < 2 ^ w
        · rw [if_pos hm]
          simp only [Res.bind_ok]
          rw [if_neg (by omega)]
          rfl
        · rw [if_neg hm]
          rfl
      · intro r hr
        have := Arr.fromSlice_true hs (Arr.no_overflow hsz hw hi hd) hr
        omega

/-! ## Discriminants -/

theorem Discriminant.readAt_eq {w : Nat} (hw : w ≤ 64) (p : Profile) {d : Discriminant}
    (h : d.fitsAt w = true) (env : Env) (on : Name) : d.readAt w p env on = d.read p env on := by
  unfold Discriminant.fitsAt at h
  unfold Discriminant.readAt Discriminant.read
  cases ha : d.access with
  | none => cases env.lookup on <;> simp
  | some a =>
    rw [ha] at h
    simp only [Bool.and_eq_true, decide_eq_true_eq] at h
    have := Access.getAt_eq hw p h.1
    split
    · next b a' hb ha' =>
      cases ha'
      rw [this]
      split
      · next b' a'' hb' ha'' => cases ha''; rw [hb] at hb'; cases hb'; rfl
      · next hno => exact absurd rfl (hno b a hb)
    · next hno =>
      split
      · next b' a'' hb' ha'' => exact absurd ha'' (hno b' a'' hb')
      · rfl

theorem Discriminant.read_bound {w : Nat} {p : Profile} {d : Discriminant} (h : d.fitsAt w = true)
    {env : Env} {on : Name} {n : Nat} (hr : d.read p env on = .ok n) : n < 2 ^ w := by
  unfold Discriminant.fitsAt at h
  unfold Discriminant.read at hr
  split at hr
  · next b a hb ha =>
    rw [ha] at h
    simp only [Bool.and_eq_true, decide_eq_true_eq] at h
    exact Nat.lt_of_lt_of_le (Access.get_bound hr) (Nat.pow_le_pow_right (by omega) h.2)
  · cases hr

/-! ## Messages -/

/-- What the parts of a message that depend on the width have to satisfy. -/
structure LeafRelated (L : ∀ {α : Type}, R α → R α → Prop) (w : Nat) (p : Profile)
    (q : MFieldTy → Bool) : Prop where
  varchar : ∀ ty e, q (.varcharString ty) = true →
    Parser.Related @L w (Varchar.fromSlice p e ty.byteSize) (Varchar.fromSliceAt w p e ty.byteSize)
  array : ∀ ty s e, q (.array ty s) = true →
    Parser.Related @L w (Arr.fromSlice p e ty.byteSize s.byteSize)
      (Arr.fromSliceAt w p e ty.byteSize s.byteSize)
  list : ∀ ty m, q (.list ty m) = true → 8 * ty.byteSize ≤ w
  union : ∀ u on i, q (.union u on i) = true → ∀ env on,
    u.discriminant.readAt w p env on = u.discriminant.read p env on ∧
      ∀ n, u.discriminant.read p env on = .ok n → n < 2 ^ w

section Messages

variable {L : ∀ {α : Type}, R α → R α → Prop} {w : Nat}

theorem Union.parseCases_related (h : Relates @L) {c : Ctx} {cs : List UCase}
    (hcs : ∀ k ∈ cs, ∀ r, k.itemType = some r → Parser.Related @L w (r.parse c) (r.parseAt w c))
    (i : Nat) {d : Nat} (hd : d < 2 ^ w) :
    Parser.Related @L w (Union.parseCases c cs i d) (Union.parseCasesAt w c cs i d) := by
  induction cs generalizing i with
  | nil =>
    simp only [Union.parseCases, Union.parseCasesAt, toUsizeAt_of_lt hd]
    exact Parser.Related.refl h _
  | cons k cs ih =>
    obtain ⟨n, case, t⟩ := k
    have ih := ih (fun k hk => hcs k (by simp [hk])) (i + 1)
    cases t with
    | none =>
      simp only [Union.parseCases, Union.parseCasesAt]
      by_cases hc : d = case
      · simp only [if_pos hc]; exact Parser.Related.refl h _
      · simp only [if_neg hc]; exact ih
    | some r =>
      simp only [Union.parseCases, Union.parseCasesAt]
      by_cases hc : d = case
      · simp only [if_pos hc]; exact (hcs (.mk n case (some r)) (by simp) r rfl).map h _
      · simp only [if_neg hc]; exact ih

theorem MField.related (h : Relates @L) {c : Ctx} {emb : Bool} {f : MField} {env : Env}
    (ht : Parser.Related @L w (f.ty.parse c emb f.endian env) (f.ty.parseAt w c emb f.endian env)) :
    Parser.Related @L w (f.parse c emb env) (f.parseAt w c emb env) := by
  obtain ⟨n, ty, o, sz, e⟩ := f
  simp only [MField.parse, MField.parseAt]
  cases o with
  | true => simp only [if_true]; exact (Optional.related h ht).map h _
  | false => simp only [Bool.false_eq_true, if_false]; exact ht

theorem MField.parseList_related (h : Relates @L) {c : Ctx} {emb : Bool} {fs : List MField}
    (hfs : ∀ f ∈ fs, ∀ env, Parser.Related @L w (f.parse c emb env) (f.parseAt w c emb env))
    (env : Env) (off : Nat) {b : Bytes} (hb : b.length < 2 ^ w) :
    L (MField.parseList c emb fs env off b) (MField.parseListAt w c emb fs env off b) := by
  induction fs generalizing env off with
  | nil => simp only [MField.parseList, MField.parseListAt]; exact h.refl _
  | cons f fs ih =>
    simp only [MField.parseList, MField.parseListAt]
    exact dropFrom_related h hb fun r hr => h.bind (hfs f (by simp) env r hr) fun m =>
      ih (fun g hg => hfs g (by simp [hg])) _ _

theorem relatedInd (h : Relates @L) (c : Ctx) {q : MFieldTy → Bool}
    (hq : LeafRelated @L w c.p q) : SchemaInd
    (fun m => m.allFields (fun f => q f.ty) = true →
      Parser.Related @L w (m.parse c) (m.parseAt w c))
    (fun t => ∀ emb e env, ((∃ r, t = .ref r) ∨ q t = true) → t.allFields (fun f => q f.ty) = true →
      Parser.Related @L w (t.parse c emb e env) (t.parseAt w c emb e env)) where
  fixed ty emb e env _ _ := by
    simp only [MFieldTy.parse, MFieldTy.parseAt]; exact Parser.Related.refl h _
  struct s emb e env _ _ := by
    simp only [MFieldTy.parse, MFieldTy.parseAt, Referenced.parse, Referenced.parseAt]
    exact Parser.Related.refl h _
  message m hm emb e env _ ha := by
    simp only [MFieldTy.parse, MFieldTy.parseAt, Referenced.parse, Referenced.parseAt]
    simp only [MFieldTy.allFields, Referenced.allFields] at ha
    exact hm ha
  nul emb e env _ _ := by
    simp only [MFieldTy.parse, MFieldTy.parseAt]; exact Parser.Related.refl h _
  varchar ty emb e env hp _ := by
    simp only [MFieldTy.parse, MFieldTy.parseAt]
    refine Parser.Related.map h (hq.varchar ty e ?_) _
    rcases hp with ⟨r, hr⟩ | hp
    · cases hr
    · exact hp
  array ty s emb e env hp _ := by
    simp only [MFieldTy.parse, MFieldTy.parseAt]
    refine Parser.Related.map h (hq.array ty s e ?_) _
    rcases hp with ⟨r, hr⟩ | hp
    · cases hr
    · exact hp
  union n d cs sz on i hcs emb e env hp ha := by
    simp only [MFieldTy.parse, MFieldTy.parseAt]
    simp only [MFieldTy.allFields, Union.allFields] at ha
    have hd : d.readAt w c.p env on = d.read c.p env on ∧
        ∀ n, d.read c.p env on = .ok n → n < 2 ^ w := by
      rcases hp with ⟨r, hr⟩ | hp
      · cases hr
      · exact hq.union _ _ _ hp env on
    intro b hb
    simp only [Union.parse, Union.parseAt, hd.1]
    cases hr : d.read c.p env on with
    | err e => exact h.refl _
    | panic => exact h.refl _
    | ok v =>
      refine Union.parseCases_related h (fun k hk r hkr => ?_) 0 (hd.2 v hr) b hb
      have := hcs k hk r hkr emb e env (.inl ⟨r, rfl⟩)
        (by simpa only [MFieldTy.allFields] using UCase.listAllFields_mem ha k hk r hkr)
      simpa only [MFieldTy.parse, MFieldTy.parseAt] using this
  list ty m hm emb e env hp ha := by
    simp only [MFieldTy.parse, MFieldTy.parseAt]
    simp only [MFieldTy.allFields] at ha
    have hl : 8 * ty.byteSize ≤ w := by
      rcases hp with ⟨r, hr⟩ | hp
      · cases hr
      · exact hq.list _ _ hp
    cases emb with
    | true =>
      simp only [if_true]
      exact (Lst.fromSliceAt_related h (hm ha) e hl).map h _
    | false =>
      simp only [Bool.false_eq_true, if_false]
      refine Parser.Related.map h (fun b _ => ?_) _
      rw [Lst.unsizedAt_eq e hl]
      exact h.refl _
  payload emb e env _ _ := by
    simp only [MFieldTy.parse, MFieldTy.parseAt]; exact Parser.Related.refl h _
  msg id n fs sz hfs ha := by
    simp only [Message.allFields] at ha
    intro b hb
    simp only [Message.parse, Message.parseAt]
    refine h.bind (MField.parseList_related h (fun f hf env => ?_) _ _ hb) (fun _ => h.refl _)
    obtain ⟨h1, h2⟩ := MField.listAllFields_mem ha f hf
    have ht := hfs f hf (c.emb id) f.endian env (.inr h1) h2
    exact MField.related h ht

/-- What relates whole messages relates the decoder of any field that meets the condition. -/
theorem MField.related_of (h : Relates @L) (c : Ctx) {q : MFieldTy → Bool}
    (hq : LeafRelated @L w c.p q) {emb : Bool} {f : MField} {env : Env} (h1 : q f.ty = true)
    (h2 : f.ty.allFields (fun f => q f.ty) = true) :
    Parser.Related @L w (f.parse c emb env) (f.parseAt w c emb env) :=
  MField.related h ((relatedInd h c hq).ty f.ty emb f.endian env (.inr h1) h2)

theorem Optional.offsets_related (h : Relates @L) {f g : Parser (α × ω)} (hf : Parser.Related @L w f g) :
    Parser.Related @L w (Optional.fromSliceWithOffsets f) (Optional.fromSliceWithOffsets g) := by
  intro b hb
  unfold Optional.fromSliceWithOffsets
  cases b with
  | nil => exact h.refl _
  | cons x t =>
    simp only
    split
    · exact h.bind (hf t (by simp at hb; omega)) fun _ => h.refl _
    · exact h.refl _

theorem MField.parseOffList_related (h : Relates @L) {c : Ctx} {emb : Bool} {fs : List MField}
    (hfs : ∀ f ∈ fs, ∀ env, Parser.Related @L w (f.parseOff c emb env) (f.parseOffAt w c emb env))
    (env : Env) (offs : OffEnv) (off : Nat) {b : Bytes} (hb : b.length < 2 ^ w) :
    L (MField.parseOffList c emb fs env offs off b) (MField.parseOffListAt w c emb fs env offs off b) := by
  induction fs generalizing env off offs with
  | nil => simp only [MField.parseOffList, MField.parseOffListAt]; exact h.refl _
  | cons f fs ih =>
    simp only [MField.parseOffList, MField.parseOffListAt]
    exact dropFrom_related h hb fun r hr => h.bind (hfs f (by simp) env r hr) fun m =>
      ih (fun g hg => hfs g (by simp [hg])) _ _ _

theorem MField.parseOff_related (h : Relates @L) {c : Ctx} {emb : Bool} {f : MField} {env : Env}
    (hp : Parser.Related @L w (f.parse c emb env) (f.parseAt w c emb env))
    (hm : ∀ m, f.ty = .ref (.message m) → Parser.Related @L w (m.parseOff c) (m.parseOffAt w c)) :
    Parser.Related @L w (f.parseOff c emb env) (f.parseOffAt w c emb env) := by
  obtain ⟨n, ty, o, sz, e⟩ := f
  have other := hp.map h (fun v => (v, Offsets.unit))
  cases ty with
  | ref r =>
    cases r with
    | struct s => simp only [MField.parseOff, MField.parseOffAt]; exact other
    | message m =>
      cases o with
      | false =>
        simp only [MField.parseOff, MField.parseOffAt, Bool.false_eq_true, if_false]; exact hm m rfl
      | true =>
        simp only [MField.parseOff, MField.parseOffAt, if_true]
        exact (Optional.offsets_related h (hm m rfl)).map h _
  | fixed _ => simp only [MField.parseOff, MField.parseOffAt]; exact other
  | nullTerminatedString => simp only [MField.parseOff, MField.parseOffAt]; exact other
  | varcharString _ => simp only [MField.parseOff, MField.parseOffAt]; exact other
  | array _ _ => simp only [MField.parseOff, MField.parseOffAt]; exact other
  | union _ _ _ => simp only [MField.parseOff, MField.parseOffAt]; exact other
  | list _ _ => simp only [MField.parseOff, MField.parseOffAt]; exact other
  | payload => simp only [MField.parseOff, MField.parseOffAt]; exact other

theorem offRelatedInd (h : Relates @L) (c : Ctx) {q : MFieldTy → Bool}
    (hq : LeafRelated @L w c.p q) : SchemaInd
    (fun m => m.allFields (fun f => q f.ty) = true →
      Parser.Related @L w (m.parseOff c) (m.parseOffAt w c))
    (fun t => ∀ m, t = .ref (.message m) → m.allFields (fun f => q f.ty) = true →
      Parser.Related @L w (m.parseOff c) (m.parseOffAt w c)) where
  fixed _ _ h := by cases h
  struct _ _ h := by cases h
  message m hm m' h := by cases h; exact hm
  nul _ h := by cases h
  varchar _ _ h := by cases h
  array _ _ _ h := by cases h
  union _ _ _ _ _ _ _ _ h := by cases h
  list _ _ _ _ h := by cases h
  payload _ h := by cases h
  msg id n fs sz hfs ha := by
    simp only [Message.allFields] at ha
    intro b hb
    simp only [Message.parseOff, Message.parseOffAt]
    refine h.bind (MField.parseOffList_related h (fun f hf env => ?_) _ _ _ hb) (fun _ => h.refl _)
    obtain ⟨h1, h2⟩ := MField.listAllFields_mem ha f hf
    refine MField.parseOff_related h (MField.related_of h c hq h1 h2) fun m hm => hfs f hf m hm ?_
    rw [hm] at h2
    simpa only [MFieldTy.allFields, Referenced.allFields] using h2

/-! Forgetting the offsets, at every width. -/

theorem MField.parseOffAt_fst {c : Ctx} {emb : Bool} {f : MField}
    (h : ∀ m, f.ty = .ref (.message m) → (m.parseOffAt w c).map Prod.fst = m.parseAt w c) (env : Env) :
    (f.parseOffAt w c emb env).map Prod.fst = f.parseAt w c emb env := by
  obtain ⟨n, ty, o, sz, e⟩ := f
  have other : ((MField.parseAt w c emb (.mk n ty o sz e) env).map fun v => (v, Offsets.unit)).map
      Prod.fst = MField.parseAt w c emb (.mk n ty o sz e) env := by
    rw [Parser.map_map]; exact Parser.map_id' (fun x => rfl)
  cases ty with
  | ref r =>
    cases r with
    | struct s => simp only [MField.parseOffAt]; exact other
    | message m =>
      have h2 := h m rfl
      cases o with
      | false =>
        simp only [MField.parseOffAt, MField.parseAt, MFieldTy.parseAt, Referenced.parseAt,
          Bool.false_eq_true, if_false]
        exact h2
      | true =>
        simp only [MField.parseOffAt, MField.parseAt, MFieldTy.parseAt, Referenced.parseAt, if_true]
        rw [← h2, ← Optional.offsets_fst, Parser.map_map, Parser.map_map]
        rfl
  | fixed _ => simp only [MField.parseOffAt]; exact other
  | nullTerminatedString => simp only [MField.parseOffAt]; exact other
  | varcharString _ => simp only [MField.parseOffAt]; exact other
  | array _ _ => simp only [MField.parseOffAt]; exact other
  | union _ _ _ => simp only [MField.parseOffAt]; exact other
  | list _ _ => simp only [MField.parseOffAt]; exact other
  | payload => simp only [MField.parseOffAt]; exact other

theorem MField.parseOffListAt_fst {c : Ctx} {emb : Bool} {fs : List MField}
    (h : ∀ f ∈ fs, ∀ env, (f.parseOffAt w c emb env).map Prod.fst = f.parseAt w c emb env) (env : Env)
    (offs : OffEnv) (off : Nat) (b : Bytes) :
    (MField.parseOffListAt w c emb fs env offs off b).bind (fun r => .ok (r.1, r.2.1)) =
      MField.parseListAt w c emb fs env off b := by
  induction fs generalizing env offs off with
  | nil => rfl
  | cons f fs ih =>
    simp only [MField.parseOffListAt, MField.parseListAt, ← h f (by simp) env]
    cases dropFrom b off with
    | err e => rfl
    | panic => rfl
    | ok rest =>
      simp only [Res.bind_ok, Parser.map]
      cases f.parseOffAt w c emb env rest with
      | err e => rfl
      | panic => rfl
      | ok m => exact ih (fun g hg => h g (by simp [hg])) _ _ _

theorem offFstInd (c : Ctx) : SchemaInd (fun m => (m.parseOffAt w c).map Prod.fst = m.parseAt w c)
    (fun t => ∀ m, t = .ref (.message m) → (m.parseOffAt w c).map Prod.fst = m.parseAt w c) where
  fixed _ _ h := by cases h
  struct _ _ h := by cases h
  message m hm m' h := by cases h; exact hm
  nul _ h := by cases h
  varchar _ _ h := by cases h
  array _ _ _ h := by cases h
  union _ _ _ _ _ _ _ _ h := by cases h
  list _ _ _ _ h := by cases h
  payload _ h := by cases h
  msg id n fs sz h := by
    funext b
    simp only [Parser.map, Message.parseOffAt, Message.parseAt,
      ← MField.parseOffListAt_fst (fun f hf env => MField.parseOffAt_fst (h f hf) env) [] [] 0 b]
    cases MField.parseOffListAt w c (c.emb id) fs [] [] 0 b <;> rfl

end Messages

/-! ## Writing -/

theorem Union.writeCasesAt_eq {w : Nat} {c : Ctx} {cs : List UCase}
    (hcs : ∀ k ∈ cs, ∀ r, k.itemType = some r → ∀ v, r.writeAt w c v = r.write c v)
    (i : Nat) {d : Nat} (hd : d < 2 ^ w) (v : Value) :
    Union.writeCasesAt w c cs i d v = Union.writeCases c cs i d v := by
  induction cs generalizing i with
  | nil => simp only [Union.writeCases, Union.writeCasesAt]
  | cons k cs ih =>
    obtain ⟨n, case, t⟩ := k
    have ih := ih (fun k hk => hcs k (by simp [hk]))
    cases t with
    | none => simp only [Union.writeCases, Union.writeCasesAt, ih]
    | some r =>
      simp only [Union.writeCases, Union.writeCasesAt, ih, toUsizeAt_of_lt hd,
        hcs (.mk n case (some r)) (by simp) r rfl]

theorem writeInd {w : Nat} (hw : w ≤ 64) (c : Ctx) : SchemaInd
    (fun m => m.allFields (fun f => f.ty.keysAt w) = true → ∀ v, m.writeAt w c v = m.write c v)
    (fun t => t.keysAt w = true → t.allFields (fun f => f.ty.keysAt w) = true →
      ∀ e env v, t.writeAt w c e env v = t.write c e env v) where
  fixed ty _ _ e env v := by simp only [MFieldTy.write, MFieldTy.writeAt]; cases v <;> rfl
  struct s _ _ e env v := by
    simp only [MFieldTy.write, MFieldTy.writeAt, Referenced.write, Referenced.writeAt]
    cases v <;> rfl
  message m hm _ ha e env v := by
    simp only [MFieldTy.write, MFieldTy.writeAt, Referenced.write, Referenced.writeAt]
    simp only [MFieldTy.allFields, Referenced.allFields] at ha
    exact hm ha v
  nul _ _ e env v := by simp only [MFieldTy.write, MFieldTy.writeAt]; cases v <;> rfl
  varchar ty _ _ e env v := by simp only [MFieldTy.write, MFieldTy.writeAt]; cases v <;> rfl
  array ty s _ _ e env v := by simp only [MFieldTy.write, MFieldTy.writeAt]; cases v <;> rfl
  union n d cs sz on i hcs hp ha e env v := by
    simp only [MFieldTy.allFields, Union.allFields] at ha
    have hd : d.fitsAt w = true := hp
    simp only [MFieldTy.write, MFieldTy.writeAt]
    cases v with
    | union j x =>
      simp only [Union.write, Union.writeAt, Discriminant.readAt_eq hw c.p hd]
      split
      · cases hr : d.read c.p env on with
        | err e => rfl
        | panic => rfl
        | ok n =>
          refine Union.writeCasesAt_eq (fun k hk r hkr v => ?_) j (Discriminant.read_bound hd hr) x
          have := hcs k hk r hkr rfl
            (by simpa only [MFieldTy.allFields] using UCase.listAllFields_mem ha k hk r hkr) e env v
          simpa only [MFieldTy.write, MFieldTy.writeAt] using this
      · rfl
    | _ => simp only [Union.write, Union.writeAt]
  list ty m _ _ _ e env v := by simp only [MFieldTy.write, MFieldTy.writeAt]; cases v <;> rfl
  payload _ _ e env v := by simp only [MFieldTy.write, MFieldTy.writeAt]; cases v <;> rfl
  msg id n fs sz hfs ha v := by
    simp only [Message.allFields] at ha
    have key : ∀ env vs, MField.writeListAt w c fs env vs = MField.writeList c fs env vs := by
      intro env vs
      induction fs generalizing vs with
      | nil => simp only [MField.writeList, MField.writeListAt]
      | cons f fs ih =>
        have hf := MField.listAllFields_mem ha f (by simp)
        have ht := hfs f (by simp) hf.1 hf.2
        have hrest : MField.listAllFields (fun f => f.ty.keysAt w) fs = true := by
          obtain ⟨n, ty, o, sz, e⟩ := f
          simp only [MField.listAllFields, Bool.and_eq_true] at ha
          exact ha.2
        have ih := ih (fun g hg => hfs g (by simp [hg])) hrest
        cases vs with
        | nil => simp only [MField.writeList, MField.writeListAt]
        | cons x vs =>
          obtain ⟨_, x⟩ := x
          simp only [MField.writeList, MField.writeListAt, ih]
          congr 1
          obtain ⟨n, ty, o, sz, e⟩ := f
          simp only [MField.ty] at ht
          have hfun : ty.writeAt w c e env = ty.write c e env := funext fun v => ht e env v
          simp only [MField.write, MField.writeAt, hfun]
          cases x <;> rfl
    cases v with
    | msg vs => simp only [Message.write, Message.writeAt, key]
    | _ => simp only [Message.write, Message.writeAt]

end Proto
