import Verif.Gen.AccessLemmas

/-!
# The bits an accessor chain really addresses

For every packed structure with supported widths, whether or not its fields are well placed.
-/

namespace Proto

open Spec

namespace Access

/-- First bit the chain really addresses. -/
def effOffset : Access → Nat
  | fixed f => f.loc.effOffset
  | item f k => 8 * f.loc.byteOffset + 8 * (k * (f.itemBitSize / 8))
  | nested loc rest => 8 * loc.byteOffset + rest.effOffset

/-- Number of bits the chain really addresses. -/
def effWidth : Access → Nat
  | fixed f => f.loc.effWidth
  | item f _ => 8 * min (f.itemBitSize / 8) f.ty.byteSize
  | nested _ rest => rest.effWidth

theorem effOffset_le : ∀ (a : Access), a.effOffset ≤ a.offset
  | fixed f => by simp only [effOffset, offset, Loc.effOffset, Loc.abs]; split <;> omega
  | item f k => by
    simp only [effOffset, offset, Loc.abs]
    have : 8 * (k * (f.itemBitSize / 8)) ≤ k * f.itemBitSize := by
      rw [Nat.mul_left_comm]; exact Nat.mul_le_mul_left _ (by omega)
    omega
  | nested loc rest => by
    have := effOffset_le rest
    simp only [effOffset, offset, Loc.abs]; omega

theorem effWidth_le : ∀ (a : Access), a.effWidth ≤ a.width
  | fixed f => by simp only [effWidth, width, Loc.effWidth]; split <;> omega
  | item f k => by simp only [effWidth, width]; omega
  | nested loc rest => effWidth_le rest

end Access

theorem SField.listSized_mem {fs : List SField} (h : SField.listSized fs) : ∀ f ∈ fs, f.Sized := by
  induction fs with
  | nil => intro f hf; cases hf
  | cons g fs ih =>
    intro f hf
    simp only [SField.listSized] at h
    rcases List.mem_cons.1 hf with rfl | hf
    · exact h.1
    · exact ih h.2 f hf

theorem Structure.Sized.mem {s : Structure} (h : s.Sized) : ∀ f ∈ s.fields, f.Sized := by
  cases s with
  | mk i n f b c => simp only [Structure.Sized] at h; exact SField.listSized_mem h

theorem ArrayField.item_bounds' {f : ArrayField} {o k : Nat} (h : (SField.array f).WF o)
    (hk : k < f.arrayLen) : (k + 1) * (f.itemBitSize / 8) ≤ f.loc.byteSize := by
  obtain ⟨hb, hl⟩ := f.item_facts h
  have hbs := congrArg Loc.byteSize (SField.loc_of_WF h)
  simp only [SField.loc, SField.width] at hbs
  rw [hbs, hb]
  have h1 : (k + 1) * (f.itemBitSize / 8) ≤ f.arrayLen * (f.itemBitSize / 8) :=
    Nat.mul_le_mul_right _ hk
  have h2 : 8 * (f.arrayLen * (f.itemBitSize / 8)) ≤ f.itemBitSize * f.arrayLen := by
    rw [Nat.mul_left_comm, Nat.mul_comm f.itemBitSize]; exact Nat.mul_le_mul_left _ (by omega)
  unfold ceil8
  omega

theorem ArrayField.getItem_eff (p : Profile) {f : ArrayField} {o k : Nat} (h : (SField.array f).WF o)
    (hs : (SField.array f).Sized) (hk : k < f.arrayLen) {buf : Bytes}
    (hbuf : f.loc.stop ≤ buf.length) (hlen : buf.length < 2 ^ 64) :
    f.getItem p buf k =
      .ok (bitsLE buf (8 * f.loc.byteOffset + 8 * (k * (f.itemBitSize / 8)))
        (8 * min (f.itemBitSize / 8) f.ty.byteSize)) := by
  have b1 := f.item_bounds' h hk
  have hty := f.ty.byteSize_le
  simp only [SField.Sized] at hs
  unfold ArrayField.getItem Loc.stop at *
  rw [slice_ok (by omega) hbuf]
  simp only [Res.bind_ok, Nat.add_sub_cancel_left]
  have hl : ((buf.drop f.loc.byteOffset).take f.loc.byteSize).length = f.loc.byteSize := by
    simp; omega
  rw [ArrayCodec.getRaw_eq p f.endian (by omega) (by omega), hs.2.2]
  rw [Nat.succ_mul] at b1
  have hlw : ((((buf.drop f.loc.byteOffset).take f.loc.byteSize).drop
      (k * (f.itemBitSize / 8))).take (f.itemBitSize / 8)).length = f.itemBitSize / 8 := by
    simp only [List.length_take, List.length_drop] at hl ⊢
    omega
  rw [ByteCodec.readLE_eq hty (.inl (by omega))]
  congr 1
  apply Nat.eq_of_testBit_eq
  intro i
  rw [testBit_leNat, testBit_bitsLE, bitAt_take, bitAt_take, bitAt_drop, bitAt_take, bitAt_drop]
  by_cases hi : i < 8 * min (f.itemBitSize / 8) f.ty.byteSize
  · rw [if_pos (by omega), if_pos (by omega), if_pos (by omega), decide_eq_true hi, Bool.true_and]
    congr 1
    omega
  · rw [decide_eq_false hi, Bool.false_and]
    by_cases h1 : i < 8 * f.ty.byteSize
    · rw [if_pos h1, if_neg (by omega)]
    · rw [if_neg h1]

theorem ArrayField.setItem_eff (p : Profile) {f : ArrayField} {o k : Nat} (h : (SField.array f).WF o)
    (hs : (SField.array f).Sized) (hk : k < f.arrayLen) {buf : Bytes} (v : Nat)
    (hbuf : f.loc.stop ≤ buf.length) (hlen : buf.length < 2 ^ 64) :
    ∃ b, f.setItem p buf k v = .ok b ∧
      BitsReplaced buf b (8 * f.loc.byteOffset + 8 * (k * (f.itemBitSize / 8)))
        (8 * min (f.itemBitSize / 8) f.ty.byteSize) v := by
  have b1 := f.item_bounds' h hk
  have hty := f.ty.byteSize_le
  simp only [SField.Sized] at hs
  unfold ArrayField.setItem Loc.stop at *
  rw [slice_ok (by omega) hbuf]
  simp only [Res.bind_ok, Nat.add_sub_cancel_left]
  have hl : ((buf.drop f.loc.byteOffset).take f.loc.byteSize).length = f.loc.byteSize := by
    simp; omega
  rw [ArrayCodec.setRaw_eq p f.endian v (by omega) (by omega), hs.2.2]
  rw [Nat.succ_mul] at b1
  have hlw : ((((buf.drop f.loc.byteOffset).take f.loc.byteSize).drop
      (k * (f.itemBitSize / 8))).take (f.itemBitSize / 8)).length = f.itemBitSize / 8 := by
    simp only [List.length_take, List.length_drop] at hl ⊢
    omega
  rw [ByteCodec.writeLE_eq v hty (.inl (by omega)), hlw]
  generalize hwin : (((buf.drop f.loc.byteOffset).take f.loc.byteSize).drop
      (k * (f.itemBitSize / 8))).take (f.itemBitSize / 8) = win at hlw ⊢
  have hr0 : BitsReplaced win
      ((natLe f.ty.byteSize v).take (f.itemBitSize / 8) ++ win.drop f.ty.byteSize) 0
      (8 * min (f.itemBitSize / 8) f.ty.byteSize) v := by
    refine ⟨by simp; omega, ?_⟩
    intro i hi
    rw [hlw] at hi
    rw [bitAt_append, bitAt_take, bitAt_natLe, bitAt_drop]
    simp only [List.length_take, natLe_length]
    by_cases h1 : i < 8 * min (f.itemBitSize / 8) f.ty.byteSize
    · rw [if_pos h1, if_pos (by omega), if_pos (by omega),
        decide_eq_true (show i < 8 * f.ty.byteSize by omega), Bool.true_and, Nat.sub_zero]
    · rw [if_neg h1, if_neg (by omega)]
      congr 1; omega
  rw [← hwin] at hr0
  have hr1 := (BitsReplaced_window (a := k * (f.itemBitSize / 8)) (by rw [hl]; omega) hr0).2
  have hr2 := (BitsReplaced_window hbuf hr1).2
  simp only [Nat.add_zero, Nat.sub_zero] at hr2
  simp only [Res.bind_ok, Res.pure_eq]
  rw [hwin] at hr2
  refine ⟨_, rfl, ?_⟩
  have e4 : min (min (8 * min (f.itemBitSize / 8) f.ty.byteSize) (8 * (f.itemBitSize / 8)))
      (8 * f.loc.byteSize - 8 * (k * (f.itemBitSize / 8))) =
      8 * min (f.itemBitSize / 8) f.ty.byteSize := by omega
  rwa [e4] at hr2

theorem FixedField.valid_of_sized {f : FixedField} {o : Nat} (h : (SField.fixed f).WF o)
    (hp : (SField.fixed f).Sized) : f.Valid := by
  have hl := SField.loc_of_WF h
  simp only [SField.loc, SField.width] at hl
  simp only [SField.Sized] at hp
  refine ⟨hp.1, hp.2.1, hp.2.2, congrArg Loc.byteSize hl, ?_⟩
  have := congrArg Loc.bitOffset hl
  simp only at this
  omega

/-- What a chain of raw accessors does on any packed structure with supported widths. -/
theorem Access.exact_eff (p : Profile) {s : Structure} {a : Access} (h : s.HasAccess a) (hw : s.WF)
    (hp : s.Sized) {buf : Bytes} (hbuf : s.byteSize ≤ buf.length) (hlen : buf.length < 2 ^ 64) :
    a.get p buf = .ok (bitsLE buf a.effOffset a.effWidth) ∧
    ∀ v, ∃ b, a.set p buf v = .ok b ∧ BitsReplaced buf b a.effOffset a.effWidth v := by
  induction h generalizing buf with
  | @fixed s f hf =>
    obtain ⟨hwf, _, _⟩ := SField.listWF_mem hw.list _ hf
    have hv := f.valid_of_sized hwf (hp.mem _ hf)
    have hst := hw.stop_le hf
    simp only [SField.loc] at hst
    exact ⟨FixedField.getRaw_eq p hv (by omega), fun v => FixedField.setRaw_eq p hv v (by omega)⟩
  | @item s f k hf hk =>
    obtain ⟨hwf, _, _⟩ := SField.listWF_mem hw.list _ hf
    have hpl := hp.mem _ hf
    have hst := hw.stop_le hf
    simp only [SField.loc] at hst
    exact ⟨ArrayField.getItem_eff p hwf hpl hk (by omega) hlen,
      fun v => ArrayField.setItem_eff p hwf hpl hk v (by omega) hlen⟩
  | @nested s n r loc a hf ha ih =>
    obtain ⟨hrw, hbs⟩ := hw.nested hf
    have hpl := hp.mem _ hf
    have hst := hw.stop_le hf
    simp only [SField.loc] at hst
    simp only [SField.Sized] at hpl
    have hin := Access.bounds ha hrw
    have e1 := a.effOffset_le
    have e2 := a.effWidth_le
    unfold Loc.stop at hst
    have hl : ((buf.drop loc.byteOffset).take loc.byteSize).length = loc.byteSize := by
      simp; omega
    obtain ⟨ihg, ihs⟩ := ih hrw hpl (buf := (buf.drop loc.byteOffset).take loc.byteSize)
      (by omega) (by omega)
    have hin8 : a.effOffset + a.effWidth ≤ 8 * loc.byteSize := by
      rw [hbs, hrw.byteSize]; unfold ceil8; omega
    simp only [Access.get, Access.set, Loc.stop, Access.effOffset, Access.effWidth]
    rw [slice_ok (by omega) (by omega)]
    simp only [Res.bind_ok, Nat.add_sub_cancel_left]
    refine ⟨?_, ?_⟩
    · rw [ihg, window_bits hin8]
    · intro v
      obtain ⟨s', h1, h2⟩ := ihs v
      rw [h1]
      simp only [Res.bind_ok, Res.pure_eq]
      refine ⟨_, rfl, ?_⟩
      have := (BitsReplaced_window (buf := buf) (a := loc.byteOffset) (by omega) h2).2
      have e : min a.effWidth (8 * loc.byteSize - a.effOffset) = a.effWidth := by omega
      rwa [e] at this

theorem Access.width_pos {s : Structure} {a : Access} (h : s.HasAccess a) (hp : s.Sized) :
    1 ≤ a.width := by
  induction h with
  | fixed hf => have := hp.mem _ hf; simp only [SField.Sized] at this; exact this.1
  | item hf hk => have := hp.mem _ hf; simp only [SField.Sized] at this; exact this.1
  | nested hf ha ih => have := hp.mem _ hf; simp only [SField.Sized] at this; exact ih this

theorem Access.eff_iff_placed {s : Structure} {a : Access} (h : s.HasAccess a) (hw : s.WF)
    (hp : s.Sized) : (a.effOffset = a.offset ∧ a.effWidth = a.width) ↔ a.Placed := by
  induction h with
  | @fixed s f hf =>
    obtain ⟨hwf, _, _⟩ := SField.listWF_mem hw.list _ hf
    have hv := f.valid_of_sized hwf (hp.mem _ hf)
    constructor
    · rintro ⟨h1, h2⟩
      have hb := hv.byteSize
      simp only [Access.effOffset, Access.effWidth, Access.offset, Access.width, Loc.effOffset,
        Loc.effWidth, Loc.abs] at h1 h2
      simp only [Access.Placed]
      unfold ceil8 at hb
      split at h1
      · next hb8 => rw [if_pos hb8] at h2; omega
      · omega
    · intro h1
      exact Loc.eff_of_fits h1 hv.byteSize
  | @item s f k hf hk =>
    simp only [Access.effOffset, Access.effWidth, Access.offset, Access.width, Access.Placed, Loc.abs]
    have hz : 8 * (k * (f.itemBitSize / 8)) = k * (8 * (f.itemBitSize / 8)) := Nat.mul_left_comm ..
    rw [hz]
    constructor
    · rintro ⟨h1, h2⟩
      have e : 8 * (f.itemBitSize / 8) = f.itemBitSize := by omega
      rw [e] at h1
      omega
    · rintro ⟨h1, h2, h3⟩
      have e : 8 * (f.itemBitSize / 8) = f.itemBitSize := by omega
      rw [e]
      omega
  | @nested s n r loc a hf ha ih =>
    have hpl := hp.mem _ hf
    simp only [SField.Sized] at hpl
    have ih := ih (hw.nested hf).1 hpl
    have := a.effOffset_le
    simp only [Access.effOffset, Access.effWidth, Access.offset, Access.width, Access.Placed, Loc.abs]
    rw [← ih]
    omega

end Proto
