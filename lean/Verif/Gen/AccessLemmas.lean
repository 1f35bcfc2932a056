import Verif.Gen.StructLemmas

/-! # Lemmas about packed structures and accessor chains -/

namespace Proto

open Spec

theorem FixedTy.byteSize_le (t : FixedTy) : t.byteSize ≤ 8 := by cases t <;> decide

/-! ## Packed structures -/

theorem SField.loc_of_WF {f : SField} {o : Nat} (h : f.WF o) :
    f.loc = ⟨o / 8, o % 8, ceil8 f.width, f.width⟩ := by
  cases f with
  | fixed f => simpa [SField.WF, SField.loc, SField.width] using h
  | array f => simp only [SField.WF] at h; simpa [SField.loc, SField.width] using h.1
  | struct n r l => simp only [SField.WF] at h; simpa [SField.loc, SField.width] using h.1

theorem SField.abs_of_WF {f : SField} {o : Nat} (h : f.WF o) : f.loc.abs = o := by
  rw [SField.loc_of_WF h, Loc.abs_mk]

theorem SField.listWF_le {fs : List SField} : ∀ {o e : Nat}, SField.listWF fs o e → o ≤ e := by
  induction fs with
  | nil => intro o e h; simp only [SField.listWF] at h; omega
  | cons f fs ih => intro o e h; simp only [SField.listWF] at h; have := ih h.2; omega

theorem SField.listWF_mem {fs : List SField} : ∀ {o e : Nat}, SField.listWF fs o e →
    ∀ f ∈ fs, f.WF f.loc.abs ∧ o ≤ f.loc.abs ∧ f.loc.abs + f.width ≤ e := by
  induction fs with
  | nil => intro o e _ f hf; cases hf
  | cons g fs ih =>
    intro o e h f hf
    simp only [SField.listWF] at h
    have hle := SField.listWF_le h.2
    rcases List.mem_cons.1 hf with rfl | hf
    · rw [SField.abs_of_WF h.1]
      exact ⟨h.1, Nat.le_refl _, hle⟩
    · obtain ⟨a, b, c⟩ := ih h.2 f hf
      exact ⟨a, by omega, c⟩

theorem SField.listWF_disjoint {fs : List SField} : ∀ {o e : Nat}, SField.listWF fs o e →
    ∀ f ∈ fs, ∀ g ∈ fs, f ≠ g →
      f.loc.abs + f.width ≤ g.loc.abs ∨ g.loc.abs + g.width ≤ f.loc.abs := by
  induction fs with
  | nil => intro o e _ f hf; cases hf
  | cons x fs ih =>
    intro o e h f hf g hg hne
    simp only [SField.listWF] at h
    rcases List.mem_cons.1 hf with rfl | hf'
    · rcases List.mem_cons.1 hg with rfl | hg'
      · exact absurd rfl hne
      · have := (SField.listWF_mem h.2 g hg').2.1
        rw [SField.abs_of_WF h.1]; omega
    · rcases List.mem_cons.1 hg with rfl | hg'
      · have := (SField.listWF_mem h.2 f hf').2.1
        rw [SField.abs_of_WF h.1]; omega
      · exact ih h.2 f hf' g hg' hne

theorem SField.listWellPlaced_mem {fs : List SField} (h : SField.listWellPlaced fs) :
    ∀ f ∈ fs, f.WellPlaced := by
  induction fs with
  | nil => intro f hf; cases hf
  | cons g fs ih =>
    intro f hf
    simp only [SField.listWellPlaced] at h
    rcases List.mem_cons.1 hf with rfl | hf
    · exact h.1
    · exact ih h.2 f hf

namespace Structure

theorem WF.list {s : Structure} (h : s.WF) : SField.listWF s.fields 0 s.bitSize := by
  cases s with | mk i n f b c => simp only [WF] at h; exact h.1

theorem WF.byteSize {s : Structure} (h : s.WF) : s.byteSize = ceil8 s.bitSize := by
  cases s with | mk i n f b c => simp only [WF] at h; exact h.2

theorem WellPlaced.mem {s : Structure} (h : s.WellPlaced) : ∀ f ∈ s.fields, f.WellPlaced := by
  cases s with
  | mk i n f b c => simp only [WellPlaced] at h; exact SField.listWellPlaced_mem h

/-- The byte range of a field lies inside the structure. -/
theorem WF.stop_le {s : Structure} (h : s.WF) {f : SField} (hf : f ∈ s.fields) :
    f.loc.stop ≤ s.byteSize := by
  obtain ⟨hw, _, hle⟩ := SField.listWF_mem h.list f hf
  have hl := SField.loc_of_WF hw
  rw [h.byteSize]
  have hlb : f.loc.stop = f.loc.abs / 8 + ceil8 f.width := by
    conv => lhs; rw [hl]
    rfl
  rw [hlb]
  unfold ceil8
  omega

theorem WF.nested {s r : Structure} (h : s.WF) {n : Name} {l : Loc}
    (hf : SField.struct n r l ∈ s.fields) : r.WF ∧ l.byteSize = r.byteSize := by
  obtain ⟨hw, _, _⟩ := SField.listWF_mem h.list _ hf
  simp only [SField.WF] at hw
  refine ⟨hw.2, ?_⟩
  rw [hw.1, hw.2.byteSize]

end Structure

/-! ## Array items -/

theorem ArrayField.item_facts {f : ArrayField} {o : Nat} (h : (SField.array f).WF o) :
    f.loc.bitSize = f.itemBitSize * f.arrayLen ∧ 0 < f.arrayLen := by
  simp only [SField.WF] at h
  obtain ⟨_, _, h1, w, hw⟩ := h
  refine ⟨?_, by omega⟩
  unfold ArrayField.itemBitSize
  rw [hw, Nat.mul_div_cancel _ (by omega)]

theorem ArrayField.item_bounds {f : ArrayField} {o k : Nat} (h : (SField.array f).WF o)
    (hp : (SField.array f).WellPlaced) (hk : k < f.arrayLen) :
    (k + 1) * (f.itemBitSize / 8) ≤ f.loc.byteSize ∧ 8 * (f.itemBitSize / 8) = f.itemBitSize ∧
      f.itemBitSize / 8 ≤ f.ty.byteSize := by
  obtain ⟨hb, hl⟩ := f.item_facts h
  have hbs := congrArg Loc.byteSize (SField.loc_of_WF h)
  simp only [SField.loc, SField.width] at hbs
  simp only [SField.WellPlaced] at hp
  obtain ⟨_, _, h8, hty⟩ := hp
  have e : 8 * (f.itemBitSize / 8) = f.itemBitSize := by omega
  refine ⟨?_, e, by omega⟩
  rw [hbs, hb]
  have : (k + 1) * (f.itemBitSize / 8) ≤ f.arrayLen * (f.itemBitSize / 8) :=
    Nat.mul_le_mul_right _ hk
  have e2 : f.itemBitSize * f.arrayLen = 8 * (f.arrayLen * (f.itemBitSize / 8)) := by
    rw [Nat.mul_left_comm, e, Nat.mul_comm]
  rw [e2]
  unfold ceil8
  omega

theorem ArrayField.getItem_eq (p : Profile) {f : ArrayField} {o k : Nat} (h : (SField.array f).WF o)
    (hp : (SField.array f).WellPlaced) (hk : k < f.arrayLen) {buf : Bytes}
    (hbuf : f.loc.stop ≤ buf.length) (hlen : buf.length < 2 ^ 64) :
    f.getItem p buf k = .ok (bitsLE buf (f.loc.abs + k * f.itemBitSize) f.itemBitSize) := by
  obtain ⟨b1, b2, b3⟩ := f.item_bounds h hp hk
  have hty := f.ty.byteSize_le
  have hpl := hp
  simp only [SField.WellPlaced] at hpl
  unfold ArrayField.getItem Loc.stop at *
  rw [slice_ok (by omega) hbuf]
  simp only [Res.bind_ok, Nat.add_sub_cancel_left]
  have hl : ((buf.drop f.loc.byteOffset).take f.loc.byteSize).length = f.loc.byteSize := by
    simp; omega
  rw [ArrayCodec.getRaw_eq p f.endian (by omega) (by omega), hpl.1]
  have hlw : ((((buf.drop f.loc.byteOffset).take f.loc.byteSize).drop
      (k * (f.itemBitSize / 8))).take (f.itemBitSize / 8)).length = f.itemBitSize / 8 := by
    rw [Nat.succ_mul] at b1
    simp only [List.length_take, List.length_drop] at hl ⊢
    omega
  rw [ByteCodec.readLE_eq hty (.inl (by omega)), List.take_of_length_le (by omega)]
  congr 1
  apply Nat.eq_of_testBit_eq
  intro i
  rw [testBit_leNat, testBit_bitsLE, bitAt_take, bitAt_drop, bitAt_take, bitAt_drop]
  rw [Nat.succ_mul] at b1
  by_cases hi : i < f.itemBitSize
  · rw [if_pos (by omega), if_pos (by omega), decide_eq_true hi, Bool.true_and]
    congr 1
    have e2 : k * f.itemBitSize = 8 * (k * (f.itemBitSize / 8)) := by
      rw [Nat.mul_left_comm, b2]
    unfold Loc.abs
    omega
  · rw [if_neg (by omega), decide_eq_false hi, Bool.false_and]

theorem ArrayField.setItem_eq (p : Profile) {f : ArrayField} {o k : Nat} (h : (SField.array f).WF o)
    (hp : (SField.array f).WellPlaced) (hk : k < f.arrayLen) {buf : Bytes} (v : Nat)
    (hbuf : f.loc.stop ≤ buf.length) (hlen : buf.length < 2 ^ 64) :
    ∃ b, f.setItem p buf k v = .ok b ∧
      BitsReplaced buf b (f.loc.abs + k * f.itemBitSize) f.itemBitSize v := by
  obtain ⟨b1, b2, b3⟩ := f.item_bounds h hp hk
  have hty := f.ty.byteSize_le
  have hpl := hp
  simp only [SField.WellPlaced] at hpl
  unfold ArrayField.setItem Loc.stop at *
  rw [slice_ok (by omega) hbuf]
  simp only [Res.bind_ok, Nat.add_sub_cancel_left]
  have hl : ((buf.drop f.loc.byteOffset).take f.loc.byteSize).length = f.loc.byteSize := by
    simp; omega
  rw [ArrayCodec.setRaw_eq p f.endian v (by omega) (by omega), hpl.1]
  rw [Nat.succ_mul] at b1
  have hlw : ((((buf.drop f.loc.byteOffset).take f.loc.byteSize).drop
      (k * (f.itemBitSize / 8))).take (f.itemBitSize / 8)).length = f.itemBitSize / 8 := by
    simp only [List.length_take, List.length_drop] at hl ⊢
    omega
  rw [ByteCodec.writeLE_eq v hty (.inl (by omega)), hlw, List.drop_eq_nil_of_le (by omega),
    List.append_nil]
  have hr0 : BitsReplaced ((((buf.drop f.loc.byteOffset).take f.loc.byteSize).drop
      (k * (f.itemBitSize / 8))).take (f.itemBitSize / 8))
      ((natLe f.ty.byteSize v).take (f.itemBitSize / 8)) 0 f.itemBitSize v := by
    refine ⟨by rw [hlw]; simp; omega, ?_⟩
    intro i hi
    rw [hlw] at hi
    rw [bitAt_take, bitAt_natLe, if_pos hi, if_pos (by omega)]
    have : i < 8 * f.ty.byteSize := by omega
    simp [this]
  have hr1 := (BitsReplaced_window (a := k * (f.itemBitSize / 8)) (by rw [hl]; omega) hr0).2
  have hr2 := (BitsReplaced_window hbuf hr1).2
  simp only [Nat.add_zero, Nat.sub_zero, b2, Nat.min_self] at hr2
  simp only [Res.bind_ok, Res.pure_eq]
  refine ⟨_, rfl, ?_⟩
  have e2 : k * f.itemBitSize = 8 * (k * (f.itemBitSize / 8)) := by
    rw [Nat.mul_left_comm, b2]
  have e3 : f.loc.abs + k * f.itemBitSize =
      8 * f.loc.byteOffset + 8 * (k * (f.itemBitSize / 8)) := by unfold Loc.abs; omega
  have e4 : min f.itemBitSize (8 * f.loc.byteSize - 8 * (k * (f.itemBitSize / 8))) =
      f.itemBitSize := by omega
  rw [e3]
  rwa [e4] at hr2

/-! ## Accessor chains -/

theorem FixedField.valid_of {f : FixedField} {o : Nat} (h : (SField.fixed f).WF o)
    (hp : (SField.fixed f).WellPlaced) : f.Valid := by
  have hl := SField.loc_of_WF h
  simp only [SField.loc, SField.width] at hl
  simp only [SField.WellPlaced] at hp
  refine ⟨hp.1, hp.2.1, hp.2.2.1, congrArg Loc.byteSize hl, ?_⟩
  have := congrArg Loc.bitOffset hl
  simp only at this
  omega

theorem Access.bounds {s : Structure} {a : Access} (h : s.HasAccess a) (hw : s.WF) :
    a.offset + a.width ≤ s.bitSize := by
  induction h with
  | fixed hf =>
    have := (SField.listWF_mem hw.list _ hf).2.2
    simpa [Access.offset, Access.width, SField.loc, SField.width] using this
  | @item s f k hf hk =>
    obtain ⟨hwf, _, hle⟩ := SField.listWF_mem hw.list _ hf
    obtain ⟨hb, _⟩ := f.item_facts hwf
    simp only [Access.offset, Access.width, SField.loc, SField.width] at hle ⊢
    have : (k + 1) * f.itemBitSize ≤ f.arrayLen * f.itemBitSize := Nat.mul_le_mul_right _ hk
    rw [Nat.succ_mul] at this
    rw [hb, Nat.mul_comm] at hle
    omega
  | @nested s n r loc a hf ha ih =>
    have h1 := (SField.listWF_mem hw.list _ hf).2.2
    have h2 := ih (hw.nested hf).1
    simp only [Access.offset, Access.width, SField.loc, SField.width] at h1 ⊢
    omega

theorem Access.exact (p : Profile) {s : Structure} {a : Access} (h : s.HasAccess a) (hw : s.WF)
    (hp : s.WellPlaced) {buf : Bytes} (hbuf : s.byteSize ≤ buf.length) (hlen : buf.length < 2 ^ 64) :
    a.get p buf = .ok (bitsLE buf a.offset a.width) ∧
    ∀ v, ∃ b, a.set p buf v = .ok b ∧ BitsReplaced buf b a.offset a.width v := by
  induction h generalizing buf with
  | @fixed s f hf =>
    obtain ⟨hwf, _, _⟩ := SField.listWF_mem hw.list _ hf
    have hpl := hp.mem _ hf
    have hv := f.valid_of hwf hpl
    have hst := hw.stop_le hf
    simp only [SField.loc] at hst
    simp only [SField.WellPlaced] at hpl
    obtain ⟨e1, e2⟩ := Loc.eff_of_fits hpl.2.2.2 hv.byteSize
    have hg := FixedField.getRaw_eq p hv (buf := buf) (by omega)
    have hs := fun v => FixedField.setRaw_eq p hv (buf := buf) v (by omega)
    rw [e1, e2] at hg hs
    exact ⟨hg, hs⟩
  | @item s f k hf hk =>
    obtain ⟨hwf, _, _⟩ := SField.listWF_mem hw.list _ hf
    have hpl := hp.mem _ hf
    have hst := hw.stop_le hf
    simp only [SField.loc] at hst
    exact ⟨ArrayField.getItem_eq p hwf hpl hk (by omega) hlen,
      fun v => ArrayField.setItem_eq p hwf hpl hk v (by omega) hlen⟩
  | @nested s n r loc a hf ha ih =>
    obtain ⟨hrw, hbs⟩ := hw.nested hf
    have hpl := hp.mem _ hf
    have hst := hw.stop_le hf
    simp only [SField.loc] at hst
    simp only [SField.WellPlaced] at hpl
    have hin := Access.bounds ha hrw
    unfold Loc.stop at hst
    have hl : ((buf.drop loc.byteOffset).take loc.byteSize).length = loc.byteSize := by
      simp; omega
    obtain ⟨ihg, ihs⟩ := ih hrw hpl.2 (buf := (buf.drop loc.byteOffset).take loc.byteSize)
      (by omega) (by omega)
    have hin8 : a.offset + a.width ≤ 8 * loc.byteSize := by
      rw [hbs, hrw.byteSize]; unfold ceil8; omega
    have habs : loc.abs = 8 * loc.byteOffset := by unfold Loc.abs; omega
    simp only [Access.get, Access.set, Loc.stop, Access.offset, Access.width]
    rw [slice_ok (by omega) (by omega)]
    simp only [Res.bind_ok, Nat.add_sub_cancel_left]
    refine ⟨?_, ?_⟩
    · rw [ihg, window_bits hin8, habs]
    · intro v
      obtain ⟨s', h1, h2⟩ := ihs v
      rw [h1]
      simp only [Res.bind_ok, Res.pure_eq]
      refine ⟨_, rfl, ?_⟩
      have := (BitsReplaced_window (buf := buf) (a := loc.byteOffset) (by omega) h2).2
      rw [habs]
      have e : min a.width (8 * loc.byteSize - a.offset) = a.width := by omega
      rwa [e] at this

/-- Two distinct accessor chains of a packed structure denote disjoint bit ranges. -/
theorem Access.disjoint {s : Structure} {a b : Access} (ha : s.HasAccess a) (hb : s.HasAccess b)
    (hw : s.WF) (hne : a ≠ b) :
    a.offset + a.width ≤ b.offset ∨ b.offset + b.width ≤ a.offset := by
  have slot : ∀ {t : Structure} {c : Access}, t.HasAccess c → t.WF →
      ∃ f ∈ t.fields, f.loc.abs ≤ c.offset ∧ c.offset + c.width ≤ f.loc.abs + f.width ∧
        (match c with
          | .fixed g => f = .fixed g
          | .item g _ => f = .array g
          | .nested l rest => ∃ n r, f = .struct n r l ∧ r.HasAccess rest) := by
    intro t c hc htw
    cases hc with
    | @fixed _ f hf => exact ⟨_, hf, Nat.le_refl _, Nat.le_refl _, rfl⟩
    | @item _ f k hf hk =>
      refine ⟨_, hf, ?_, ?_, rfl⟩
      · simp only [SField.loc, Access.offset]; omega
      · obtain ⟨hwf, _, _⟩ := SField.listWF_mem htw.list _ hf
        obtain ⟨hb, _⟩ := f.item_facts hwf
        simp only [SField.loc, SField.width, Access.offset, Access.width]
        have : (k + 1) * f.itemBitSize ≤ f.arrayLen * f.itemBitSize := Nat.mul_le_mul_right _ hk
        rw [Nat.succ_mul] at this
        rw [hb, Nat.mul_comm f.itemBitSize]
        omega
    | @nested _ n r l rest hf hr =>
      refine ⟨_, hf, ?_, ?_, n, r, rfl, hr⟩
      · simp only [SField.loc, Access.offset]; omega
      · have := Access.bounds hr (htw.nested hf).1
        simp only [SField.loc, SField.width, Access.offset, Access.width]
        omega
  induction ha generalizing b with
  | @fixed s f hf =>
    obtain ⟨g, hg, g1, g2, g3⟩ := slot hb hw
    by_cases hfg : SField.fixed f = g
    · subst hfg
      cases b with
      | fixed h => cases g3; exact absurd rfl hne
      | item h k => cases g3
      | nested l r => obtain ⟨n, t, e, _⟩ := g3; cases e
    · have : f.loc.abs + f.loc.bitSize ≤ g.loc.abs ∨ g.loc.abs + g.width ≤ f.loc.abs :=
        SField.listWF_disjoint hw.list _ hf g hg hfg
      simp only [Access.offset, Access.width] at *
      omega
  | @item s f k hf hk =>
    obtain ⟨g, hg, g1, g2, g3⟩ := slot hb hw
    obtain ⟨f', hf', f1, f2, f3⟩ := slot (Structure.HasAccess.item hf hk) hw
    simp only at f3
    subst f3
    by_cases hfg : SField.array f = g
    · subst hfg
      cases b with
      | fixed h => cases g3
      | item h j =>
        cases g3
        have hkj : k ≠ j := fun e => hne (by rw [e])
        simp only [Access.offset, Access.width]
        rcases Nat.lt_or_gt_of_ne hkj with hlt | hlt
        · have : (k + 1) * f.itemBitSize ≤ j * f.itemBitSize := Nat.mul_le_mul_right _ hlt
          rw [Nat.succ_mul] at this
          omega
        · have : (j + 1) * f.itemBitSize ≤ k * f.itemBitSize := Nat.mul_le_mul_right _ hlt
          rw [Nat.succ_mul] at this
          omega
      | nested l r => obtain ⟨n, t, e, _⟩ := g3; cases e
    · have := SField.listWF_disjoint hw.list _ hf g hg hfg
      omega
  | @nested s n r l a hf ha ih =>
    obtain ⟨g, hg, g1, g2, g3⟩ := slot hb hw
    have hin := Access.bounds ha (hw.nested hf).1
    by_cases hfg : SField.struct n r l = g
    · subst hfg
      cases b with
      | fixed h => cases g3
      | item h j => cases g3
      | nested l' b' =>
        obtain ⟨n', r', e, hb'⟩ := g3
        cases e
        have := ih hb' (hw.nested hf).1 (fun e => hne (by rw [e]))
        simp only [Access.offset, Access.width]
        omega
    · have : l.abs + r.bitSize ≤ g.loc.abs ∨ g.loc.abs + g.width ≤ l.abs :=
        SField.listWF_disjoint hw.list _ hf g hg hfg
      simp only [Access.offset, Access.width] at *
      omega

end Proto
