import Verif.Props.Codec
import Verif.Props.Struct
import Verif.Props.Views
import Verif.Props.Accessor
import Verif.Props.AccessorViews
import Verif.Props.AccessorFloat

/-! Further concrete cases: theorems of other files applied to data that meets their hypotheses, where
the example beside the theorem computes a value or meets the hypotheses without naming the theorem. -/

namespace Proto.Props

open Proto.Spec

/-! ## Codecs -/

example : ByteCodec.read .big 4 (List.replicate 9 1) = .panic ∧
    ByteCodec.write .big 4 (List.replicate 9 1) 5 = .panic := C01_byte_domain _ _ (by decide) (by decide)

example (p : Profile) : BitCodec.read p .little 2 3 7 [0b10101000, 0b00000010] = .ok 0b1010101 :=
  C03_bit_le_read_fits p (by decide) _ (by decide) (by decide) (by decide) (by decide)

example (p : Profile) : (do let b ← BitCodec.write p .little 2 3 7 [0xFF, 0xFF] 0x85
                            BitCodec.read p .little 2 3 7 b) = .ok 5 :=
  C04_bit_le_write_read p (by decide) _ _ (by decide) (by decide) (by decide) (by decide) (by decide)

example (p : Profile) : BitCodec.read p .big 2 0 12 [0xAB, 0xF0] = .ok 0xABF :=
  C05_bit_be_read p (by decide) _ (by decide) (by decide) (by decide) (by decide)

example (p : Profile) : ∃ b, BitCodec.write p .big 2 0 12 [0xFF, 0xFF] 0 = .ok b ∧ bitAtMSB b 0 = true ∧
    bitAtMSB b 4 = false ∧ bitAtMSB b 15 = false := by
  obtain ⟨b, h1, -, h2⟩ := C06_bit_be_write_exact p (sz := 2) (off := 0) (size := 12) (by decide)
    [0xFF, 0xFF] 0 (by decide) (by decide) (by decide) (by decide)
  exact ⟨b, h1, by rw [h2 0 (by decide)]; decide, by rw [h2 4 (by decide)]; decide,
    by rw [h2 15 (by decide)]; decide⟩

example (p : Profile) : (do let b ← BitCodec.write p .big 2 2 12 [0xFF, 0xFF] 0x1ABC
                            BitCodec.read p .big 2 2 12 b) = .ok 0xABC :=
  C06_bit_be_write_read p (by decide) _ _ (by decide) (by decide) (by decide) (by decide) (.inl (by decide))

example (p : Profile) : ∃ b, arraySets p 4 24 [1, 0, 0, 2, 0, 0] [(1, 7), (0, 9), (1, 0x1000003)] = .ok b ∧
    ArrayCodec.getRaw p .little 4 24 b 0 = .ok 9 ∧ ArrayCodec.getRaw p .little 4 24 b 1 = .ok 3 := by
  obtain ⟨b, h1, -, h2⟩ := C07_array_history p (sz := 4) (bits := 24) (n := 2) (by decide) (by decide)
    [(1, 7), (0, 9), (1, 0x1000003)] (by decide) [1, 0, 0, 2, 0, 0] (fun j => j + 1) (by decide) (by decide)
    (by intro j hj; rcases j with _ | _ | j
        · cases p <;> decide
        · cases p <;> decide
        · omega)
  exact ⟨b, h1, by rw [h2 0 (by decide)]; decide, by rw [h2 1 (by decide)]; decide⟩

example : ArrayCodec.len 7 [1, 2, 3] = .panic := C07_array_sub_byte_items (by decide) _

/-! ## Structures -/

example (p : Profile) : ∃ v, Ex.hiA.get p (List.replicate 10 0xFF) = .ok v :=
  (C09_no_panic p Ex.hi_access Ex.outer_WF Ex.outer_Sized _ (by decide) (by decide)).1

example : Ex.hiA.offset + Ex.hiA.width ≤ 80 ∧ (Ex.hiA.offset + Ex.hiA.width ≤ Ex.aA.offset ∨
    Ex.aA.offset + Ex.aA.width ≤ Ex.hiA.offset) :=
  C10_disjoint Ex.hi_access Ex.a_access Ex.outer_WF Ex.hi_ne_a

/-- The field of 8 bits that begins inside a byte is not written correctly. -/
example (p : Profile) : ¬ ∀ buf : Bytes, 2 ≤ buf.length → buf.length < 2 ^ 64 → ∀ v,
    ∃ b, (Access.fixed { name := "b".toList, ty := .u8, loc := ⟨0, 4, 1, 8⟩, view := .none, endian := .little }).set
      p buf v = .ok b ∧ BitsReplaced buf b 4 8 v := by
  intro h
  have := (C11_exact_iff_placed p Ex.skewed_WF Ex.skewed_Sized (by decide)
    (a := .fixed { name := "b".toList, ty := .u8, loc := ⟨0, 4, 1, 8⟩, view := .none, endian := .little })
    (.fixed (by simp [Ex.skewedC, Structure.fields]))).mp h
  simp [Access.Placed] at this

example (p : Profile) : Ex.hiA.get p Ex.outerC.newOnStack = .ok 0 :=
  (C12_new_on_stack p Ex.outer_WF Ex.outer_WellPlaced (by decide) Ex.hi_access).2

example (p : Profile) : ∃ b slot, Ex.hiA.set p (List.replicate 10 0xFF) 3 = .ok b ∧ slot.length = 3 ∧
    b = List.replicate 7 0xFF ++ slot := by
  obtain ⟨b, slot, h1, -, h2, h3, -⟩ := C17_confined p Ex.outer_WF (n := "e".toList) (r := Ex.innerC)
    (loc := ⟨7, 0, 3, 24⟩) (by simp [Ex.outerC, Structure.fields])
    (by simp [Ex.innerC, Structure.WellPlaced, SField.listWellPlaced, SField.WellPlaced])
    (.fixed (f := { name := "hi".toList, ty := .u8, loc := ⟨0, 4, 1, 4⟩, view := .none, endian := .little })
      (by simp [Ex.innerC, Structure.fields]))
    (List.replicate 10 0xFF) 3 (by decide) (by decide)
  exact ⟨b, slot, h1, h2, by simpa [Ex.innerC, Structure.byteSize] using h3⟩

example : ∃ f, Ex.signedC.fields[1]? = some (.fixed f) ∧
    ∀ b, f.setView .checked (List.replicate Ex.signedC.byteSize 0) (.int (-3)) = some (.ok b) →
      f.getView .checked b = .ok (.int (-3)) := by
  obtain ⟨f, hf, h⟩ := C13_signed_view (Ex.signed_compiled 1 _ rfl rfl) rfl rfl
  refine ⟨f, hf, fun b hb => ?_⟩
  obtain ⟨b', h1, -, h3⟩ := (h (List.replicate Ex.signedC.byteSize 0) (by simp) (by decide)).2 (-3)
  rw [hb] at h1
  cases h1
  exact h3 (by unfold SignedRange; decide)

example : ∃ f, Ex.signedC.fields[2]? = some (.fixed f) ∧
    ∀ b x, f.setView .checked (List.replicate Ex.signedC.byteSize 0xFF) (.bool x) = some (.ok b) →
      f.getView .checked b = .ok (.bool x) := by
  obtain ⟨f, hf, h⟩ := C14_bool_view (Ex.signed_compiled 2 _ rfl rfl) rfl rfl
  refine ⟨f, hf, fun b x hb => ?_⟩
  obtain ⟨b', h1, -, h3⟩ := (h (List.replicate Ex.signedC.byteSize 0xFF) (by simp) (by decide)).2 x
  rw [hb] at h1
  cases h1
  exact h3

end Proto.Props

namespace Proto.Rs.Acc

open Proto.Props Proto.Spec

/-! ## Generated accessors -/

theorem Ex.signed_paths : EnumPaths Ex.g1 [] Props.Ex.signedC := by
  intro f hf e he
  simp only [Props.Ex.signedC, Structure.fields, List.mem_cons, SField.fixed.injEq, List.not_mem_nil,
    or_false] at hf
  rcases hf with rfl | rfl | rfl | rfl <;> cases he

example := (C69_view Ex.apart Ex.enumPaths (f := Ex.col) (by simp [Ex.g, Ex.all, Structure.fields])
  (Ex.typed _ (by simp)).1 (Ex.typed _ (by simp)).2 (by intro _ _ _ _ h; cases h) Ex.buf).1

example := C69_signed (Props.Ex.signed_compiled 1 _ rfl rfl) rfl rfl (by decide) Ex.empty []
  (g := Ex.g1) rfl rfl Ex.signed_paths

/-- Numbers of several kinds: a whole number, a float without view, a multiple of a quarter, a range. -/
def Ex.reals : Model.Structure where
  name := ['R']
  fields := [{ name := ['w'], info := .unsigned 8 },
             { name := ['x'], info := .float 32 },
             { name := ['y'], info := .float 12, view := some (.floatMultiplier (1 / 4)) },
             { name := ['z'], info := .float 20, view := some (.floatRange 7 100) }]

theorem Ex.reals_compiled : ∃ s, (∀ i v, Ex.reals.fields[i]? = some v → Compiled .checked [] [] Ex.reals s i v) ∧
    NamesApart s ∧ s.byteSize = 9 ∧ ∀ g, EnumPaths g [] s := by
  refine ⟨_, fun i v h => ⟨(by intro n t h; cases h), ⟨0, rfl⟩, .inl rfl, ?_, h, ?_⟩, ?_, ?_, ?_⟩
  · simp [Structure.WellPlaced, SField.listWellPlaced, SField.WellPlaced]; decide
  · rcases i with _ | _ | _ | _ | i <;> simp [Ex.reals] at h <;> cases h <;> rfl
  · decide
  · rfl
  · intro g f hf e he
    simp only [Structure.fields, List.mem_cons, SField.fixed.injEq, List.not_mem_nil, or_false] at hf
    rcases hf with rfl | rfl | rfl | rfl <;> cases he

/-- The whole number 77 is read from the first byte. -/
example : ∃ s k m t, Generated Ex.empty [] s 0 ['w'] k m ∧
    k.call ⟨.checked, s, fun _ => none, .exact⟩ [77, 0, 0, 0, 0, 0, 0, 0, 0] none =
      .ok ([77, 0, 0, 0, 0, 0, 0, 0, 0], some (.uint t 77)) := by
  obtain ⟨s, hc, hn, hl, he⟩ := Ex.reals_compiled
  obtain ⟨k, m, t, hg, -, h⟩ := C69_unsigned (hc 0 _ rfl) rfl rfl hn Ex.empty []
    (g := ⟨.checked, s, fun _ => none, .exact⟩) rfl rfl (he _)
  exact ⟨s, k, m, t, hg, (h [77, 0, 0, 0, 0, 0, 0, 0, 0] (by rw [hl]; decide) (by decide)).1⟩

/-- The bits of the number 1 are stored and read again. -/
example : ∃ s k m b, Generated Ex.empty [] s 1 ['x'] k m ∧
    m.call ⟨.checked, s, fun _ => none, .exact⟩ (List.replicate 9 0) (some (.bits 4 0x3f800000)) =
      .ok (b, none) ∧
    k.call ⟨.checked, s, fun _ => none, .exact⟩ b none = .ok (b, some (.bits 4 0x3f800000)) := by
  obtain ⟨s, hc, hn, hl, he⟩ := Ex.reals_compiled
  obtain ⟨k, m, hg, h⟩ := C69_float (hc 1 _ rfl) rfl (.inl rfl) rfl hn Ex.empty []
    (g := ⟨.checked, s, fun _ => none, .exact⟩) rfl rfl (he _)
  obtain ⟨b, h1, -, h2⟩ := (h (List.replicate 9 0) (by rw [hl]; decide) (by decide)).2 0x3f800000
  exact ⟨s, k, m, b, hg, h1, h2 (by decide)⟩

/-- Raw 3 of the multiple of a quarter. -/
example : ∃ s k m, Generated Ex.empty [] s 2 ['y'] k m ∧
    k.call ⟨.checked, s, fun _ => none, .exact⟩ [0, 0, 0, 0, 0, 3, 0, 0, 0] none =
      .ok ([0, 0, 0, 0, 0, 3, 0, 0, 0], some (.real 4 (.fin (3 / 4)))) := by
  obtain ⟨s, hc, hn, hl, he⟩ := Ex.reals_compiled
  obtain ⟨k, m, hg, h⟩ := C69_scaled (hc 2 _ rfl) rfl (step := 1 / 4) (by norm_num) (.inl rfl) hn Ex.empty []
    (g := ⟨.checked, s, fun _ => none, .exact⟩) rfl rfl (he _) rfl
  refine ⟨s, k, m, hg, ?_⟩
  rw [(h [0, 0, 0, 0, 0, 3, 0, 0, 0] (by rw [hl]; decide) (by decide)).1]
  rw [show bitsLE [0, 0, 0, 0, 0, 3, 0, 0, 0] (declTotal [] (Ex.reals.fields.take 2)) 12 = 3 by decide]
  norm_num

/-- The largest raw value of the range from 7 to 100 reads as 107. -/
example : ∃ s k m, Generated Ex.empty [] s 3 ['z'] k m ∧
    k.call ⟨.checked, s, fun _ => none, .exact⟩ [0, 0, 0, 0, 0, 0, 240, 255, 255] none =
      .ok ([0, 0, 0, 0, 0, 0, 240, 255, 255], some (.real 8 (.fin 107))) := by
  obtain ⟨s, hc, hn, hl, he⟩ := Ex.reals_compiled
  obtain ⟨k, m, t, hg, -, h⟩ := C69_range (hc 3 _ rfl) rfl (by decide) rfl hn Ex.empty []
    (g := ⟨.checked, s, fun _ => none, .exact⟩) rfl rfl (he _) rfl
  refine ⟨s, k, m, hg, ?_⟩
  rw [(h [0, 0, 0, 0, 0, 0, 240, 255, 255] (by rw [hl]; decide) (by decide)).1]
  rw [show bitsLE [0, 0, 0, 0, 0, 0, 240, 255, 255] (declTotal [] (Ex.reals.fields.take 3)) 20 = 1048575 by decide]
  norm_num

theorem Ex.fraction_paths {g : Globals} : EnumPaths g [] Ex.fractionT := by
  intro f hf e he
  simp only [Ex.fractionT, Structure.fields, List.mem_cons, SField.fixed.injEq, List.not_mem_nil, or_false] at hf
  subst hf
  cases he

example := C69_ieee Ex.fraction_compiled rfl rfl Ex.fraction_rounded (by decide) Ex.empty []
  (g := ⟨.checked, Ex.fractionT, fun _ => none, .ieee fun x => x⟩) rfl rfl Ex.fraction_paths rfl

example := C69_ieee_write_read Ex.fraction_compiled rfl rfl Ex.fraction_rounded (by norm_num) (by norm_num)
  fixture_params (by norm_num) (by norm_num) (by decide) Ex.empty []
  (g := ⟨.checked, Ex.fractionT, fun _ => none, .ieee fun x => x⟩) rfl rfl Ex.fraction_paths rfl (by
    intro c hc
    simp only [List.mem_cons, List.not_mem_nil, or_false] at hc
    rcases hc with rfl | rfl | rfl | rfl
    · exact Props.Ex.prints_a
    · exact Props.Ex.prints_zero
    · exact Props.Ex.prints_ai
    · exact Props.Ex.prints_zero)

/-- A field of two bytes that the description calls a colour of one byte: the getter does not type-check. -/
def Ex.wide : Structure := .mk 0 ['S']
  [.fixed ⟨['x'], .u16, ⟨0, 0, 2, 16⟩, .enum Ex.colour, .little⟩] 2 16

example : (viewGet Ex.paths ⟨['x'], .u16, ⟨0, 0, 2, 16⟩, .enum Ex.colour, .little⟩).call
    { Ex.g with structure_ := Ex.wide } [1, 0] none = .err .stuck :=
  C69_enum_rejected (by decide) (by
    intro f hf e he
    simp only [Ex.wide, Structure.fields, List.mem_cons, SField.fixed.injEq, List.not_mem_nil, or_false] at hf
    subst hf
    cases he
    rfl) (by simp [Ex.wide, Structure.fields]) (by decide) rfl (by intro h; exact absurd h.1 (by decide)) [1, 0]
    (n := 1) (by decide) (by decide)

example := C69_part (s := Ex.all) (i := 5) rfl (by intro x h; cases h) Ex.empty Ex.paths

end Proto.Rs.Acc
