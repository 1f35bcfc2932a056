import Verif.Fixtures.Compiled
import Verif.Props.Struct
import Verif.Props.Views

/-!
# C87: the structures of the test program

Every structure `testprog/src` declares is packed and well placed, so its raw accessors are exact on
every buffer; and what its views do on every value.
-/

namespace Proto.Fix

open Props Spec

/-- C87: every structure of the test program is packed, and every field lies where its codec reads
it, in each of the three compilations of the build script. -/
theorem C87_structs : ∀ P ∈ first ++ second ++ third, ∀ s ∈ P.structs, s.WF ∧ s.WellPlaced := by
  have h : ∀ s ∈ (first ++ second ++ third).flatMap Protocol.structs, s.WF ∧ s.WellPlaced := by
    simp only [first, second, third, plain, enumsP, valuesP, unionsP, valuesStructs, List.cons_append, List.nil_append, List.flatMap_cons, List.flatMap_nil, List.append_nil]
    simp only [List.forall_mem_cons]
    simp [testIntContainer, structsNumbers, structsFlags, structsFloats, structsMaster, bitsNumbers, bits2Numbers, viewsFloats, structArraysBasic, enumsHeader, valuesValueInt8, valuesValueInt16,
        valuesValueInt32, valuesValueInt64, valuesValueUInt8, valuesValueUInt16, valuesValueUInt32,
        valuesValueUInt64, valuesValueFloat, valuesValueDouble, unions2Header, unions2Header2, arraysItem, listsTimes, Structure.WF, SField.listWF, Structure.WellPlaced, SField.listWellPlaced, SField.WellPlaced, ceil8, SField.WF, SField.width, Structure.bitSize, ArrayField.itemBitSize, FixedTy.byteSize]
    exact ⟨⟨8, rfl⟩, ⟨32, rfl⟩, ⟨24, rfl⟩⟩
  intro P hP s hs
  exact h s (List.mem_flatMap.mpr ⟨P, hP, hs⟩)
/-- C87: every raw getter of a structure of the test program yields the bits of its field, on every
buffer that holds the structure; every raw setter replaces exactly these bits; the value stored reads
back, and no other accessor of the structure yields anything different. -/
theorem C87_structs_access (p : Profile) {P : Protocol} (hP : P ∈ first ++ second ++ third)
    {s : Structure} (hs : s ∈ P.structs) {a : Access} (ha : s.HasAccess a) (buf : Bytes)
    (hbuf : s.byteSize ≤ buf.length) (hlen : buf.length < 2 ^ 64) :
    a.get p buf = .ok (bitsLE buf a.offset a.width) ∧
    ∀ v, ∃ b, a.set p buf v = .ok b ∧ BitsReplaced buf b a.offset a.width v ∧
      a.get p b = .ok (v % 2 ^ a.width) ∧
      ∀ c, s.HasAccess c → c ≠ a → c.get p b = c.get p buf := by
  obtain ⟨hw, hp⟩ := C87_structs P hP s hs
  refine ⟨C10_get p ha hw hp buf hbuf hlen, fun v => ?_⟩
  obtain ⟨b, hb, hr⟩ := C10_set p ha hw hp buf v hbuf hlen
  obtain ⟨b', hb', -, h1, h2⟩ := C10_set_get p ha hw hp buf v hbuf hlen
  rw [hb] at hb'
  cases Res.ok.inj hb'
  exact ⟨b, hb, hr, h1, h2⟩

/-- C87: the arrays of `Basic` have the lengths declared, and their items are read one after the
other: 32 of a byte, 4 of 32 bits and 2 of 24 bits. -/
theorem C87_basic (p : Profile) (buf : Bytes) (hbuf : 58 ≤ buf.length) (hlen : buf.length < 2 ^ 64) :
    ∃ f2 f3 f4, (structArraysBasic 10).fields[1]? = some (.array f2) ∧
      (structArraysBasic 10).fields[2]? = some (.array f3) ∧
      (structArraysBasic 10).fields[3]? = some (.array f4) ∧
      f2.getLen buf = .ok 32 ∧ f3.getLen buf = .ok 4 ∧ f4.getLen buf = .ok 2 ∧
      f2.getIter buf = .ok ((List.range 32).map fun k => bitsLE buf (8 * (4 + k)) 8) ∧
      f3.getIter buf = .ok ((List.range 4).map fun k => bitsLE buf (8 * (36 + 4 * k)) 32) ∧
      f4.getIter buf = .ok [bitsLE buf (8 * 52) 24, bitsLE buf (8 * 55) 24] := by
  obtain ⟨hw, hp⟩ := C87_structs (plain "struct_arrays".toList [structArraysBasic 10] [] [] [])
    (by simp [first]) (structArraysBasic 10) (by simp [plain])
  have key : ∀ f, SField.array f ∈ (structArraysBasic 10).fields → (SField.array f).WellPlaced := by
    intro f hf
    simp only [structArraysBasic, Structure.fields, List.mem_cons, List.not_mem_nil, or_false,
      reduceCtorEq, false_or, SField.array.injEq] at hf
    rcases hf with h | h | h <;> subst h <;>
      simp [SField.WellPlaced, ArrayField.itemBitSize, FixedTy.byteSize]
  have k2 := C10_array p (s := structArraysBasic 10)
    (f := ⟨"p2".toList, .u8, 32, ⟨4, 0, 32, 256⟩, .little⟩)
    (by simp [structArraysBasic, Structure.fields]) hw
    (key _ (by simp [structArraysBasic, Structure.fields]))
    (by simp [ArrayField.itemBitSize]) buf hbuf hlen
  have k3 := C10_array p (s := structArraysBasic 10)
    (f := ⟨"p3".toList, .f32, 4, ⟨36, 0, 16, 128⟩, .little⟩)
    (by simp [structArraysBasic, Structure.fields]) hw
    (key _ (by simp [structArraysBasic, Structure.fields]))
    (by simp [ArrayField.itemBitSize]) buf hbuf hlen
  have k4 := C10_array p (s := structArraysBasic 10)
    (f := ⟨"p4".toList, .u32, 2, ⟨52, 0, 6, 48⟩, .little⟩)
    (by simp [structArraysBasic, Structure.fields]) hw
    (key _ (by simp [structArraysBasic, Structure.fields]))
    (by simp [ArrayField.itemBitSize]) buf hbuf hlen
  refine ⟨_, _, _, rfl, rfl, rfl, k2.1, k3.1, k4.1, ?_, ?_, ?_⟩
  · rw [k2.2]
    congr 1
  · rw [k3.2]
    congr 1
  · rw [k4.2]
    rfl

/-- The declaration of `Numbers` in `testprog/src/bits.json5`. -/
def bitsDecl : Model.Structure where
  name := "Numbers".toList
  fields := [
    { name := "a".toList, info := .signed 4 }, { name := "b".toList, info := .unsigned 4 },
    { name := "c".toList, info := .signed 17 }, { name := "d".toList, info := .unsigned 7 }]

theorem bits_compiled (p : Profile) {i : Nat} {v : Model.SField} (h : bitsDecl.fields[i]? = some v)
    (ha : v.arrayLen = none) : Compiled p [] [] bitsDecl (bitsNumbers 7) i v :=
  ⟨(by intro n t h; cases h), ⟨_, by cases p <;> rfl⟩,
    .inr (by
      show _ < 18446744073709551616
      decide),
    by simp [bitsNumbers, Structure.WellPlaced, SField.listWellPlaced, SField.WellPlaced], h, ha⟩

/-- C87: the signed fields of `Numbers`: the first yields the two's complement value of the low four
bits of the first byte and the third that of the seventeen bits after the first byte; every value of
the range of a field reads back after it is stored, with every other bit as it was. -/
theorem C87_bits (p : Profile) (buf : Bytes) (hbuf : 4 ≤ buf.length) (hlen : buf.length < 2 ^ 64) :
    ∃ fa fc, (bitsNumbers 7).fields[0]? = some (.fixed fa) ∧
      (bitsNumbers 7).fields[2]? = some (.fixed fc) ∧
      fa.getView p buf = .ok (.int (twosComplement 4 (bitsLE buf 0 4))) ∧
      fc.getView p buf = .ok (.int (twosComplement 17 (bitsLE buf 8 17))) ∧
      (∀ x : Int, -8 ≤ x → x < 8 → ∃ b, fa.setView p buf (.int x) = some (.ok b) ∧
        BitsReplaced buf b 0 4 (pattern 4 x) ∧ fa.getView p b = .ok (.int x)) ∧
      ∀ x : Int, -65536 ≤ x → x < 65536 → ∃ b, fc.setView p buf (.int x) = some (.ok b) ∧
        BitsReplaced buf b 8 17 (pattern 17 x) ∧ fc.getView p b = .ok (.int x) := by
  obtain ⟨fa, h1, k1⟩ := C13_signed_view (bits_compiled p (i := 0) rfl rfl) rfl rfl
  obtain ⟨fc, h2, k2⟩ := C13_signed_view (bits_compiled p (i := 2) rfl rfl) rfl rfl
  obtain ⟨g1, s1⟩ := k1 buf hbuf hlen
  obtain ⟨g2, s2⟩ := k2 buf hbuf hlen
  refine ⟨fa, fc, h1, h2, g1, g2, fun x hl hu => ?_, fun x hl hu => ?_⟩
  · obtain ⟨b, hb, hr, hg⟩ := s1 x
    exact ⟨b, hb, hr, hg (by unfold SignedRange; omega)⟩
  · obtain ⟨b, hb, hr, hg⟩ := s2 x
    exact ⟨b, hb, hr, hg (by unfold SignedRange; omega)⟩

/-- The declaration of `Header` in `testprog/src/enums.json5`. -/
def headerDecl : Model.Structure where
  name := "Header".toList
  fields := [{ name := "type".toList, info := .unsigned 8, view := some (.enum "Type".toList) }]

/-- C87: the enum field of `Header`: a byte of at most 11 reads as the variant declared with that
value, any other byte as no variant, and a variant that is stored reads back. -/
theorem C87_header (p : Profile) (x : UInt8) (rest : Bytes) (hlen : rest.length + 1 < 2 ^ 64) :
    ∃ f, (enumsHeader 11).fields[0]? = some (.fixed f) ∧
      f.getView p (x :: rest) = .ok (.enum (if x.toNat ≤ 11 then some x.toNat else none)) ∧
      (∀ d, f.getView p (x :: rest) = .ok (.enum (some d)) → Declared enumsType d) ∧
      ∀ d, Declared enumsType d → ∃ b, f.setView p (x :: rest) (.enum (some d)) = some (.ok b) ∧
        b = UInt8.ofNat d :: rest ∧ f.getView p b = .ok (.enum (some d)) := by
  have hmax : ∀ y, Declared enumsType y → y ≤ 11 := by
    rintro y ⟨n, hn⟩
    simp [enumsType] at hn
    omega
  have hc : Compiled p [] [("Type".toList, enumsType)] headerDecl (enumsHeader 11) 0
      { name := "type".toList, info := .unsigned 8, view := some (.enum "Type".toList) } :=
    ⟨(by intro n t h; cases h), ⟨_, by cases p <;> rfl⟩,
      .inr (by
        show _ < 18446744073709551616
        decide),
      by simp [enumsHeader, Structure.WellPlaced, SField.listWellPlaced, SField.WellPlaced], rfl, rfl⟩
  obtain ⟨f, hf, hv⟩ := C15_enum_view hc rfl rfl (e := enumsType) rfl hmax
  have hbits : ∀ (y : UInt8) (r : Bytes), bitsLE (y :: r) 0 8 = y.toNat := by
    intro y r
    apply Nat.eq_of_testBit_eq
    intro k
    rw [testBit_bitsLE]
    by_cases hk : k < 8
    · simp [bitAt, hk, Nat.div_eq_of_lt hk, Nat.mod_eq_of_lt hk]
    · have : y.toNat < 2 ^ k := Nat.lt_of_lt_of_le y.toNat_lt (Nat.pow_le_pow_right (by omega) (by omega))
      simp [hk, Nat.testBit_lt_two_pow this]
  have hg : ∀ (y : UInt8), f.getView p (y :: rest) =
      .ok (.enum (if y.toNat ≤ 11 then some y.toNat else none)) := by
    intro y
    have := (hv (y :: rest) (by show 1 ≤ _; simp) (by simpa using hlen)).1
    rw [show declTotal [] (headerDecl.fields.take 0) = 0 from rfl, hbits] at this
    exact this
  refine ⟨f, hf, hg x, ?_, ?_⟩
  · intro d hd
    rw [hg] at hd
    split at hd
    · next hle =>
      cases hd
      have : ∀ k ≤ 11, Declared enumsType k := by
        intro k hk
        have : k = 0 ∨ k = 1 ∨ k = 2 ∨ k = 3 ∨ k = 4 ∨ k = 5 ∨ k = 6 ∨ k = 7 ∨ k = 8 ∨ k = 9 ∨
          k = 10 ∨ k = 11 := by omega
        rcases this with h | h | h | h | h | h | h | h | h | h | h | h <;> subst h <;>
          simp [Declared, enumsType]
      exact this _ hle
    · cases hd
  · intro d hd
    have hle := hmax d hd
    obtain ⟨b, hb, hr, -⟩ := (hv (x :: rest) (by show 1 ≤ _; simp) (by simpa using hlen)).2 d
    have hd8 : (UInt8.ofNat d).toNat = d := by simp; omega
    have hbe : b = UInt8.ofNat d :: rest := by
      refine hr.unique ⟨by simp, ?_⟩
      intro i hi
      rw [show declTotal [] (headerDecl.fields.take 0) = 0 from rfl]
      by_cases hi8 : i < 8
      · simp [bitAt, hi8, Nat.div_eq_of_lt hi8, Nat.mod_eq_of_lt hi8, hd8]
      · obtain ⟨q, hq⟩ : ∃ q, i / 8 = q + 1 := ⟨i / 8 - 1, by omega⟩
        simp [bitAt, hi8, hq]
    refine ⟨b, hb, hbe, ?_⟩
    rw [hbe, hg, hd8, if_pos hle]

/-! Concrete cases. -/

example : (bitsNumbers 7).byteSize = 4 ∧ (structArraysBasic 10).byteSize = 58 := ⟨rfl, rfl⟩
example : Declared enumsType 11 ∧ ¬ Declared enumsType 12 := by simp [Declared, enumsType]
example : (enumsHeader 11).HasAccess
    (.fixed ⟨"type".toList, .u8, ⟨0, 0, 1, 8⟩, (.enum enumsType), .little⟩) :=
  .fixed (by simp [enumsHeader, Structure.fields])

end Proto.Fix
