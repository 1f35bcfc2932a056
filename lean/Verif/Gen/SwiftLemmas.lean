import Verif.Gen.RustLemmas
import Verif.Gen.Swift
import Verif.Spec.Swift

/-!
# The structures of the Swift generator, as text
-/

namespace Proto.Swift

open Rust (unsignedTy_eq addU_fits)

set_option maxRecDepth 100000
set_option linter.unusedSimpArgs false

theorem fieldType_eq (ty : FixedTy) : utils.fieldType ty = Text.Swift.typeName ty := by
  cases ty <;> rfl

theorem bitCodecInline_eq (e : Endian) : utils.bitCodecInline e = Text.Swift.bitCodec e := by
  cases e <;> krfl

theorem byteCodecInline_eq (e : Endian) : utils.byteCodecInline e = Text.Swift.byteCodec e := by
  cases e <;> krfl

theorem byteCodec_eq (e : Endian) : utils.byteCodec e = Text.Swift.byteCodec e := by
  cases e <;> krfl

theorem rawName_eq {l : Loc} {ty : FixedTy} (h0 : 0 < l.bitSize) (h1 : l.bitSize ≤ 64)
    (h : l.unsignedTy = .ok ty) : Text.Swift.typeName ty = Text.Swift.rawName l.bitSize := by
  obtain ⟨ty', h', hn, _⟩ := unsignedTy_eq l h0 h1
  rw [h] at h'
  cases h'
  unfold Text.rawName at hn
  unfold Text.Swift.rawName
  split at hn
  · rw [if_pos ‹_›]; cases ty <;> first | rfl | exact absurd hn (by decide)
  split at hn
  · rw [if_neg ‹_›, if_pos ‹_›]; cases ty <;> first | rfl | exact absurd hn (by decide)
  split at hn
  · rw [if_neg ‹_›, if_neg ‹_›, if_pos ‹_›]; cases ty <;> first | rfl | exact absurd hn (by decide)
  · rw [if_neg ‹_›, if_neg ‹_›, if_neg ‹_›]; cases ty <;> first | rfl | exact absurd hn (by decide)

theorem functionName_eq (f : FixedField) (ty : FixedTy) (h : f.loc.unsignedTy = .ok ty)
    (h2 : ty.byteSize = Text.rawBytes f.loc.bitSize) :
    utils.functionName f = .ok (if Text.Exact f.loc then b!"readAligned" else b!"readUnaligned") := by
  show functionName f = _
  unfold functionName
  rw [h, unwrap_ok, Res.bind_ok, h2]
  by_cases h3 : Text.Exact f.loc
  · rw [if_pos h3, if_neg (fun e => e h3.symm)]
  · rw [if_neg h3, if_pos (fun e => h3 e.symm)]

theorem functionNameMut_eq (f : FixedField) (ty : FixedTy) (h : f.loc.unsignedTy = .ok ty)
    (h2 : ty.byteSize = Text.rawBytes f.loc.bitSize) :
    utils.functionNameMut f =
      .ok (if Text.Exact f.loc then b!"writeAligned" else b!"writeUnaligned") := by
  show functionNameMut f = _
  unfold functionNameMut
  rw [h, unwrap_ok, Res.bind_ok, h2]
  by_cases h3 : Text.Exact f.loc
  · rw [if_pos h3, if_neg (fun e => e h3.symm)]
  · rw [if_neg h3, if_pos (fun e => h3 e.symm)]

variable (lib : Lib) (p : Profile) (paths : List (Name × Name)) (n : Bytes)

theorem fixedGetter_eq (f : FixedField) (h0 : 0 < f.loc.bitSize) (h1 : f.loc.bitSize ≤ 64)
    (h2 : f.loc.byteOffset + f.loc.byteSize < 2 ^ 64) :
    Code.fieldGetter lib p utils paths (Tmpl.swiftStructureFieldT.var b!"struct_name" n) (.fixed f) =
      .ok (Text.Swift.fieldGetter lib paths (.fixed f)) := by
  obtain ⟨ty, hu, _, hs⟩ := unsignedTy_eq f.loc h0 h1
  have hr := rawName_eq h0 h1 hu
  simp only [Code.fieldGetter, SField.loc, addU_fits p h2, hu, functionName_eq f ty hu hs, Res.bind_ok,
    unwrap_ok, Code.fieldViewGetter, hr, fieldType_eq, bitCodecInline_eq, byteCodecInline_eq,
    Text.Swift.fieldGetter, Text.Swift.rawGetter, Text.Swift.viewGetter, Text.first, Text.last]
  generalize Text.Swift.rawName f.loc.bitSize = raw
  generalize Text.Swift.typeName f.ty = tyn
  generalize f.loc.byteOffset + f.loc.byteSize = last
  generalize Text.Swift.bitCodec f.endian = ci
  generalize Text.Swift.byteCodec f.endian = cy
  generalize (if Text.Exact f.loc then b!"readAligned" else b!"readUnaligned" : Bytes) = read
  have hb := Classical.em (f.loc.bitSize % 8 = 0)
  generalize f.view = v
  rcases hb with hb | hb <;> cases v
  case' inl.transmute => by_cases hd : f.ty = .bool
  case' inr.transmute => by_cases hd : f.ty = .bool
  all_goals simp only [*, if_true, ne_eq, not_true, not_false_eq_true, if_false, Scope.render,
    Scope.renderToVar, Template.renderInternal_eq]
  all_goals krfl

theorem fixedSetter_eq (f : FixedField) (h0 : 0 < f.loc.bitSize) (h1 : f.loc.bitSize ≤ 64)
    (h2 : f.loc.byteOffset + f.loc.byteSize < 2 ^ 64) :
    Code.fieldSetter lib p utils paths (Tmpl.swiftStructureFieldT.var b!"struct_name" n) (.fixed f) =
      .ok (Text.Swift.fieldSetter lib paths (.fixed f)) := by
  obtain ⟨ty, hu, _, hs⟩ := unsignedTy_eq f.loc h0 h1
  have hr := rawName_eq h0 h1 hu
  simp only [Code.fieldSetter, SField.loc, addU_fits p h2, hu, functionNameMut_eq f ty hu hs,
    Res.bind_ok, unwrap_ok, Code.fieldViewSetter, hr, fieldType_eq, bitCodecInline_eq,
    byteCodecInline_eq, Text.Swift.fieldSetter, Text.Swift.rawSetter, Text.Swift.viewSetter, Text.first,
    Text.last]
  generalize Text.Swift.rawName f.loc.bitSize = raw
  generalize Text.Swift.typeName f.ty = tyn
  generalize f.loc.byteOffset + f.loc.byteSize = last
  generalize Text.Swift.bitCodec f.endian = ci
  generalize Text.Swift.byteCodec f.endian = cy
  generalize (if Text.Exact f.loc then b!"writeAligned" else b!"writeUnaligned" : Bytes) = write
  have hb := Classical.em (f.loc.bitSize % 8 = 0)
  have hd := Classical.em (f.ty = .bool)
  generalize f.view = v
  rcases hb with hb | hb <;> rcases hd with hd | hd <;> cases v
  all_goals simp only [hb, hd, if_true, ne_eq, not_true, not_false_eq_true, if_false, Scope.render,
    Scope.renderToVar, Template.renderInternal_eq]
  all_goals krfl

theorem arrayGetter_eq (f : ArrayField) (h0 : f.arrayLen ≠ 0)
    (h2 : f.loc.byteOffset + f.loc.byteSize < 2 ^ 64) :
    Code.fieldGetter lib p utils paths (Tmpl.swiftStructureFieldT.var b!"struct_name" n) (.array f) =
      .ok (Text.Swift.fieldGetter lib paths (.array f)) := by
  simp only [Code.fieldGetter, SField.loc, addU_fits p h2, ArrayField.itemBits, h0, if_false,
    Res.bind_ok, fieldType_eq, byteCodec_eq, Text.Swift.fieldGetter, Text.first, Text.last]
  generalize Text.Swift.typeName f.ty = tyn
  generalize Text.Swift.byteCodec f.endian = cy
  generalize f.loc.byteOffset + f.loc.byteSize = last
  simp only [Scope.render, Template.renderInternal_eq]
  krfl

theorem arraySetter_eq (f : ArrayField) (h0 : f.arrayLen ≠ 0)
    (h2 : f.loc.byteOffset + f.loc.byteSize < 2 ^ 64) :
    Code.fieldSetter lib p utils paths (Tmpl.swiftStructureFieldT.var b!"struct_name" n) (.array f) =
      .ok (Text.Swift.fieldSetter lib paths (.array f)) := by
  simp only [Code.fieldSetter, SField.loc, addU_fits p h2, ArrayField.itemBits, h0, if_false,
    Res.bind_ok, Text.Swift.fieldSetter, Scope.render, Template.renderInternal_eq]
  krfl

theorem structGetter_eq (m : Name) (r : Structure) (l : Loc)
    (h2 : l.byteOffset + l.byteSize < 2 ^ 64) :
    Code.fieldGetter lib p utils paths (Tmpl.swiftStructureFieldT.var b!"struct_name" n)
      (.struct m r l) = .ok (Text.Swift.fieldGetter lib paths (.struct m r l)) := by
  simp only [Code.fieldGetter, SField.loc, addU_fits p h2, Res.bind_ok, Text.Swift.fieldGetter,
    Text.first, Text.last, Scope.render, Template.renderInternal_eq]
  krfl

theorem structSetter_eq (m : Name) (r : Structure) (l : Loc)
    (h2 : l.byteOffset + l.byteSize < 2 ^ 64) :
    Code.fieldSetter lib p utils paths (Tmpl.swiftStructureFieldT.var b!"struct_name" n)
      (.struct m r l) = .ok (Text.Swift.fieldSetter lib paths (.struct m r l)) := by
  simp only [Code.fieldSetter, SField.loc, addU_fits p h2, Res.bind_ok, Text.Swift.fieldSetter,
    Scope.render, Template.renderInternal_eq]
  krfl

theorem structureHead_eq (s : Structure) :
    ((Tmpl.swiftStructureT.var b!"name" (Name.utf8 s.name)).var b!"byte_size"
      (display s.byteSize)).render lib.run b!""
        [b!"decl", b!"new", b!"fixed_size", b!"write_to", b!"from_slice"] =
      .ok (Text.Swift.structureHead s) := by
  simp only [Template.render, Template.renderInternal_eq]
  krfl

theorem getters_eq (fields : Bytes) :
    ((Tmpl.swiftStructureFieldT.var b!"struct_name" n).scope.var b!"fields" fields).render lib.run b!""
      [b!"getters"] = .ok t!"extension {n} where T: BP3DProto.Buffer \{
{fields}
}
" := by
  simp only [Scope.render, Template.renderInternal_eq]
  krfl

theorem setters_eq (fields : Bytes) :
    ((Tmpl.swiftStructureFieldT.var b!"struct_name" n).scope.var b!"fields" fields).render lib.run b!""
      [b!"setters"] = .ok t!"impl<T: AsMut<[u8]>> {n}<T> \{
{fields}
}
" := by
  simp only [Scope.render, Template.renderInternal_eq]
  krfl

end Proto.Swift
