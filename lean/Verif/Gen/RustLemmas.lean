import Verif.Gen.RenderLemmas
import Verif.Spec.Rust

/-!
# The structures and enums of the Rust generator, as text
-/

namespace Proto

set_option maxRecDepth 100000
set_option linter.unusedSimpArgs false

theorem unwrap_ok (a : α) : unwrap (.ok a : Res ε α) = .ok a := rfl

theorem unwrap_panic : unwrap (.panic : Res ε α) = .panic := rfl

/-- `joinMap` when nothing panics. -/
theorem joinMap_ok (sep : Bytes) (f : α → G Bytes) (g : α → Bytes) (xs : List α)
    (h : ∀ x ∈ xs, f x = .ok (g x)) : joinMap sep f xs = .ok (sep.intercalate (xs.map g)) := by
  induction xs with
  | nil => rfl
  | cons x xs ih =>
    have hx := h x (List.mem_cons_self ..)
    have ih := ih fun y hy => h y (List.mem_cons_of_mem _ hy)
    cases xs with
    | nil => simp [joinMap, hx, List.intercalate]
    | cons y ys =>
      rw [joinMap, hx, ih]
      simp [List.intercalate]

theorem joinMap_all (f : α → G Bytes) (g : α → Bytes) (xs : List α)
    (h : ∀ x ∈ xs, f x = .ok (g x)) : joinMap [] f xs = .ok (Text.all g xs) := by
  rw [joinMap_ok [] f g xs h, Text.all]
  congr 1
  clear h
  induction xs with
  | nil => rfl
  | cons x xs ih =>
    cases xs with
    | nil => simp [List.intercalate]
    | cons y ys =>
      simp only [List.map_cons, List.flatten_cons] at ih ⊢
      simp only [List.intercalate, List.intersperse_cons₂, List.flatten_cons, List.nil_append] at ih ⊢
      rw [ih]

theorem joinMap_panic (sep : Bytes) (f : α → G Bytes) (xs : List α) :
    joinMap sep f xs = .panic ↔ ∃ x ∈ xs, f x = .panic := by
  induction xs with
  | nil => simp [joinMap]
  | cons x xs ih =>
    cases xs with
    | nil => simp [joinMap]
    | cons y ys =>
      rw [joinMap]
      cases hx : f x with
      | ok a =>
        cases hy : joinMap sep f (y :: ys) with
        | ok b =>
          rw [hy] at ih
          simp only [Res.bind_ok, reduceCtorEq, false_iff, List.mem_cons, not_exists, not_and] at ih ⊢
          rintro z (rfl | hz)
          · rw [hx]; simp
          · exact ih z hz
        | err e => exact e.elim
        | panic =>
          rw [hy] at ih
          simp only [Res.bind_ok, Res.bind_panic, true_iff] at ih ⊢
          obtain ⟨z, hz, h⟩ := ih
          exact ⟨z, List.mem_cons_of_mem _ hz, h⟩
      | err e => exact e.elim
      | panic => simp [hx]

namespace Rust

theorem fieldType_eq (ty : FixedTy) : utils.toStructUtils.fieldType ty = Text.typeName ty := by
  cases ty <;> rfl

theorem bitCodecInline_eq (e : Endian) :
    utils.toStructUtils.bitCodecInline e = Text.bitCodec e := by
  cases e <;> krfl

theorem byteCodecInline_eq (e : Endian) :
    utils.toStructUtils.byteCodecInline e = Text.byteCodec e := by
  cases e <;> krfl

theorem byteCodec_eq (e : Endian) :
    utils.toStructUtils.byteCodec e = t!"bp3d_proto::codec::ByteCodec{Text.suffix e}" := by
  cases e <;> krfl

theorem unsignedTy_eq (l : Loc) (h0 : 0 < l.bitSize) (h1 : l.bitSize ≤ 64) :
    ∃ ty, l.unsignedTy = .ok ty ∧ Text.typeName ty = Text.rawName l.bitSize ∧
      ty.byteSize = Text.rawBytes l.bitSize := by
  have e1 : (Model.FieldTy.unsigned l.bitSize).bitSize? = some l.bitSize := rfl
  have e2 : (Model.FieldTy.unsigned l.bitSize).simple = .unsigned := rfl
  unfold Loc.unsignedTy FixedTy.fromModel Text.rawName Text.rawBytes
  simp only [e1, e2, Res.ofOption_some, Res.bind_ok, FixedTy.mapNumeric, reduceCtorEq, false_and,
    if_false]
  by_cases a1 : l.bitSize ≤ 8
  · rw [if_neg (by omega), if_neg (by omega), if_neg (by omega), if_pos (by omega), if_pos a1,
      if_pos a1]
    exact ⟨.u8, rfl, rfl, rfl⟩
  by_cases a2 : l.bitSize ≤ 16
  · rw [if_neg (by omega), if_neg (by omega), if_pos (by omega), if_neg a1, if_pos a2, if_neg a1,
      if_pos a2]
    exact ⟨.u16, rfl, rfl, rfl⟩
  by_cases a3 : l.bitSize ≤ 32
  · rw [if_neg (by omega), if_pos (by omega), if_neg a1, if_neg a2, if_pos a3, if_neg a1, if_neg a2,
      if_pos a3]
    exact ⟨.u32, rfl, rfl, rfl⟩
  · rw [if_pos (by omega), if_neg a1, if_neg a2, if_neg a3, if_neg a1, if_neg a2, if_neg a3]
    exact ⟨.u64, rfl, rfl, rfl⟩

theorem unsignedTy_panic (l : Loc) (h : l.bitSize = 0 ∨ 64 < l.bitSize) : l.unsignedTy = .panic := by
  have e1 : (Model.FieldTy.unsigned l.bitSize).bitSize? = some l.bitSize := rfl
  have e2 : (Model.FieldTy.unsigned l.bitSize).simple = .unsigned := rfl
  unfold Loc.unsignedTy FixedTy.fromModel
  simp only [e1, e2, Res.ofOption_some, Res.bind_ok, FixedTy.mapNumeric, reduceCtorEq, false_and,
    if_false]
  rw [if_neg (by omega), if_neg (by omega), if_neg (by omega), if_neg (by omega)]

theorem functionName_eq (f : FixedField) (ty : FixedTy) (h : f.loc.unsignedTy = .ok ty)
    (h2 : ty.byteSize = Text.rawBytes f.loc.bitSize) :
    utils.toStructUtils.functionName f =
      .ok (if Text.Exact f.loc then b!"read_aligned" else b!"read_unaligned") := by
  show functionName f = _
  unfold functionName
  rw [h, unwrap_ok, Res.bind_ok, h2]
  by_cases h3 : Text.Exact f.loc
  · rw [if_pos h3, if_neg (fun e => e h3.symm)]
  · rw [if_neg h3, if_pos (fun e => h3 e.symm)]

theorem functionNameMut_eq (f : FixedField) (ty : FixedTy) (h : f.loc.unsignedTy = .ok ty)
    (h2 : ty.byteSize = Text.rawBytes f.loc.bitSize) :
    utils.toStructUtils.functionNameMut f =
      .ok (if Text.Exact f.loc then b!"write_aligned" else b!"write_unaligned") := by
  show functionNameMut f = _
  unfold functionNameMut
  rw [h, unwrap_ok, Res.bind_ok, h2]
  by_cases h3 : Text.Exact f.loc
  · rw [if_pos h3, if_neg (fun e => e h3.symm)]
  · rw [if_neg h3, if_pos (fun e => h3 e.symm)]

variable (lib : Lib) (p : Profile) (paths : List (Name × Name)) (n : Bytes)

theorem addU_fits {l : Loc} (h : l.byteOffset + l.byteSize < 2 ^ 64) :
    (addU p usizeBits l.byteOffset l.byteSize : G Nat) = .ok (l.byteOffset + l.byteSize) := by
  simp [addU, usizeBits, h]

theorem fixedGetter_eq (f : FixedField) (h0 : 0 < f.loc.bitSize) (h1 : f.loc.bitSize ≤ 64)
    (h2 : f.loc.byteOffset + f.loc.byteSize < 2 ^ 64) :
    Code.fieldGetter lib p utils.toStructUtils paths
      (Tmpl.rustStructureFieldT.var b!"struct_name" n) (.fixed f) =
      .ok (Text.fieldGetter lib paths (.fixed f)) := by
  obtain ⟨ty, hu, hr, hs⟩ := unsignedTy_eq f.loc h0 h1
  simp only [Code.fieldGetter, SField.loc, addU_fits p h2, hu, functionName_eq f ty hu hs, Res.bind_ok,
    unwrap_ok, Code.fieldViewGetter, hr, fieldType_eq, bitCodecInline_eq, byteCodecInline_eq,
    Text.fieldGetter, Text.rawGetter, Text.viewGetter, Text.first, Text.last]
  generalize Text.rawName f.loc.bitSize = raw
  generalize Text.typeName f.ty = tyn
  generalize f.loc.byteOffset + f.loc.byteSize = last
  generalize Text.bitCodec f.endian = ci
  generalize Text.byteCodec f.endian = cy
  generalize (if Text.Exact f.loc then b!"read_aligned" else b!"read_unaligned" : Bytes) = read
  have hb := Classical.em (f.loc.bitSize % 8 = 0)
  generalize f.view = v
  rcases hb with hb | hb <;> cases v
  case' inl.transmute => by_cases hd : f.ty = .bool
  case' inr.transmute => by_cases hd : f.ty = .bool
  all_goals simp only [*, if_true, ne_eq, not_true, not_false_eq_true, if_false, Scope.render,
    Scope.renderToVar, Template.renderInternal_eq]
  all_goals krfl

theorem fixedSetter_eq (f : FixedField) (h0 : 0 < f.loc.bitSize) (h1 : f.loc.bitSize ≤ 64)
    (h2 : f.loc.byteOffset + f.loc.byteSize < 2 ^ 64) :
    Code.fieldSetter lib p utils.toStructUtils paths
      (Tmpl.rustStructureFieldT.var b!"struct_name" n) (.fixed f) =
      .ok (Text.fieldSetter lib paths (.fixed f)) := by
  obtain ⟨ty, hu, hr, hs⟩ := unsignedTy_eq f.loc h0 h1
  simp only [Code.fieldSetter, SField.loc, addU_fits p h2, hu, functionNameMut_eq f ty hu hs,
    Res.bind_ok, unwrap_ok, Code.fieldViewSetter, hr, fieldType_eq, bitCodecInline_eq,
    byteCodecInline_eq, Text.fieldSetter, Text.rawSetter, Text.viewSetter, Text.first, Text.last]
  generalize Text.rawName f.loc.bitSize = raw
  generalize Text.typeName f.ty = tyn
  generalize f.loc.byteOffset + f.loc.byteSize = last
  generalize Text.bitCodec f.endian = ci
  generalize Text.byteCodec f.endian = cy
  generalize (if Text.Exact f.loc then b!"write_aligned" else b!"write_unaligned" : Bytes) = write
  have hb := Classical.em (f.loc.bitSize % 8 = 0)
  have hd := Classical.em (f.ty = .bool)
  generalize f.view = v
  rcases hb with hb | hb <;> rcases hd with hd | hd <;> cases v
  all_goals simp only [hb, hd, if_true, ne_eq, not_true, not_false_eq_true, if_false, Scope.render,
    Scope.renderToVar, Template.renderInternal_eq]
  all_goals krfl

theorem arrayGetter_eq (f : ArrayField) (h0 : f.arrayLen ≠ 0)
    (h2 : f.loc.byteOffset + f.loc.byteSize < 2 ^ 64) :
    Code.fieldGetter lib p utils.toStructUtils paths
      (Tmpl.rustStructureFieldT.var b!"struct_name" n) (.array f) =
      .ok (Text.fieldGetter lib paths (.array f)) := by
  simp only [Code.fieldGetter, SField.loc, addU_fits p h2, ArrayField.itemBits, h0, if_false,
    Res.bind_ok, fieldType_eq, byteCodec_eq, Text.fieldGetter, Text.first, Text.last]
  generalize Text.typeName f.ty = tyn
  generalize f.loc.byteOffset + f.loc.byteSize = last
  generalize f.endian = en
  cases en
  all_goals simp only [Scope.render, Template.renderInternal_eq]
  all_goals krfl

theorem arraySetter_eq (f : ArrayField) (h0 : f.arrayLen ≠ 0)
    (h2 : f.loc.byteOffset + f.loc.byteSize < 2 ^ 64) :
    Code.fieldSetter lib p utils.toStructUtils paths
      (Tmpl.rustStructureFieldT.var b!"struct_name" n) (.array f) =
      .ok (Text.fieldSetter lib paths (.array f)) := by
  simp only [Code.fieldSetter, SField.loc, addU_fits p h2, ArrayField.itemBits, h0, if_false,
    Res.bind_ok, fieldType_eq, byteCodec_eq, Text.fieldSetter, Text.first, Text.last]
  generalize Text.typeName f.ty = tyn
  generalize f.loc.byteOffset + f.loc.byteSize = last
  generalize f.endian = en
  cases en
  all_goals simp only [Scope.render, Template.renderInternal_eq]
  all_goals krfl

theorem structGetter_eq (m : Name) (r : Structure) (l : Loc)
    (h2 : l.byteOffset + l.byteSize < 2 ^ 64) :
    Code.fieldGetter lib p utils.toStructUtils paths
      (Tmpl.rustStructureFieldT.var b!"struct_name" n) (.struct m r l) =
      .ok (Text.fieldGetter lib paths (.struct m r l)) := by
  simp only [Code.fieldGetter, SField.loc, addU_fits p h2, Res.bind_ok, Text.fieldGetter, Text.first,
    Text.last, Scope.render, Template.renderInternal_eq]
  krfl

theorem structSetter_eq (m : Name) (r : Structure) (l : Loc)
    (h2 : l.byteOffset + l.byteSize < 2 ^ 64) :
    Code.fieldSetter lib p utils.toStructUtils paths
      (Tmpl.rustStructureFieldT.var b!"struct_name" n) (.struct m r l) =
      .ok (Text.fieldSetter lib paths (.struct m r l)) := by
  simp only [Code.fieldSetter, SField.loc, addU_fits p h2, Res.bind_ok, Text.fieldSetter, Text.first,
    Text.last, Scope.render, Template.renderInternal_eq]
  krfl

theorem structureHead_eq (s : Structure) :
    ((Tmpl.rustStructureT.var b!"name" (Name.utf8 s.name)).var b!"byte_size"
      (display s.byteSize)).render lib.run b!""
        [b!"decl", b!"new", b!"fixed_size", b!"write_to", b!"from_slice"] =
      .ok (Text.structureHead lib s) := by
  simp only [Template.render, Template.renderInternal_eq]
  krfl

theorem getters_eq (fields : Bytes) :
    ((Tmpl.rustStructureFieldT.var b!"struct_name" n).scope.var b!"fields" fields).render lib.run b!""
      [b!"getters"] = .ok t!"impl<T: AsRef<[u8]>> {n}<T> \{
{fields}
}
" := by
  simp only [Scope.render, Template.renderInternal_eq]
  krfl

theorem setters_eq (fields : Bytes) :
    ((Tmpl.rustStructureFieldT.var b!"struct_name" n).scope.var b!"fields" fields).render lib.run b!""
      [b!"setters"] = .ok t!"impl<T: AsMut<[u8]>> {n}<T> \{
{fields}
}
" := by
  simp only [Scope.render, Template.renderInternal_eq]
  krfl

theorem enumVariant_eq (k v : Bytes) :
    (((Tmpl.rustEnumT.var b!"name" n).scope.var b!"key" k).var b!"value" v).render lib.run b!"enum"
      [b!"variant"] = .ok t!"    {k} = {v},
" := by
  simp only [Scope.render, Template.renderInternal_eq]
  krfl

theorem enumBody_eq (variants : Bytes) :
    ((Tmpl.rustEnumT.var b!"name" n).var b!"variants" variants).render lib.run b!"" [b!"enum"] =
      .ok t!"#[derive(Copy, Clone, Debug, Eq, PartialEq)]
pub enum {n} \{
{variants}
}
" := by
  simp only [Template.render, Template.renderInternal_eq]
  krfl

theorem enumDecl_eq (e : Enum) : enumDecl lib e = .ok (Text.enumText e) := by
  unfold enumDecl
  rw [Tmpl.rustEnum_compile, unwrap_ok, Res.bind_ok]
  dsimp only
  rw [joinMap_all _ (fun v : Name × Nat => t!"    {Name.utf8 v.1} = {display v.2},
") e.variants (fun v _ => by rw [enumVariant_eq]; rfl), Res.bind_ok, enumBody_eq]
  rfl

end Rust

end Proto
