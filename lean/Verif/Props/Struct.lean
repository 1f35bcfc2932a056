import Verif.Props.Codec
import Verif.Gen.EffLemmas
import Verif.Compiler.StructureLemmas

/-!
# C08–C12, C17: structure layout and raw field access

`Spec/Layout.lean` holds the vocabulary: `declWidth`, `WF`, `WellPlaced`, `Sized`, `Access.offset`,
`Access.width`.
-/

namespace Proto.Props

open Proto Spec

/-! ## Example declarations used as witnesses below -/

namespace Ex

/-- 3-bit, 5-bit, 16-bit and 24-bit signed fields, an array of three bytes, a nested structure. -/
def inner : Model.Structure :=
  { name := "Inner".toList
    fields := [ { name := "lo".toList, info := .unsigned 4 }, { name := "hi".toList, info := .unsigned 4 },
                { name := "w".toList, info := .unsigned 16 } ] }

/-- A structure using every kind of field. -/
def outer : Model.Structure :=
  { name := "Outer".toList
    fields := [ { name := "a".toList, info := .unsigned 3 }, { name := "b".toList, info := .boolean 5 },
                { name := "c".toList, info := .signed 24 },
                { name := "d".toList, info := .unsigned 8, arrayLen := some 3 },
                { name := "e".toList, info := .struct "Inner".toList } ] }

/-- A 4-bit field followed by an 8-bit field: the second starts inside a byte. -/
def skewed : Model.Structure :=
  { name := "Skewed".toList
    fields := [ { name := "a".toList, info := .unsigned 4 }, { name := "b".toList, info := .unsigned 8 },
                { name := "c".toList, info := .unsigned 4 } ] }

def innerC : Structure :=
  .mk 0 "Inner".toList
    [ .fixed { name := "lo".toList, ty := .u8, loc := ⟨0, 0, 1, 4⟩, view := .none, endian := .little },
      .fixed { name := "hi".toList, ty := .u8, loc := ⟨0, 4, 1, 4⟩, view := .none, endian := .little },
      .fixed { name := "w".toList, ty := .u16, loc := ⟨1, 0, 2, 16⟩, view := .none, endian := .little } ]
    3 24

def outerC : Structure :=
  .mk 1 "Outer".toList
    [ .fixed { name := "a".toList, ty := .u8, loc := ⟨0, 0, 1, 3⟩, view := .none, endian := .little },
      .fixed { name := "b".toList, ty := .bool, loc := ⟨0, 3, 1, 5⟩, view := .transmute, endian := .little },
      .fixed { name := "c".toList, ty := .i32, loc := ⟨1, 0, 3, 24⟩, view := .signedCast (2 ^ 23 - 1),
               endian := .little },
      .array { name := "d".toList, ty := .u8, arrayLen := 3, loc := ⟨4, 0, 3, 24⟩, endian := .little },
      .struct "e".toList innerC ⟨7, 0, 3, 24⟩ ]
    10 80

def skewedC : Structure :=
  .mk 2 "Skewed".toList
    [ .fixed { name := "a".toList, ty := .u8, loc := ⟨0, 0, 1, 4⟩, view := .none, endian := .little },
      .fixed { name := "b".toList, ty := .u8, loc := ⟨0, 4, 1, 8⟩, view := .none, endian := .little },
      .fixed { name := "c".toList, ty := .u8, loc := ⟨1, 4, 1, 4⟩, view := .none, endian := .little } ]
    2 16

theorem inner_compiles : Structure.fromModel .checked [] [] .little 0 inner = .ok innerC := by rfl

theorem outer_compiles :
    Structure.fromModel .checked [("Inner".toList, innerC)] [] .little 1 outer = .ok outerC := by rfl

theorem skewed_compiles : Structure.fromModel .checked [] [] .little 2 skewed = .ok skewedC := by rfl

theorem inner_WF : innerC.WF :=
  Structure.fromModel_WF (by intro n s h; cases h) inner_compiles (.inl rfl)

theorem outer_WF : outerC.WF :=
  Structure.fromModel_WF (by
    intro n s h
    simp only [List.lookup] at h
    split at h
    · cases h; exact inner_WF
    · cases h) outer_compiles (.inl rfl)

theorem skewed_WF : skewedC.WF :=
  Structure.fromModel_WF (by intro n s h; cases h) skewed_compiles (.inl rfl)

theorem outer_WellPlaced : outerC.WellPlaced := by
  simp [outerC, innerC, Structure.WellPlaced, SField.listWellPlaced, SField.WellPlaced,
    ArrayField.itemBitSize, FixedTy.byteSize]

theorem skewed_Sized : skewedC.Sized := by
  simp [skewedC, Structure.Sized, SField.listSized, SField.Sized]

theorem outer_Sized : outerC.Sized := by
  simp [outerC, innerC, Structure.Sized, SField.listSized, SField.Sized, ArrayField.itemBitSize]

/-- Accessor chain of the field `hi` of the nested structure `e`. -/
def hiA : Access :=
  .nested ⟨7, 0, 3, 24⟩ (.fixed
    { name := "hi".toList, ty := .u8, loc := ⟨0, 4, 1, 4⟩, view := .none, endian := .little })

/-- Accessor chain of the field `a`. -/
def aA : Access :=
  .fixed { name := "a".toList, ty := .u8, loc := ⟨0, 0, 1, 3⟩, view := .none, endian := .little }

theorem hi_access : outerC.HasAccess hiA :=
  .nested (n := "e".toList) (r := innerC) (by simp [outerC, Structure.fields])
    (.fixed (by simp [innerC, Structure.fields]))

theorem a_access : outerC.HasAccess aA := .fixed (by simp [outerC, Structure.fields])

theorem hi_ne_a : hiA ≠ aA := by simp [hiA, aA]

theorem packed_inner : ∀ n s, [("Inner".toList, innerC)].lookup n = some s → s.WF := by
  intro n s h
  simp only [List.lookup] at h
  split at h
  · cases h; exact inner_WF
  · cases h

end Ex

/-! ## C08 -/

/-- C08: the layout of every accepted structure.  `structs` are the structures compiled before; in
the release profile the sum of the declared widths must be representable (in the checked profile the
compiler would have panicked otherwise). -/
theorem C08_layout {p : Profile} {structs : List (Name × Structure)} {enums : List (Name × Enum)}
    {e : Endian} {id : Nat} {v : Model.Structure} {s : Structure}
    (h : Structure.fromModel p structs enums e id v = .ok s)
    (hp : p = .checked ∨ declTotal structs v.fields < 2 ^ 64) :
    s.name = v.name ∧ s.fields.length = v.fields.length ∧
    s.bitSize = declTotal structs v.fields ∧ s.byteSize = (s.bitSize + 7) / 8 ∧
    ∀ i (hf : i < s.fields.length) (hv : i < v.fields.length),
      Describes p structs enums e v.fields[i] s.fields[i] ∧
      s.fields[i].name = v.fields[i].name ∧
      s.fields[i].loc.abs = declTotal structs (v.fields.take i) ∧
      s.fields[i].loc.bitOffset < 8 ∧
      s.fields[i].loc.bitSize = declWidth structs v.fields[i] ∧
      s.fields[i].loc.byteSize = (s.fields[i].loc.bitSize + 7) / 8 := by
  unfold Structure.fromModel at h
  obtain ⟨⟨fs, last⟩, h1, h⟩ := Res.bind_eq_ok.1 h
  cases h
  obtain ⟨a1, a2, a3⟩ := SField.fromModels_spec h1 (hp.imp_right (fun h => by omega))
  rw [Nat.zero_add] at a1
  simp only [Structure.name, Structure.fields, Structure.bitSize, Structure.byteSize]
  refine ⟨trivial, a2, a1, by split <;> omega, ?_⟩
  intro i hf hv
  obtain ⟨b1, b2, b3, b4, _⟩ := a3 i hf hv
  rw [Nat.zero_add] at b4
  refine ⟨b1, b2, ?_, ?_, ?_, ?_⟩
  · rw [b4, Loc.abs_mk]
  · rw [b4]; exact Nat.mod_lt _ (by omega)
  · rw [b4]
  · rw [b4]; rfl

example : Ex.outerC.byteSize = (Ex.outerC.bitSize + 7) / 8 ∧ Ex.outerC.fields.length = 5 :=
  have h := C08_layout Ex.outer_compiles (.inl rfl)
  ⟨h.2.2.2.1, h.2.1⟩

/-- C08: every accepted structure is packed, at every nesting depth, provided the structures compiled
before are. -/
theorem C08_packed {p : Profile} {structs : List (Name × Structure)} {enums : List (Name × Enum)}
    {e : Endian} (hs : ∀ n s, structs.lookup n = some s → s.WF)
    {id : Nat} {v : Model.Structure} {s : Structure}
    (h : Structure.fromModel p structs enums e id v = .ok s)
    (hp : p = .checked ∨ declTotal structs v.fields < 2 ^ 64) : s.WF :=
  Structure.fromModel_WF hs h hp

example : Ex.outerC.WF := C08_packed Ex.packed_inner Ex.outer_compiles (.inl rfl)

/-- C08: in a packed structure different fields occupy disjoint bits, all inside the structure. -/
theorem C08_disjoint {s : Structure} (h : s.WF) :
    (∀ f ∈ s.fields, f.loc.abs + f.width ≤ s.bitSize) ∧
    ∀ f ∈ s.fields, ∀ g ∈ s.fields, f ≠ g →
      f.loc.abs + f.width ≤ g.loc.abs ∨ g.loc.abs + g.width ≤ f.loc.abs :=
  ⟨fun f hf => (SField.listWF_mem h.list f hf).2.2,
   fun f hf g hg hne => SField.listWF_disjoint h.list f hf g hg hne⟩

example : ∀ f ∈ Ex.outerC.fields, f.loc.abs + f.width ≤ 80 := (C08_disjoint Ex.outer_WF).1

/-- C08: the size hypothesis cannot be dropped in the release profile: the offsets wrap around. -/
theorem C08_wrapping_overflow :
    ∃ s, Structure.fromModel .wrapping [] [] .little 0
        { name := ['s'], fields := [ { name := ['a'], info := .boolean (2 ^ 63) },
                                     { name := ['b'], info := .boolean (2 ^ 63) } ] } = .ok s ∧
      s.bitSize = 0 := by
  refine ⟨_, rfl, ?_⟩
  decide

/-- The element type a declared scalar type asks for. -/
def ElementType (ty : Model.FieldTy) (t : FixedTy) : Prop :=
  match ty with
  | .unsigned n => t ∈ [FixedTy.u8, .u16, .u32, .u64] ∧ 0 < n ∧ n ≤ 8 * t.byteSize ∧
      (t ≠ .u8 → 4 * t.byteSize < n)
  | .signed n => t ∈ [FixedTy.i8, .i16, .i32, .i64] ∧ 0 < n ∧ n ≤ 8 * t.byteSize ∧
      (t ≠ .i8 → 4 * t.byteSize < n)
  | .float n => 0 < n ∧ n ≤ 64 ∧ (t = .f32 ↔ n ≤ 16 ∨ n = 32) ∧ (t = .f64 ↔ 16 < n ∧ n ≠ 32)
  | .boolean _ => t = .bool
  | .struct _ => False

/-- C08: the integer type chosen for a width is the smallest of 8, 16, 32, 64 bits that holds it, with
the declared signedness; a boolean is always a `bool`; 32- and 64-bit floats are `f32` and `f64`. -/
theorem C08_element_type (ty : Model.FieldTy) (t : FixedTy) (h : FixedTy.fromModel ty = .ok t) :
    ElementType ty t := by
  unfold ElementType
  cases ty with
  | struct n => simp [FixedTy.fromModel, Model.FieldTy.bitSize?, Res.ofOption] at h
  | boolean n =>
    simp only [FixedTy.fromModel, Model.FieldTy.bitSize?, Model.FieldTy.simple, Res.ofOption_some,
      Res.bind_ok, if_true] at h
    cases h; rfl
  | signed n =>
    simp only [FixedTy.fromModel, Model.FieldTy.bitSize?, Model.FieldTy.simple, Res.ofOption_some,
      Res.bind_ok, FixedTy.mapNumeric, reduceCtorEq, if_false, false_and] at h
    split at h
    · cases h; simp [FixedTy.byteSize]; omega
    · split at h
      · cases h; simp [FixedTy.byteSize]; omega
      · split at h
        · cases h; simp [FixedTy.byteSize]; omega
        · split at h
          · cases h; simp [FixedTy.byteSize]; omega
          · cases h
  | unsigned n =>
    simp only [FixedTy.fromModel, Model.FieldTy.bitSize?, Model.FieldTy.simple, Res.ofOption_some,
      Res.bind_ok, FixedTy.mapNumeric, reduceCtorEq, if_false, false_and] at h
    split at h
    · cases h; simp [FixedTy.byteSize]; omega
    · split at h
      · cases h; simp [FixedTy.byteSize]; omega
      · split at h
        · cases h; simp [FixedTy.byteSize]; omega
        · split at h
          · cases h; simp [FixedTy.byteSize]; omega
          · cases h
  | float n =>
    simp only [FixedTy.fromModel, Model.FieldTy.bitSize?, Model.FieldTy.simple, Res.ofOption_some,
      Res.bind_ok, FixedTy.mapNumeric, reduceCtorEq, if_false, true_and] at h
    split at h
    · cases h; simp; omega
    · split at h
      · cases h; simp; omega
      · split at h
        · cases h; simp; omega
        · split at h
          · cases h; simp; omega
          · split at h
            · cases h; simp; omega
            · split at h
              · cases h; simp; omega
              · cases h

example : ElementType (.unsigned 17) .u32 := C08_element_type (.unsigned 17) .u32 rfl

/-- C08: every width from 1 to 64 is accepted, every other width of a number is rejected. -/
theorem C08_width_domain (n : Nat) :
    ((∃ t, FixedTy.fromModel (.unsigned n) = .ok t) ↔ 1 ≤ n ∧ n ≤ 64) ∧
    ((∃ t, FixedTy.fromModel (.signed n) = .ok t) ↔ 1 ≤ n ∧ n ≤ 64) ∧
    ((∃ t, FixedTy.fromModel (.float n) = .ok t) ↔ 1 ≤ n ∧ n ≤ 64) ∧
    (∀ ty ∈ [Model.FieldTy.unsigned n, .signed n, .float n], ¬ (1 ≤ n ∧ n ≤ 64) →
      FixedTy.fromModel ty = .err (.unsupportedBitSize n)) := by
  have hrej : ∀ ty ∈ [Model.FieldTy.unsigned n, .signed n, .float n], ¬ (1 ≤ n ∧ n ≤ 64) →
      FixedTy.fromModel ty = .err (.unsupportedBitSize n) := by
    intro ty hty hn
    simp only [List.mem_cons, List.not_mem_nil, or_false] at hty
    rcases hty with rfl | rfl | rfl <;>
    · simp only [FixedTy.fromModel, Model.FieldTy.bitSize?, Model.FieldTy.simple, Res.ofOption_some,
        Res.bind_ok, reduceCtorEq, if_false, false_and, true_and]
      repeat (first | rw [if_neg (by omega)])
  refine ⟨⟨?_, ?_⟩, ⟨?_, ?_⟩, ⟨?_, ?_⟩, hrej⟩
  · rintro ⟨t, ht⟩
    by_cases hn : 1 ≤ n ∧ n ≤ 64
    · exact hn
    · rw [hrej _ (by simp) hn] at ht; cases ht
  · intro hn
    have := Loc.unsignedTy_ok (l := ⟨0, 0, 0, n⟩) hn.1 hn.2
    unfold Loc.unsignedTy at this
    cases hf : FixedTy.fromModel (.unsigned n) with
    | ok t => exact ⟨t, rfl⟩
    | err e => simp only [hf] at this; cases this
    | panic => simp only [hf] at this; cases this
  · rintro ⟨t, ht⟩
    by_cases hn : 1 ≤ n ∧ n ≤ 64
    · exact hn
    · rw [hrej _ (by simp) hn] at ht; cases ht
  · intro hn
    simp only [FixedTy.fromModel, Model.FieldTy.bitSize?, Model.FieldTy.simple, Res.ofOption_some,
      Res.bind_ok, reduceCtorEq, if_false, false_and, FixedTy.mapNumeric]
    by_cases h1 : n > 32
    · exact ⟨_, by rw [if_pos (by omega)]⟩
    · rw [if_neg (by omega)]
      by_cases h2 : n > 16
      · exact ⟨_, by rw [if_pos (by omega)]⟩
      · rw [if_neg (by omega)]
        by_cases h3 : n > 8
        · exact ⟨_, by rw [if_pos (by omega)]⟩
        · rw [if_neg (by omega)]
          exact ⟨_, by rw [if_pos (by omega)]⟩
  · rintro ⟨t, ht⟩
    by_cases hn : 1 ≤ n ∧ n ≤ 64
    · exact hn
    · rw [hrej _ (by simp) hn] at ht; cases ht
  · intro hn
    simp only [FixedTy.fromModel, Model.FieldTy.bitSize?, Model.FieldTy.simple, Res.ofOption_some,
      Res.bind_ok, reduceCtorEq, if_false, true_and, FixedTy.mapNumeric]
    split
    · exact ⟨_, rfl⟩
    · split
      · exact ⟨_, rfl⟩
      · split
        · exact ⟨_, rfl⟩
        · split
          · exact ⟨_, rfl⟩
          · split
            · exact ⟨_, rfl⟩
            · rw [if_pos (by omega)]; exact ⟨_, rfl⟩

example : Structure.fromModel .checked [("Inner".toList, Ex.innerC)] [] .little 1 Ex.outer =
    .ok Ex.outerC := Ex.outer_compiles
example : declTotal [("Inner".toList, Ex.innerC)] Ex.outer.fields = 80 := by decide

/-! ## C09 -/

/-- C09: on any buffer at least as long as the structure, every generated accessor slices without
panic and receives exactly the byte size of its field; a nested structure receives exactly its own
byte size. -/
theorem C09_in_bounds {s : Structure} (h : s.WF) {f : SField} (hf : f ∈ s.fields) (buf : Bytes)
    (hbuf : s.byteSize ≤ buf.length) :
    (∃ x : Bytes, (slice buf f.loc.byteOffset f.loc.stop : R Bytes) = .ok x ∧
      x.length = f.loc.byteSize) ∧
    f.loc.stop ≤ s.byteSize ∧ f.loc.byteSize = (f.width + 7) / 8 ∧
    ∀ n r l, f = .struct n r l → l.byteSize = r.byteSize ∧ r.WF := by
  have hst := h.stop_le hf
  have hl := SField.loc_of_WF (SField.listWF_mem h.list f hf).1
  refine ⟨⟨_, slice_ok (by unfold Loc.stop; omega) (by omega), ?_⟩, hst, ?_, ?_⟩
  · unfold Loc.stop at *; simp; omega
  · exact congrArg Loc.byteSize hl
  · rintro n r l rfl
    exact ⟨(h.nested hf).2, (h.nested hf).1⟩

example : ∀ f ∈ Ex.outerC.fields, f.loc.stop ≤ 10 :=
  fun _ hf => (C09_in_bounds Ex.outer_WF hf (List.replicate 10 0) (by decide)).2.1

/-- C09: on any buffer at least as long as the structure no raw getter or setter, at any depth,
panics or fails, and a setter keeps the buffer's length. -/
theorem C09_no_panic (p : Profile) {s : Structure} {a : Access} (ha : s.HasAccess a) (hw : s.WF)
    (hs : s.Sized) (buf : Bytes) (hbuf : s.byteSize ≤ buf.length) (hlen : buf.length < 2 ^ 64) :
    (∃ v, a.get p buf = .ok v) ∧ ∀ v, ∃ b, a.set p buf v = .ok b ∧ b.length = buf.length := by
  obtain ⟨hg, hset⟩ := Access.exact_eff p ha hw hs hbuf hlen
  refine ⟨⟨_, hg⟩, fun v => ?_⟩
  obtain ⟨b, hb, hr⟩ := hset v
  exact ⟨b, hb, hr.1⟩

example : Ex.outerC.WF ∧ Ex.outerC.Sized := ⟨Ex.outer_WF, Ex.outer_Sized⟩

/-! ## C10 -/

/-- C10: on a well placed structure a raw getter returns exactly the field's bits. -/
theorem C10_get (p : Profile) {s : Structure} {a : Access} (ha : s.HasAccess a) (hw : s.WF)
    (hp : s.WellPlaced) (buf : Bytes) (hbuf : s.byteSize ≤ buf.length) (hlen : buf.length < 2 ^ 64) :
    a.get p buf = .ok (bitsLE buf a.offset a.width) :=
  (Access.exact p ha hw hp hbuf hlen).1

example (p : Profile) : Ex.hiA.get p [0, 0, 0, 0, 0, 0, 0, 0x5A, 0, 0] = .ok 5 :=
  C10_get p Ex.hi_access Ex.outer_WF Ex.outer_WellPlaced _ (by decide) (by decide)

/-- C10: a raw setter changes exactly the field's bits. -/
theorem C10_set (p : Profile) {s : Structure} {a : Access} (ha : s.HasAccess a) (hw : s.WF)
    (hp : s.WellPlaced) (buf : Bytes) (v : Nat) (hbuf : s.byteSize ≤ buf.length)
    (hlen : buf.length < 2 ^ 64) :
    ∃ b, a.set p buf v = .ok b ∧ BitsReplaced buf b a.offset a.width v :=
  (Access.exact p ha hw hp hbuf hlen).2 v

example (p : Profile) : ∃ b, Ex.hiA.set p (List.replicate 10 0xFF) 3 = .ok b ∧
    BitsReplaced (List.replicate 10 0xFF) b 60 4 3 :=
  C10_set p Ex.hi_access Ex.outer_WF Ex.outer_WellPlaced _ 3 (by decide) (by decide)

/-- C10: on a well placed structure `len()` of an array field is the declared length and `iter_raw()`
yields the bits of every item, in order. -/
theorem C10_array (p : Profile) {s : Structure} {f : ArrayField} (hf : SField.array f ∈ s.fields)
    (hw : s.WF) (hp : (SField.array f).WellPlaced) (h1 : 1 ≤ f.itemBitSize) (buf : Bytes)
    (hbuf : s.byteSize ≤ buf.length) (hlen : buf.length < 2 ^ 64) :
    f.getLen buf = .ok f.arrayLen ∧
    f.getIter buf = .ok ((List.range f.arrayLen).map
      (fun k => bitsLE buf (f.loc.abs + k * f.itemBitSize) f.itemBitSize)) := by
  obtain ⟨hwf, _, _⟩ := SField.listWF_mem hw.list _ hf
  have hst := hw.stop_le hf
  simp only [SField.loc] at hst hwf
  obtain ⟨hb, hl0⟩ := f.item_facts hwf
  have hbs := congrArg Loc.byteSize (SField.loc_of_WF hwf)
  simp only [SField.loc, SField.width] at hbs
  obtain ⟨-, b2, b3⟩ := f.item_bounds hwf hp hl0
  have hty := f.ty.byteSize_le
  have hn : f.loc.byteSize = f.arrayLen * (f.itemBitSize / 8) := by
    rw [hbs, hb]
    have : f.itemBitSize * f.arrayLen = 8 * (f.arrayLen * (f.itemBitSize / 8)) := by
      rw [Nat.mul_left_comm, b2, Nat.mul_comm]
    unfold ceil8
    omega
  have hsl : (slice buf f.loc.byteOffset f.loc.stop : R Bytes) =
      .ok ((buf.drop f.loc.byteOffset).take f.loc.byteSize) := by
    rw [slice_ok (by unfold Loc.stop; omega) (by omega)]
    unfold Loc.stop
    rw [Nat.add_sub_cancel_left]
  have hl : ((buf.drop f.loc.byteOffset).take f.loc.byteSize).length =
      f.arrayLen * (f.itemBitSize / 8) := by
    rw [← hn]; unfold Loc.stop at hst; simp; omega
  have hi : IntSize f.ty.byteSize := by
    unfold IntSize; cases f.ty <;> simp [FixedTy.byteSize]
  unfold ArrayField.getLen ArrayField.getIter
  rw [hsl]
  simp only [Res.bind_ok]
  refine ⟨C07_array_len _ (by omega) hl, ?_⟩
  obtain ⟨l, e1, e2, e3⟩ := C07_array_iter p f.endian hi _ (by omega) (by omega) hl (by
    rw [hl, ← hn]; unfold Loc.stop at hst; omega)
  rw [e1]
  congr 1
  apply List.ext_getElem (by simp [e2])
  intro k hk hk'
  have hget := f.getItem_eq p hwf hp (k := k) (by omega) (buf := buf) (by omega) hlen
  unfold ArrayField.getItem at hget
  rw [hsl, Res.bind_ok, e3 k hk] at hget
  simpa using Res.ok.inj hget

example (p : Profile) : ∃ f, SField.array f ∈ Ex.outerC.fields ∧
    f.getIter [0, 0, 0, 0, 7, 8, 9, 0, 0, 0] = .ok [7, 8, 9] :=
  ⟨{ name := "d".toList, ty := .u8, arrayLen := 3, loc := ⟨4, 0, 3, 24⟩, endian := .little },
    by simp [Ex.outerC, Structure.fields],
    (C10_array p (s := Ex.outerC) (by simp [Ex.outerC, Structure.fields]) Ex.outer_WF
      (by simp [SField.WellPlaced, ArrayField.itemBitSize, FixedTy.byteSize]) (by decide) _ (by decide)
      (by decide)).2⟩

/-- C10: set then get returns the value modulo `2 ^ width`; every other accessor chain of the
structure reads what it read before. -/
theorem C10_set_get (p : Profile) {s : Structure} {a : Access} (ha : s.HasAccess a) (hw : s.WF)
    (hp : s.WellPlaced) (buf : Bytes) (v : Nat) (hbuf : s.byteSize ≤ buf.length)
    (hlen : buf.length < 2 ^ 64) :
    ∃ b, a.set p buf v = .ok b ∧ b.length = buf.length ∧ a.get p b = .ok (v % 2 ^ a.width) ∧
      ∀ c, s.HasAccess c → c ≠ a → c.get p b = c.get p buf := by
  obtain ⟨b, hb, hr⟩ := C10_set p ha hw hp buf v hbuf hlen
  have hbl : b.length = buf.length := hr.1
  have hin := Access.bounds ha hw
  have hby := hw.byteSize
  have hfit : a.offset + a.width ≤ 8 * buf.length := by unfold ceil8 at hby; omega
  refine ⟨b, hb, hbl, ?_, ?_⟩
  · rw [C10_get p ha hw hp b (by omega) (by omega), hr.bitsLE_eq hfit]
  · intro c hc hne
    have hinc := Access.bounds hc hw
    rw [C10_get p hc hw hp b (by omega) (by omega), C10_get p hc hw hp buf hbuf hlen,
      hr.bitsLE_disjoint (by
        have := Access.disjoint ha hc hw (fun e => hne e.symm); omega)]

example (p : Profile) : ∃ b, Ex.hiA.set p (List.replicate 10 0xFF) 0x13 = .ok b ∧
    Ex.hiA.get p b = .ok 3 ∧ Ex.aA.get p b = Ex.aA.get p (List.replicate 10 0xFF) :=
  let ⟨b, h1, _, h2, h3⟩ := C10_set_get p Ex.hi_access Ex.outer_WF Ex.outer_WellPlaced
    (List.replicate 10 0xFF) 0x13 (by decide) (by decide)
  ⟨b, h1, h2, h3 _ Ex.a_access Ex.hi_ne_a.symm⟩

/-- C10: distinct accessor chains denote disjoint bit ranges inside the structure. -/
theorem C10_disjoint {s : Structure} {a b : Access} (ha : s.HasAccess a) (hb : s.HasAccess b)
    (hw : s.WF) (hne : a ≠ b) :
    a.offset + a.width ≤ s.bitSize ∧
    (a.offset + a.width ≤ b.offset ∨ b.offset + b.width ≤ a.offset) :=
  ⟨Access.bounds ha hw, Access.disjoint ha hb hw hne⟩

example : Ex.outerC.WF ∧ Ex.outerC.WellPlaced := ⟨Ex.outer_WF, Ex.outer_WellPlaced⟩
example : Ex.outerC.HasAccess (.nested ⟨7, 0, 3, 24⟩ (.fixed
    { name := "hi".toList, ty := .u8, loc := ⟨0, 4, 1, 4⟩, view := .none, endian := .little })) :=
  .nested (n := "e".toList) (r := Ex.innerC) (by simp [Ex.outerC, Structure.fields])
    (.fixed (by simp [Ex.innerC, Structure.fields]))

/-! ## C11 -/

/-- C11, the full claim: on every accepted structure a setter changes exactly the declared bits. -/
def C11_full : Prop :=
  ∀ (p : Profile) (s : Structure), s.WF → s.Sized → ∀ a, s.HasAccess a →
    ∀ buf : Bytes, s.byteSize ≤ buf.length → buf.length < 2 ^ 64 → ∀ v,
      ∃ b, a.set p buf v = .ok b ∧ BitsReplaced buf b a.offset a.width v

/-- C11: exactly the well placed accessor chains satisfy the claim. -/
theorem C11_exact_iff_placed (p : Profile) {s : Structure} (hw : s.WF) (hs : s.Sized)
    (hsize : s.byteSize < 2 ^ 64) {a : Access} (ha : s.HasAccess a) :
    (∀ buf : Bytes, s.byteSize ≤ buf.length → buf.length < 2 ^ 64 → ∀ v,
      ∃ b, a.set p buf v = .ok b ∧ BitsReplaced buf b a.offset a.width v) ↔ a.Placed := by
  rw [← Access.eff_iff_placed ha hw hs]
  have hin := Access.bounds ha hw
  have hby := hw.byteSize
  have hpos := Access.width_pos ha hs
  have ho := a.effOffset_le
  have hwid := a.effWidth_le
  constructor
  · intro h
    have hl : (List.replicate s.byteSize (0 : UInt8)).length = s.byteSize := by simp
    obtain ⟨b, hb, hr⟩ := h (List.replicate s.byteSize 0) (by omega) (by omega) (2 ^ a.width - 1)
    obtain ⟨_, hset⟩ := Access.exact_eff p ha hw hs (buf := List.replicate s.byteSize 0) (by omega)
      (by omega)
    obtain ⟨b', hb', hr'⟩ := hset (2 ^ a.width - 1)
    rw [hb] at hb'
    cases hb'
    have hi : a.offset + a.width - 1 < 8 * (List.replicate s.byteSize (0 : UInt8)).length := by
      rw [hl, hby]; unfold ceil8; omega
    have e1 := hr.2 _ hi
    have e2 := hr'.2 _ hi
    rw [if_pos (by omega), Nat.testBit_two_pow_sub_one, decide_eq_true (by omega)] at e1
    rw [e1] at e2
    by_cases hc : a.effOffset ≤ a.offset + a.width - 1 ∧
        a.offset + a.width - 1 < a.effOffset + a.effWidth
    · omega
    · rw [if_neg hc, bitAt_replicate_zero] at e2
      cases e2
  · rintro ⟨h1, h2⟩ buf hbuf hlen v
    have := (Access.exact_eff p ha hw hs hbuf hlen).2 v
    rwa [h1, h2] at this

/-- C11: what the accessors of any accepted structure do: the bits they address never start after
and never exceed the declared ones. -/
theorem C11_actual (p : Profile) {s : Structure} (hw : s.WF) (hs : s.Sized) {a : Access}
    (ha : s.HasAccess a) (buf : Bytes) (hbuf : s.byteSize ≤ buf.length) (hlen : buf.length < 2 ^ 64) :
    ∃ o w, o ≤ a.offset ∧ w ≤ a.width ∧ a.get p buf = .ok (bitsLE buf o w) ∧
      ∀ v, ∃ b, a.set p buf v = .ok b ∧ BitsReplaced buf b o w v := by
  obtain ⟨hg, hset⟩ := Access.exact_eff p ha hw hs hbuf hlen
  exact ⟨_, _, a.effOffset_le, a.effWidth_le, hg, hset⟩

example (p : Profile) : ∃ o w, o ≤ 4 ∧ w ≤ 8 ∧
    (Access.fixed { name := "b".toList, ty := .u8, loc := ⟨0, 4, 1, 8⟩, view := .none, endian := .little }).get
      p [0x12, 0x34] = .ok (bitsLE [0x12, 0x34] o w) :=
  let ⟨o, w, ho, hw, h, _⟩ := C11_actual p Ex.skewed_WF Ex.skewed_Sized
    (a := .fixed { name := "b".toList, ty := .u8, loc := ⟨0, 4, 1, 8⟩, view := .none, endian := .little })
    (.fixed (by simp [Ex.skewedC, Structure.fields])) [0x12, 0x34] (by decide) (by decide)
  ⟨o, w, ho, hw, h⟩

/-- C11: `len()` of an array field is the number of whole-byte items that fit in its bytes, so it
panics when an item is narrower than a byte, and it is the declared length exactly when the bytes beyond
whole bytes of the items do not make up another item. -/
theorem C11_array_len {s : Structure} {f : ArrayField} (hf : SField.array f ∈ s.fields)
    (hw : s.WF) (buf : Bytes) (hbuf : s.byteSize ≤ buf.length) :
    (f.itemBitSize < 8 → f.getLen buf = .panic ∧ f.getIter buf = .panic) ∧
    (8 ≤ f.itemBitSize →
      f.getLen buf = .ok (f.itemBitSize * f.arrayLen / 8 / (f.itemBitSize / 8)) ∧
      (f.getLen buf = .ok f.arrayLen ↔
        f.itemBitSize % 8 * f.arrayLen / 8 < f.itemBitSize / 8)) := by
  obtain ⟨hwf, _, _⟩ := SField.listWF_mem hw.list _ hf
  have hst := hw.stop_le hf
  simp only [SField.loc] at hst hwf
  obtain ⟨hb, hl0⟩ := f.item_facts hwf
  have h8 : f.loc.bitSize % 8 = 0 := by simp only [SField.WF] at hwf; exact hwf.2.1
  have hbs := congrArg Loc.byteSize (SField.loc_of_WF hwf)
  simp only [SField.loc, SField.width] at hbs
  have hby : f.loc.byteSize = f.itemBitSize * f.arrayLen / 8 := by
    rw [hbs, ← hb]; unfold ceil8; omega
  have hsl : (slice buf f.loc.byteOffset f.loc.stop : R Bytes) =
      .ok ((buf.drop f.loc.byteOffset).take f.loc.byteSize) := by
    rw [slice_ok (by unfold Loc.stop; omega) (by omega)]
    unfold Loc.stop
    rw [Nat.add_sub_cancel_left]
  have hl : ((buf.drop f.loc.byteOffset).take f.loc.byteSize).length =
      f.itemBitSize * f.arrayLen / 8 := by
    rw [← hby]; unfold Loc.stop at hst; simp; omega
  unfold ArrayField.getLen ArrayField.getIter
  rw [hsl]
  simp only [Res.bind_ok]
  constructor
  · intro h
    have e : f.itemBitSize / 8 = 0 := by omega
    unfold ArrayCodec.len ArrayCodec.iterRaw ArrayCodec.chunks
    rw [e]
    exact ⟨rfl, rfl⟩
  · intro h
    have hpos : 0 < f.itemBitSize / 8 := by omega
    have e : ArrayCodec.len f.itemBitSize ((buf.drop f.loc.byteOffset).take f.loc.byteSize) =
        .ok (f.itemBitSize * f.arrayLen / 8 / (f.itemBitSize / 8)) := by
      unfold ArrayCodec.len
      rw [divU_ok hpos, hl]
    refine ⟨e, ?_⟩
    rw [e]
    have hsplit : f.itemBitSize * f.arrayLen / 8 =
        f.itemBitSize % 8 * f.arrayLen / 8 + f.itemBitSize / 8 * f.arrayLen := by
      have h1 : f.itemBitSize * f.arrayLen =
          8 * (f.itemBitSize / 8 * f.arrayLen) + f.itemBitSize % 8 * f.arrayLen := by
        rw [← Nat.mul_assoc, ← Nat.add_mul, Nat.div_add_mod]
      omega
    rw [hsplit, Nat.add_mul_div_left _ _ hpos]
    constructor
    · intro hh
      have := Res.ok.inj hh
      have h0 : f.itemBitSize % 8 * f.arrayLen / 8 / (f.itemBitSize / 8) = 0 := by omega
      rcases Nat.div_eq_zero_iff.mp h0 with h0 | h0
      · omega
      · exact h0
    · intro hh
      rw [Nat.div_eq_of_lt hh, Nat.zero_add]

/-- Two items of 12 bits declared, three counted. -/
example : ∃ s f, Structure.fromModel .checked [] [] .little 0
      { name := ['s'], fields := [{ name := ['a'], info := .unsigned 12, arrayLen := some 2 }] } = .ok s ∧
    s.fields = [.array f] ∧ f.arrayLen = 2 ∧ f.getLen [1, 2, 3] = .ok 3 :=
  ⟨_, _, rfl, rfl, rfl, by decide⟩

/-- C11: the full claim is false: in `{a: u4, b: u8, c: u4}` the accessor of `b` addresses byte 0. -/
theorem C11_full_false : ¬ C11_full := by
  intro h
  have := h .checked Ex.skewedC Ex.skewed_WF Ex.skewed_Sized
    (.fixed { name := "b".toList, ty := .u8, loc := ⟨0, 4, 1, 8⟩, view := .none, endian := .little })
    (.fixed (by simp [Ex.skewedC, Structure.fields]))
  have := (C11_exact_iff_placed .checked Ex.skewed_WF Ex.skewed_Sized (by decide)
    (.fixed (by simp [Ex.skewedC, Structure.fields]))).1 this
  revert this
  simp [Access.Placed]

/-- C11: the observable damage: setting `b` changes what `a` reads. -/
theorem C11_overlap_witness :
    let a : FixedField :=
      { name := "a".toList, ty := .u8, loc := ⟨0, 0, 1, 4⟩, view := .none, endian := .little }
    let b : FixedField :=
      { name := "b".toList, ty := .u8, loc := ⟨0, 4, 1, 8⟩, view := .none, endian := .little }
    SField.fixed a ∈ Ex.skewedC.fields ∧ SField.fixed b ∈ Ex.skewedC.fields ∧
    a.getRaw .checked [0, 0] = .ok 0 ∧
    (do let x ← b.setRaw .checked [0, 0] 0xFF; a.getRaw .checked x) = .ok 15 := by
  refine ⟨by simp [Ex.skewedC, Structure.fields], by simp [Ex.skewedC, Structure.fields], ?_, ?_⟩ <;>
    decide

/-! ## C12 -/

/-- Runs a history of raw sets. -/
def runSets (p : Profile) : List (Access × Nat) → Bytes → R Bytes
  | [], buf => .ok buf
  | (a, v) :: rest, buf => do
    let b ← a.set p buf v
    runSets p rest b

/-- The value most recently written to `a`, if any. -/
def lastWrite (a : Access) : List (Access × Nat) → Option Nat
  | [] => none
  | (c, v) :: rest =>
    match lastWrite a rest with
    | some w => some w
    | none => if c = a then some v else none

/-- C12: after any history of sets every field reads its last written value modulo its width, or its
initial content; the length never changes; bits of no written field are untouched. -/
theorem C12_history (p : Profile) {s : Structure} (hw : s.WF) (hp : s.WellPlaced)
    (hist : List (Access × Nat)) (hh : ∀ x ∈ hist, s.HasAccess x.1) :
    ∀ (buf : Bytes), s.byteSize ≤ buf.length → buf.length < 2 ^ 64 →
    ∃ b, runSets p hist buf = .ok b ∧ b.length = buf.length ∧
      (∀ a, s.HasAccess a → a.get p b =
        .ok (match lastWrite a hist with
          | some v => v % 2 ^ a.width
          | none => bitsLE buf a.offset a.width)) ∧
      (∀ i, (∀ x ∈ hist, ¬ (x.1.offset ≤ i ∧ i < x.1.offset + x.1.width)) →
        bitAt b i = bitAt buf i) := by
  induction hist with
  | nil =>
    intro buf hbuf hlen
    exact ⟨buf, rfl, rfl, fun a ha => C10_get p ha hw hp buf hbuf hlen, fun i _ => rfl⟩
  | cons x rest ih =>
    intro buf hbuf hlen
    obtain ⟨c, v⟩ := x
    have hc : s.HasAccess c := hh (c, v) (by simp)
    obtain ⟨b1, h1, h1l, h1g, h1o⟩ := C10_set_get p hc hw hp buf v hbuf hlen
    obtain ⟨b1', h1', hr⟩ := C10_set p hc hw hp buf v hbuf hlen
    rw [h1] at h1'
    cases h1'
    obtain ⟨b, h2, h2l, h2g, h2o⟩ := ih (fun y hy => hh y (by simp [hy])) b1 (by omega) (by omega)
    refine ⟨b, by simp [runSets, h1, h2], by omega, ?_, ?_⟩
    · intro a ha
      rw [h2g a ha]
      simp only [lastWrite]
      cases hlw : lastWrite a rest with
      | some w => rfl
      | none =>
        by_cases hca : c = a
        · subst hca
          simp only [if_true]
          rw [← h1g, C10_get p ha hw hp b1 (by omega) (by omega)]
        · simp only [if_neg hca]
          rw [← C10_get p ha hw hp b1 (by omega) (by omega),
            h1o a ha (fun e => hca e.symm), C10_get p ha hw hp buf hbuf hlen]
    · intro i hi
      rw [h2o i (fun y hy => hi y (by simp [hy]))]
      by_cases hib : i < 8 * buf.length
      · rw [hr.2 i hib, if_neg (hi (c, v) (by simp))]
      · rw [bitAt_of_le (by omega), bitAt_of_le (by omega)]

example (p : Profile) : ∃ b, runSets p [(Ex.hiA, 3), (Ex.aA, 9), (Ex.hiA, 6)] (List.replicate 10 0) = .ok b ∧
    Ex.hiA.get p b = .ok 6 ∧ Ex.aA.get p b = .ok 1 :=
  let ⟨b, h1, _, h2, _⟩ := C12_history p Ex.outer_WF Ex.outer_WellPlaced
    [(Ex.hiA, 3), (Ex.aA, 9), (Ex.hiA, 6)]
    (by intro x hx; simp at hx; rcases hx with rfl | rfl | rfl <;> first | exact Ex.hi_access | exact Ex.a_access)
    (List.replicate 10 0) (by decide) (by decide)
  ⟨b, h1, h2 _ Ex.hi_access, h2 _ Ex.a_access⟩

/-- C12: sets to different fields commute byte for byte. -/
theorem C12_commute (p : Profile) {s : Structure} (hw : s.WF) (hp : s.WellPlaced) {a c : Access}
    (ha : s.HasAccess a) (hc : s.HasAccess c) (hne : a ≠ c) (v w : Nat) (buf : Bytes)
    (hbuf : s.byteSize ≤ buf.length) (hlen : buf.length < 2 ^ 64) :
    runSets p [(a, v), (c, w)] buf = runSets p [(c, w), (a, v)] buf := by
  obtain ⟨b1, h1, r1⟩ := C10_set p ha hw hp buf v hbuf hlen
  have l1 := r1.1
  obtain ⟨b2, h2, r2⟩ := C10_set p hc hw hp b1 w (by omega) (by omega)
  obtain ⟨b3, h3, r3⟩ := C10_set p hc hw hp buf w hbuf hlen
  have l3 := r3.1
  obtain ⟨b4, h4, r4⟩ := C10_set p ha hw hp b3 v (by omega) (by omega)
  have l2 := r2.1
  have l4 := r4.1
  simp only [runSets, h1, h2, h3, h4, Res.bind_ok]
  congr 1
  apply bytes_ext (by omega)
  intro i hi
  have hd := Access.disjoint ha hc hw hne
  rw [r2.2 i (by omega), r4.2 i (by omega), r1.2 i (by omega), r3.2 i (by omega)]
  by_cases h5 : a.offset ≤ i ∧ i < a.offset + a.width
  · have h6 : ¬ (c.offset ≤ i ∧ i < c.offset + c.width) := by omega
    simp only [if_pos h5, if_neg h6]
  · simp only [if_neg h5]

example (p : Profile) : runSets p [(Ex.hiA, 3), (Ex.aA, 9)] (List.replicate 10 0xFF) =
    runSets p [(Ex.aA, 9), (Ex.hiA, 3)] (List.replicate 10 0xFF) :=
  C12_commute p Ex.outer_WF Ex.outer_WellPlaced Ex.hi_access Ex.a_access Ex.hi_ne_a 3 9 _ (by decide)
    (by decide)

/-- C12: a structure created on the stack reads zero in every field. -/
theorem C12_new_on_stack (p : Profile) {s : Structure} (hw : s.WF) (hp : s.WellPlaced)
    (hsize : s.byteSize < 2 ^ 64) {a : Access} (ha : s.HasAccess a) :
    s.newOnStack.length = s.byteSize ∧ a.get p s.newOnStack = .ok 0 := by
  have hl : s.newOnStack.length = s.byteSize := by simp [Structure.newOnStack]
  refine ⟨hl, ?_⟩
  rw [C10_get p ha hw hp _ (by omega) (by omega)]
  congr 1
  apply Nat.eq_of_testBit_eq
  intro i
  rw [testBit_bitsLE, Structure.newOnStack, bitAt_replicate_zero]
  simp

example : runSets .checked
    [(.fixed { name := "a".toList, ty := .u8, loc := ⟨0, 0, 1, 3⟩, view := .none, endian := .little }, 5),
     (.item { name := "d".toList, ty := .u8, arrayLen := 3, loc := ⟨4, 0, 3, 24⟩, endian := .little } 1, 7)]
    Ex.outerC.newOnStack = .ok [5, 0, 0, 0, 0, 7, 0, 0, 0, 0] := by decide

/-! ## C17 -/

/-- C17: writing through a nested structure is writing on a copy of its slot and putting the copy
back; bytes outside the slot never change (also when the inner access is not well placed). -/
theorem C17_slot (p : Profile) (loc : Loc) (rest : Access) (buf : Bytes) (v : Nat)
    (hbuf : loc.stop ≤ buf.length) :
    (Access.nested loc rest).get p buf =
      rest.get p ((buf.drop loc.byteOffset).take loc.byteSize) ∧
    ∀ b, (Access.nested loc rest).set p buf v = .ok b ↔
      ∃ slot, rest.set p ((buf.drop loc.byteOffset).take loc.byteSize) v = .ok slot ∧
        b = buf.take loc.byteOffset ++ slot ++ buf.drop (loc.byteOffset + slot.length) := by
  unfold Loc.stop at hbuf
  simp only [Access.get, Access.set, Loc.stop]
  rw [slice_ok (by omega) hbuf]
  simp only [Res.bind_ok, Nat.add_sub_cancel_left, true_and]
  intro b
  rw [Res.bind_eq_ok]
  constructor
  · rintro ⟨slot, h1, h2⟩
    cases h2
    exact ⟨slot, h1, rfl⟩
  · rintro ⟨slot, h1, rfl⟩
    exact ⟨slot, h1, rfl⟩

example (p : Profile) (rest : Access) (v : Nat) {slot : Bytes} (h : rest.set p [8, 9, 10] v = .ok slot) :
    (Access.nested ⟨7, 0, 3, 24⟩ rest).set p [1, 2, 3, 4, 5, 6, 7, 8, 9, 10] v =
      .ok ([1, 2, 3, 4, 5, 6, 7] ++ slot ++ [8, 9, 10].drop slot.length) :=
  ((C17_slot p ⟨7, 0, 3, 24⟩ rest [1, 2, 3, 4, 5, 6, 7, 8, 9, 10] v (by decide)).2 _).2 ⟨slot, h, by
    rw [← List.drop_drop]; rfl⟩

/-- C17: on an accepted structure with a byte-aligned, well placed nested structure, a write through
the nested view changes only bits of the slot the outer structure assigned to it. -/
theorem C17_confined (p : Profile) {s r : Structure} (hw : s.WF) {n : Name} {loc : Loc}
    (hf : SField.struct n r loc ∈ s.fields) (hp : (SField.struct n r loc).WellPlaced) {rest : Access}
    (hr : r.HasAccess rest) (buf : Bytes) (v : Nat) (hbuf : s.byteSize ≤ buf.length)
    (hlen : buf.length < 2 ^ 64) :
    ∃ b slot, (Access.nested loc rest).set p buf v = .ok b ∧
      rest.set p ((buf.drop loc.byteOffset).take loc.byteSize) v = .ok slot ∧
      slot.length = r.byteSize ∧
      b = buf.take loc.byteOffset ++ slot ++ buf.drop (loc.byteOffset + r.byteSize) ∧
      ∀ i, i < 8 * buf.length → ¬ (loc.abs ≤ i ∧ i < loc.abs + r.bitSize) →
        bitAt b i = bitAt buf i := by
  obtain ⟨hrw, hbs⟩ := hw.nested hf
  have hst := hw.stop_le hf
  have hin := Access.bounds hr hrw
  simp only [SField.loc] at hst
  simp only [SField.WellPlaced] at hp
  have hst' := hst
  unfold Loc.stop at hst'
  have hl : ((buf.drop loc.byteOffset).take loc.byteSize).length = loc.byteSize := by simp; omega
  obtain ⟨slot, h1, h2⟩ := C10_set p hr hrw hp.2 ((buf.drop loc.byteOffset).take loc.byteSize) v
    (by omega) (by omega)
  have hsl : slot.length = r.byteSize := by rw [h2.1, hl, hbs]
  refine ⟨_, slot, ((C17_slot p loc rest buf v (by omega)).2 _).2 ⟨slot, h1, rfl⟩, h1, hsl, ?_, ?_⟩
  · rw [hsl]
  · intro i hi hout
    have := (BitsReplaced_window (buf := buf) (a := loc.byteOffset) (by omega) h2).2.2 i hi
    unfold splice at this
    rw [this, if_neg]
    unfold Loc.abs at hout
    omega

example : SField.struct "e".toList Ex.innerC ⟨7, 0, 3, 24⟩ ∈ Ex.outerC.fields := by
  simp [Ex.outerC, Structure.fields]

end Proto.Props
