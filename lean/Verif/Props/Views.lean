import Verif.Gen.ViewLemmas
import Verif.Props.Struct
import Mathlib.Data.Rat.Floor
import Mathlib.Tactic.Linarith
import Mathlib.Tactic.FieldSimp

/-!
# C13–C16: field views

Each theorem starts from a declaration `v`, the `i`-th field of an accepted structure `d` compiled to
`s`, and speaks about the generated `get_x` / `set_x` of that field.  `Compiled` collects the common
hypotheses.
-/

namespace Proto.Props

open Proto Spec

/-- `s` is the result of compiling declaration `d` among already compiled structures, all its fields
are well placed, and `v` is the `i`-th declared field, a scalar. -/
structure Compiled (p : Profile) (structs : List (Name × Structure)) (enums : List (Name × Enum))
    (d : Model.Structure) (s : Structure) (i : Nat) (v : Model.SField) : Prop where
  packed : ∀ n t, structs.lookup n = some t → t.WF
  compiles : ∃ id, Structure.fromModel p structs enums .little id d = .ok s
  size : p = .checked ∨ declTotal structs d.fields < 2 ^ 64
  placed : s.WellPlaced
  declared : d.fields[i]? = some v
  scalar : v.arrayLen = none

theorem Compiled.get {p : Profile} {structs : List (Name × Structure)} {enums : List (Name × Enum)}
    {d : Model.Structure} {s : Structure} {i : Nat} {v : Model.SField}
    (h : Compiled p structs enums d s i v) {bits : Nat} (hb : v.info.bitSize? = some bits) :
    ∃ f, s.fields[i]? = some (.fixed f) ∧
      CompiledScalar p enums s v bits (declTotal structs (d.fields.take i)) f := by
  obtain ⟨id, hc⟩ := h.compiles
  exact compiled_scalar h.packed hc h.size h.placed h.declared hb h.scalar

/-! ## C13 -/

/-- C13: the signed view of every width: the getter is the two's complement value of the field's
bits, the setter stores the two's complement pattern and nothing else, and reading back a
representable value returns it.  No step overflows in either profile. -/
theorem C13_signed_view {p : Profile} {structs : List (Name × Structure)}
    {enums : List (Name × Enum)} {d : Model.Structure} {s : Structure} {i : Nat} {v : Model.SField}
    (h : Compiled p structs enums d s i v) {n : Nat} (hty : v.info = .signed n)
    (hview : v.view = none) :
    ∃ f, s.fields[i]? = some (.fixed f) ∧ ∀ buf : Bytes, s.byteSize ≤ buf.length →
      buf.length < 2 ^ 64 →
      f.getView p buf =
        .ok (.int (twosComplement n (bitsLE buf (declTotal structs (d.fields.take i)) n))) ∧
      ∀ x : Int, ∃ b, f.setView p buf (.int x) = some (.ok b) ∧
        BitsReplaced buf b (declTotal structs (d.fields.take i)) n (pattern n x) ∧
        (SignedRange n x → f.getView p b = .ok (.int x)) := by
  obtain ⟨f, hf, hc⟩ := h.get (bits := n) (by rw [hty]; rfl)
  refine ⟨f, hf, ?_⟩
  have hw1 := hc.w1
  have hw64 := hc.w64
  have htyp := C08_element_type v.info f.ty hc.ty
  rw [hty] at htyp
  unfold ElementType at htyp
  simp only [List.mem_cons, List.not_mem_nil, or_false] at htyp
  have hnb : f.ty ≠ .bool := by rcases htyp.1 with h | h | h | h <;> rw [h] <;> decide
  have hnf : ¬ (f.ty = .f32 ∨ f.ty = .f64) := by
    rcases htyp.1 with h | h | h | h <;> rw [h] <;> decide
  have hv := hc.view
  rw [hty, hview] at hv
  have key : ∀ buf : Bytes, s.byteSize ≤ buf.length → buf.length < 2 ^ 64 →
      f.getView p buf =
        .ok (.int (twosComplement n (bitsLE buf (declTotal structs (d.fields.take i)) n))) ∧
      ∀ x : Int, f.setView p buf (.int x) = some (f.setRaw p buf (pattern f.rawBits x)) := by
    intro buf hbuf hlen
    have hlt := bitsLE_lt buf (declTotal structs (d.fields.take i)) n
    by_cases hn : n = 8 ∨ n = 16 ∨ n = 32 ∨ n = 64
    · have hvw : f.view = .transmute := by
        simp only [View.fromModel, Model.FieldTy.simple, reduceCtorEq, false_and, if_false] at hv
        rw [if_neg (by omega)] at hv
        exact (Res.ok.inj hv).symm
      constructor
      · simp only [FixedField.getView, hvw, if_neg hnb, if_neg hnf, FixedField.viewTransmuteGet,
          hc.get buf hbuf hlen, Res.bind_ok, Res.pure_eq]
        rw [toSigned_eq (by have := hc.raw; omega), hc.rawEq hn]
      · intro x
        have : ¬ (f.ty = .bool ∨ f.ty = .f32 ∨ f.ty = .f64) := by
          intro hh; rcases hh with hh | hh
          · exact hnb hh
          · exact hnf hh
        simp only [FixedField.setView, hvw, if_neg this, FixedField.viewSignedSet, ofSigned_eq]
    · have hpow : (2 : Nat) ^ (n - 1) < 2 ^ 64 := Nat.pow_lt_pow_right (by omega) (by omega)
      have hpos := Nat.two_pow_pos (n - 1)
      have hvw : f.view = .signedCast (2 ^ (n - 1) - 1) := by
        simp only [View.fromModel, Model.FieldTy.simple, reduceCtorEq, false_and, if_false] at hv
        rw [if_pos ⟨trivial, by omega, by omega, by omega, by omega⟩, subU_ok p hw1] at hv
        simp only [Res.bind_ok] at hv
        rw [shlU_ok p (by unfold usizeBits; omega)] at hv
        simp only [Res.bind_ok, Nat.one_shiftLeft, usizeBits, Nat.mod_eq_of_lt hpow] at hv
        rw [subU_ok p hpos] at hv
        simp only [Res.bind_ok, Res.pure_eq] at hv
        exact (Res.ok.inj hv).symm
      constructor
      · simp only [FixedField.getView, hvw, FixedField.viewSignedGet, hc.get buf hbuf hlen,
          Res.bind_ok]
        rw [signedCast_eq p hw1 (hc.rawLt (by omega) (by omega) (by omega) (by omega)) hlt]
        rfl
      · intro x
        simp only [FixedField.setView, hvw, FixedField.viewSignedSet, ofSigned_eq]
  intro buf hbuf hlen
  refine ⟨(key buf hbuf hlen).1, ?_⟩
  intro x
  obtain ⟨b, hb, hr⟩ := hc.set buf (pattern f.rawBits x) hbuf hlen
  have hbl := hr.1
  have hfit := hc.fits
  refine ⟨b, by rw [(key buf hbuf hlen).2 x, hb], ⟨hbl, ?_⟩, ?_⟩
  · intro j hj
    rw [hr.2 j hj]
    split
    · next hin =>
      rw [← pattern_mod hc.raw x, Nat.testBit_mod_two_pow, decide_eq_true (by omega), Bool.true_and]
    · rfl
  · intro hx
    rw [(key b (by omega) (by omega)).1, hr.bitsLE_eq (by omega), pattern_mod hc.raw,
      twosComplement_pattern hx]

/-- Witness: a 24-bit and a 5-bit signed field. -/
def Ex.signedModel : Model.Structure :=
  { name := ['S'], fields := [ { name := ['a'], info := .signed 24 }, { name := ['b'], info := .signed 5 },
                               { name := ['c'], info := .boolean 3 }, { name := ['d'], info := .signed 16 } ] }

def Ex.signedC : Structure :=
  .mk 0 ['S']
    [ .fixed { name := ['a'], ty := .i32, loc := ⟨0, 0, 3, 24⟩, view := .signedCast (2 ^ 23 - 1), endian := .little },
      .fixed { name := ['b'], ty := .i8, loc := ⟨3, 0, 1, 5⟩, view := .signedCast 15, endian := .little },
      .fixed { name := ['c'], ty := .bool, loc := ⟨3, 5, 1, 3⟩, view := .transmute, endian := .little },
      .fixed { name := ['d'], ty := .i16, loc := ⟨4, 0, 2, 16⟩, view := .transmute, endian := .little } ]
    6 48

theorem Ex.signed_compiled (i : Nat) (v : Model.SField) (h : Ex.signedModel.fields[i]? = some v)
    (ha : v.arrayLen = none) : Compiled .checked [] [] Ex.signedModel Ex.signedC i v :=
  ⟨(by intro n t h; cases h), ⟨0, rfl⟩, .inl rfl,
   by simp [Ex.signedC, Structure.WellPlaced, SField.listWellPlaced, SField.WellPlaced], h, ha⟩

example : Compiled .checked [] [] Ex.signedModel Ex.signedC 1 { name := ['b'], info := .signed 5 } :=
  Ex.signed_compiled 1 _ rfl rfl
example : SignedRange 5 (-16) ∧ SignedRange 5 15 ∧ ¬ SignedRange 5 16 := by
  unfold SignedRange; decide

/-! ## C14 -/

/-- C14: the boolean view: true exactly when some bit of the field is set; `set` stores 1 or 0 in the
field's bits and nothing else; reading back returns the value. -/
theorem C14_bool_view {p : Profile} {structs : List (Name × Structure)}
    {enums : List (Name × Enum)} {d : Model.Structure} {s : Structure} {i : Nat} {v : Model.SField}
    (h : Compiled p structs enums d s i v) {n : Nat} (hty : v.info = .boolean n)
    (hview : v.view = none) :
    ∃ f, s.fields[i]? = some (.fixed f) ∧ ∀ buf : Bytes, s.byteSize ≤ buf.length →
      buf.length < 2 ^ 64 →
      (∃ r, f.getView p buf = .ok (.bool r) ∧
        (r = true ↔ ∃ j, j < n ∧ bitAt buf (declTotal structs (d.fields.take i) + j) = true)) ∧
      ∀ x : Bool, ∃ b, f.setView p buf (.bool x) = some (.ok b) ∧
        BitsReplaced buf b (declTotal structs (d.fields.take i)) n (if x then 1 else 0) ∧
        f.getView p b = .ok (.bool x) := by
  obtain ⟨f, hf, hc⟩ := h.get (bits := n) (by rw [hty]; rfl)
  refine ⟨f, hf, ?_⟩
  have hw1 := hc.w1
  have htyp := C08_element_type v.info f.ty hc.ty
  rw [hty] at htyp
  unfold ElementType at htyp
  simp only at htyp
  have hv := hc.view
  rw [hty, hview] at hv
  have hvw : f.view = .transmute := by
    simp only [View.fromModel, Model.FieldTy.simple, reduceCtorEq, false_and, if_false] at hv
    exact (Res.ok.inj hv).symm
  have key : ∀ buf : Bytes, s.byteSize ≤ buf.length → buf.length < 2 ^ 64 →
      f.getView p buf =
        .ok (.bool (decide (bitsLE buf (declTotal structs (d.fields.take i)) n ≠ 0))) := by
    intro buf hbuf hlen
    simp only [FixedField.getView, hvw, if_pos htyp, FixedField.viewBoolGet, hc.get buf hbuf hlen,
      Res.bind_ok, Res.pure_eq]
    by_cases hz : bitsLE buf (declTotal structs (d.fields.take i)) n = 0 <;> simp [hz]
  intro buf hbuf hlen
  refine ⟨⟨_, key buf hbuf hlen, ?_⟩, ?_⟩
  · simp only [ne_eq, decide_eq_true_eq]
    constructor
    · intro hne
      obtain ⟨j, hj⟩ := Nat.exists_testBit_of_ne_zero hne
      rw [testBit_bitsLE] at hj
      simp only [Bool.and_eq_true, decide_eq_true_eq] at hj
      exact ⟨j, hj.1, hj.2⟩
    · rintro ⟨j, hj, hb⟩ hz
      have : (bitsLE buf (declTotal structs (d.fields.take i)) n).testBit j = true := by
        rw [testBit_bitsLE]; simp [hj, hb]
      rw [hz] at this
      simp at this
  · intro x
    obtain ⟨b, hb, hr⟩ := hc.set buf (if x then 1 else 0) hbuf hlen
    have hbl := hr.1
    have hfit := hc.fits
    refine ⟨b, ?_, hr, ?_⟩
    · simp only [FixedField.setView, hvw, if_pos htyp, FixedField.viewBoolSet]
      cases x <;> simp at hb ⊢ <;> exact hb
    · rw [key b (by omega) (by omega), hr.bitsLE_eq (by omega)]
      have h2 : 2 ≤ 2 ^ n := by
        have := Nat.pow_le_pow_right (n := 2) (by omega) hw1
        omega
      cases x
      · simp
      · simp only [if_true]
        rw [Nat.mod_eq_of_lt (by omega)]
        rfl

example : Compiled .checked [] [] Ex.signedModel Ex.signedC 2 { name := ['c'], info := .boolean 3 } :=
  Ex.signed_compiled 2 _ rfl rfl

/-! ## C15 -/

/-- C15: a compiled enum keeps exactly the declared variants, and `largest` is the greatest declared
value; an enum without variants is rejected. -/
theorem C15_enum_compile (m : Model.Enum) :
    (m.variants = [] → Enum.fromModel m = .err .zeroEnum) ∧
    (m.variants ≠ [] → ∃ e, Enum.fromModel m = .ok e ∧ e.name = m.name ∧
      e.variants.Perm m.variants ∧ e.variants.Pairwise (fun a b => a.2 ≤ b.2) ∧
      Declared e e.largest ∧ ∀ d, Declared e d → d ≤ e.largest) := by
  constructor
  · intro h
    simp [Enum.fromModel, h, Res.ofOption]
  · intro h
    have hperm := List.mergeSort_perm m.variants (fun a b => decide (a.2 ≤ b.2))
    have hsort := List.pairwise_mergeSort (le := fun (a b : Name × Nat) => decide (a.2 ≤ b.2))
      (by intro a b c; simp only [decide_eq_true_eq]; omega)
      (by intro a b; simp only [Bool.or_eq_true, decide_eq_true_eq]; omega) m.variants
    have hne : m.variants.mergeSort (fun a b => decide (a.2 ≤ b.2)) ≠ [] := by
      intro h0
      rw [h0] at hperm
      exact h (List.nil_perm.1 hperm)
    obtain ⟨l, hl⟩ : ∃ l, (m.variants.mergeSort (fun a b => decide (a.2 ≤ b.2))).getLast? = some l := by
      cases hg : (m.variants.mergeSort (fun a b => decide (a.2 ≤ b.2))).getLast? with
      | none => exact absurd (List.getLast?_eq_none_iff.1 hg) hne
      | some l => exact ⟨l, rfl⟩
    refine ⟨⟨m.name, l.2, m.variants.mergeSort (fun a b => decide (a.2 ≤ b.2))⟩, ?_, rfl, hperm,
      ?_, ?_, ?_⟩
    · simp [Enum.fromModel, hl, Res.ofOption]
    · exact hsort.imp (by intro a b; simp)
    · exact ⟨l.1, List.mem_of_getLast? hl⟩
    · rintro d ⟨nm, hd⟩
      simp only at hd ⊢
      obtain ⟨xs, hxs⟩ := List.getLast?_eq_some_iff.1 hl
      rw [hxs] at hsort hd
      rcases List.mem_append.1 hd with hd | hd
      · have := (List.pairwise_append.1 hsort).2.2 _ hd l (by simp)
        simpa using this
      · simp only [List.mem_singleton] at hd
        rw [← hd]

example : Enum.fromModel { name := ['E'], variants := [] } = .err .zeroEnum :=
  (C15_enum_compile { name := ['E'], variants := [] }).1 rfl

/-- C15, the full claim: an enum getter yields only declared variants. -/
def C15_full : Prop :=
  ∀ (p : Profile) (structs : List (Name × Structure)) (enums : List (Name × Enum))
    (d : Model.Structure) (s : Structure) (i : Nat) (v : Model.SField) (n : Nat) (nm : Name)
    (m : Model.Enum) (e : Enum),
    Compiled p structs enums d s i v → v.info = .unsigned n → v.view = some (.enum nm) →
    Enum.fromModel m = .ok e → enums.lookup nm = some e →
    ∀ f, s.fields[i]? = some (.fixed f) → ∀ buf : Bytes, s.byteSize ≤ buf.length →
      buf.length < 2 ^ 64 → ∀ x, f.getView p buf = .ok (.enum (some x)) → Declared e x

/-- C15: what the enum view does: the getter yields the raw value when it is not above the largest
declared value and nothing otherwise; the setter stores the variant's value in the field's bits and
nothing else; a declared value that fits the field reads back. -/
theorem C15_enum_view {p : Profile} {structs : List (Name × Structure)}
    {enums : List (Name × Enum)} {d : Model.Structure} {s : Structure} {i : Nat} {v : Model.SField}
    (h : Compiled p structs enums d s i v) {n : Nat} (hty : v.info = .unsigned n) {nm : Name}
    (hview : v.view = some (.enum nm)) {e : Enum} (he : enums.lookup nm = some e)
    (hmax : ∀ x, Declared e x → x ≤ e.largest) :
    ∃ f, s.fields[i]? = some (.fixed f) ∧ ∀ buf : Bytes, s.byteSize ≤ buf.length →
      buf.length < 2 ^ 64 →
      f.getView p buf = .ok (.enum (
        if bitsLE buf (declTotal structs (d.fields.take i)) n ≤ e.largest
        then some (bitsLE buf (declTotal structs (d.fields.take i)) n) else none)) ∧
      ∀ x, ∃ b, f.setView p buf (.enum (some x)) = some (.ok b) ∧
        BitsReplaced buf b (declTotal structs (d.fields.take i)) n x ∧
        (Declared e x → x < 2 ^ n → f.getView p b = .ok (.enum (some x))) := by
  obtain ⟨f, hf, hc⟩ := h.get (bits := n) (by rw [hty]; rfl)
  refine ⟨f, hf, ?_⟩
  have hv := hc.view
  rw [hty, hview] at hv
  have hvw : f.view = .enum e := by
    simp only [View.fromModel, Model.FieldTy.simple, ne_eq, not_true, if_false, he,
      Res.ofOption_some, Res.bind_ok, Res.pure_eq] at hv
    exact (Res.ok.inj hv).symm
  have key : ∀ buf : Bytes, s.byteSize ≤ buf.length → buf.length < 2 ^ 64 →
      f.getView p buf = .ok (.enum (
        if bitsLE buf (declTotal structs (d.fields.take i)) n ≤ e.largest
        then some (bitsLE buf (declTotal structs (d.fields.take i)) n) else none)) := by
    intro buf hbuf hlen
    simp only [FixedField.getView, hvw, FixedField.viewEnumGet, hc.get buf hbuf hlen, Res.bind_ok,
      Res.pure_eq]
    by_cases hle : bitsLE buf (declTotal structs (d.fields.take i)) n ≤ e.largest
    · rw [if_pos hle, if_neg (by omega)]
    · rw [if_neg hle, if_pos (by omega)]
  intro buf hbuf hlen
  refine ⟨key buf hbuf hlen, ?_⟩
  intro x
  obtain ⟨b, hb, hr⟩ := hc.set buf (x % 2 ^ f.rawBits) hbuf hlen
  have hbl := hr.1
  have hfit := hc.fits
  have hraw := hc.raw
  refine ⟨b, ?_, ⟨hbl, ?_⟩, ?_⟩
  · simp only [FixedField.setView, hvw, FixedField.viewEnumSet, hb]
  · intro j hj
    rw [hr.2 j hj]
    split
    · rw [Nat.testBit_mod_two_pow, decide_eq_true (by omega), Bool.true_and]
    · rfl
  · intro hd hx
    have hx' : x % 2 ^ f.rawBits = x :=
      Nat.mod_eq_of_lt (Nat.lt_of_lt_of_le hx (Nat.pow_le_pow_right (by omega) hraw))
    rw [key b (by omega) (by omega), hr.bitsLE_eq (by omega), hx', Nat.mod_eq_of_lt hx,
      if_pos (hmax x hd)]

/-- C15 (exactly for enums whose declared values, up to the field's capacity, have no
gaps): the getter yields only declared variants. -/
theorem C15_enum_gap_free {p : Profile} {structs : List (Name × Structure)}
    {enums : List (Name × Enum)} {d : Model.Structure} {s : Structure} {i : Nat} {v : Model.SField}
    (h : Compiled p structs enums d s i v) {n : Nat} (hty : v.info = .unsigned n) {nm : Name}
    (hview : v.view = some (.enum nm)) {e : Enum} (he : enums.lookup nm = some e)
    (hmax : ∀ x, Declared e x → x ≤ e.largest) (hsize : s.byteSize < 2 ^ 64) :
    ∃ f, s.fields[i]? = some (.fixed f) ∧
      ((∀ buf : Bytes, s.byteSize ≤ buf.length → buf.length < 2 ^ 64 → ∀ x,
          f.getView p buf = .ok (.enum (some x)) → Declared e x) ↔
       (∀ x, x ≤ e.largest → x < 2 ^ n → Declared e x)) := by
  obtain ⟨f, hf, hview'⟩ := C15_enum_view h hty hview he hmax
  refine ⟨f, hf, ?_⟩
  obtain ⟨g, hg, hc⟩ := h.get (bits := n) (by rw [hty]; rfl)
  rw [hf] at hg
  cases hg
  have hfit := hc.fits
  constructor
  · intro hall x hx hxn
    have hl : (List.replicate s.byteSize (0 : UInt8)).length = s.byteSize := by simp
    obtain ⟨b, hb, hr⟩ := hc.set (List.replicate s.byteSize 0) x (by omega) (by omega)
    have hbl := hr.1
    have hgb := (hview' b (by omega) (by omega)).1
    rw [hr.bitsLE_eq (by omega), Nat.mod_eq_of_lt hxn, if_pos hx] at hgb
    exact hall b (by omega) (by omega) x hgb
  · intro hgap buf hbuf hlen x hx
    rw [(hview' buf hbuf hlen).1] at hx
    split at hx
    · next hle =>
      cases hx
      exact hgap _ hle (bitsLE_lt _ _ _)
    · cases hx

/-- Witness: values 0 and 2 declared, 1 missing. -/
def Ex.gapEnum : Model.Enum := { name := ['E'], variants := [(['A'], 0), (['B'], 2)] }
def Ex.gapEnumC : Enum := { name := ['E'], largest := 2, variants := [(['A'], 0), (['B'], 2)] }
def Ex.gapModel : Model.Structure :=
  { name := ['S'], fields := [ { name := ['a'], info := .unsigned 8, view := some (.enum ['E']) } ] }
def Ex.gapField : FixedField :=
  { name := ['a'], ty := .u8, loc := ⟨0, 0, 1, 8⟩, view := .enum Ex.gapEnumC, endian := .little }
def Ex.gapC : Structure := .mk 0 ['S'] [ .fixed Ex.gapField ] 1 8

theorem Ex.gap_compiled : Compiled .checked [] [(['E'], Ex.gapEnumC)] Ex.gapModel Ex.gapC 0
    { name := ['a'], info := .unsigned 8, view := some (.enum ['E']) } :=
  ⟨(by intro n t h; cases h), ⟨0, rfl⟩, .inl rfl,
   by simp [Ex.gapC, Ex.gapField, Structure.WellPlaced, SField.listWellPlaced, SField.WellPlaced],
   rfl, rfl⟩

/-- C15: the full claim is false: raw 1 is reinterpreted although no variant has the value 1. -/
theorem C15_full_false : ¬ C15_full := by
  intro h
  have := h .checked [] [(['E'], Ex.gapEnumC)] Ex.gapModel Ex.gapC 0 _ 8 ['E'] Ex.gapEnum Ex.gapEnumC
    Ex.gap_compiled rfl rfl (by
      simp [Enum.fromModel, Ex.gapEnum, Ex.gapEnumC, List.mergeSort, List.MergeSort.Internal.splitInTwo,
        Res.ofOption]) rfl Ex.gapField rfl [1] (by decide) (by decide) 1 (by decide)
  obtain ⟨nm, hm⟩ := this
  simp [Ex.gapEnumC] at hm

theorem Ex.gap_max : ∀ x, Declared Ex.gapEnumC x → x ≤ Ex.gapEnumC.largest := by
  intro x ⟨nm, h⟩
  simp [Ex.gapEnumC] at h ⊢
  omega

example : ∃ f, Ex.gapC.fields[0]? = some (.fixed f) ∧
    f.getView .checked [2] = .ok (.enum (some 2)) ∧ f.getView .checked [3] = .ok (.enum none) :=
  let ⟨f, hf, h⟩ := C15_enum_view Ex.gap_compiled rfl rfl rfl Ex.gap_max
  ⟨f, hf, (h [2] (by decide) (by decide)).1, (h [3] (by decide) (by decide)).1⟩

example : ∃ f, Ex.gapC.fields[0]? = some (.fixed f) ∧
    ¬ (∀ buf : Bytes, 1 ≤ buf.length → buf.length < 2 ^ 64 → ∀ x,
      f.getView .checked buf = .ok (.enum (some x)) → Declared Ex.gapEnumC x) :=
  let ⟨f, hf, h⟩ := C15_enum_gap_free Ex.gap_compiled rfl rfl rfl Ex.gap_max (by decide)
  ⟨f, hf, fun hall => by
    obtain ⟨nm, hm⟩ := h.1 hall 1 (by decide) (by decide)
    simp [Ex.gapEnumC] at hm⟩

/-! ## C16 -/

/-- C16, the full claim: for a range view the raw extremes read as the declared minimum and maximum
and reading after writing a value of the range is within one step of it. -/
def C16_full : Prop :=
  ∀ (p : Profile) (enums : List (Name × Enum)) (n : Nat) (lo hi : Rat) (a b ai bi : Rat),
    1 ≤ n → n ≤ 63 → lo < hi →
    View.fromModel p enums .float n (some (.floatRange lo hi)) = .ok (.float a b ai bi) →
    ((0 : Nat) : Rat) * a + b = lo ∧ ((2 ^ n - 1 : Nat) : Rat) * a + b = hi ∧
    ∀ x, lo ≤ x → x ≤ hi →
      |((satCast n (x * ai + bi) : Nat) : Rat) * a + b - x| ≤ (hi - lo) / ((2 ^ n - 1 : Nat) : Rat)

/-- The parameters a range view compiles to. -/
theorem C16_range_params (p : Profile) (enums : List (Name × Enum)) {n : Nat} (h1 : n ≤ 63)
    (lo hi : Rat) :
    View.fromModel p enums .float n (some (.floatRange lo hi)) =
      .ok (.float (hi / ((2 ^ n - 1 : Nat) : Rat)) lo (1 / (hi / ((2 ^ n - 1 : Nat) : Rat))) (-lo)) := by
  have hpow : (2 : Nat) ^ n < 2 ^ 64 := Nat.pow_lt_pow_right (by omega) (by omega)
  have hpos := Nat.two_pow_pos n
  simp only [View.fromModel, ne_eq, not_true, if_false]
  rw [shlU_ok p (by unfold usizeBits; omega)]
  simp only [Res.bind_ok, Nat.one_shiftLeft, usizeBits, Nat.mod_eq_of_lt hpow]
  rw [subU_ok p hpos]
  rfl

example (p : Profile) : View.fromModel p [] .float 8 (some (.floatRange 0 510)) =
    .ok (.float 2 0 (1 / 2) 0) := by
  rw [C16_range_params p [] (by decide) 0 510]; norm_num

/-- C16: in a range view raw 0 reads as the minimum and the largest raw value reads as minimum plus
maximum, which is the declared maximum exactly when the minimum is 0. -/
theorem C16_range_extremes (p : Profile) (enums : List (Name × Enum)) {n : Nat} (h0 : 1 ≤ n)
    (h1 : n ≤ 63) (lo hi : Rat) :
    ∃ a b ai bi, View.fromModel p enums .float n (some (.floatRange lo hi)) = .ok (.float a b ai bi) ∧
      ((0 : Nat) : Rat) * a + b = lo ∧ ((2 ^ n - 1 : Nat) : Rat) * a + b = hi + lo ∧
      (((2 ^ n - 1 : Nat) : Rat) * a + b = hi ↔ lo = 0) := by
  refine ⟨_, _, _, _, C16_range_params p enums h1 lo hi, ?_, ?_, ?_⟩
  · simp
  · have h2 : 2 ≤ 2 ^ n := by
      have := Nat.pow_le_pow_right (n := 2) (by omega) h0; omega
    have : ((2 ^ n - 1 : Nat) : Rat) ≠ 0 := by
      have : (2 ^ n - 1 : Nat) ≠ 0 := by omega
      exact_mod_cast this
    field_simp
  · have h2 : 2 ≤ 2 ^ n := by
      have := Nat.pow_le_pow_right (n := 2) (by omega) h0; omega
    have : ((2 ^ n - 1 : Nat) : Rat) ≠ 0 := by
      have : (2 ^ n - 1 : Nat) ≠ 0 := by omega
      exact_mod_cast this
    have e : ((2 ^ n - 1 : Nat) : Rat) * (hi / ((2 ^ n - 1 : Nat) : Rat)) = hi := by field_simp
    rw [e]
    constructor
    · intro h; linarith
    · intro h; linarith

example (p : Profile) : ∃ a b ai bi,
    View.fromModel p [] .float 8 (some (.floatRange 1 2)) = .ok (.float a b ai bi) ∧
      ((2 ^ 8 - 1 : Nat) : Rat) * a + b = 2 + 1 :=
  let ⟨a, b, ai, bi, h, _, h2, _⟩ := C16_range_extremes p [] (n := 8) (by decide) (by decide) 1 2
  ⟨a, b, ai, bi, h, h2⟩

/-- C16: the full claim is false for every non-zero minimum, for instance 1..2 on 8 bits. -/
theorem C16_full_false : ¬ C16_full := by
  intro h
  obtain ⟨a, b, ai, bi, hc, _, _, hiff⟩ := C16_range_extremes .checked [] (n := 8) (by omega)
    (by omega) 1 2
  have := (h .checked [] 8 1 2 a b ai bi (by omega) (by omega) (by norm_num) hc).2.1
  have := hiff.1 this
  norm_num at this

/-- C16 (multiplier views, and range views whose minimum is 0): in exact arithmetic, writing
`x` with `0 ≤ x < step * 2^n` and reading it back returns the multiple of the step just below `x`;
only the field's bits change. -/
theorem C16_scaled_view {p : Profile} {structs : List (Name × Structure)}
    {enums : List (Name × Enum)} {d : Model.Structure} {s : Structure} {i : Nat} {v : Model.SField}
    (h : Compiled p structs enums d s i v) {n : Nat} (hty : v.info = .float n) {step : Rat}
    (hstep : 0 < step)
    (hview : v.view = some (.floatMultiplier step) ∨
      (n ≤ 63 ∧ v.view = some (.floatRange 0 (step * ((2 ^ n - 1 : Nat) : Rat))))) :
    ∃ f, s.fields[i]? = some (.fixed f) ∧ ∀ buf : Bytes, s.byteSize ≤ buf.length →
      buf.length < 2 ^ 64 →
      f.getView p buf =
        .ok (.float ((bitsLE buf (declTotal structs (d.fields.take i)) n : Nat) * step)) ∧
      ∀ x : Rat, 0 ≤ x → x < step * ((2 ^ n : Nat) : Rat) →
        ∃ b q, f.setView p buf (.float x) = some (.ok b) ∧
          (∃ raw, BitsReplaced buf b (declTotal structs (d.fields.take i)) n raw) ∧
          f.getView p b = .ok (.float q) ∧ q ≤ x ∧ x < q + step := by
  obtain ⟨f, hf, hc⟩ := h.get (bits := n) (by rw [hty]; rfl)
  refine ⟨f, hf, ?_⟩
  have hv := hc.view
  rw [hty] at hv
  have hw1 := hc.w1
  have hvw : f.view = .float step 0 (1 / step) 0 := by
    rcases hview with hview | ⟨h63, hview⟩
    · rw [hview] at hv
      simp only [View.fromModel, Model.FieldTy.simple, ne_eq, not_true, if_false, Res.pure_eq] at hv
      exact (Res.ok.inj hv).symm
    · rw [hview] at hv
      simp only [Model.FieldTy.simple] at hv
      rw [C16_range_params p enums h63] at hv
      have h2 : 2 ≤ 2 ^ n := by
        have := Nat.pow_le_pow_right (n := 2) (by omega) hw1; omega
      have hne : ((2 ^ n - 1 : Nat) : Rat) ≠ 0 := by
        have : (2 ^ n - 1 : Nat) ≠ 0 := by omega
        exact_mod_cast this
      have e : step * ((2 ^ n - 1 : Nat) : Rat) / ((2 ^ n - 1 : Nat) : Rat) = step := by field_simp
      rw [e] at hv
      rw [← Res.ok.inj hv]
      simp
  have key : ∀ buf : Bytes, s.byteSize ≤ buf.length → buf.length < 2 ^ 64 →
      f.getView p buf =
        .ok (.float ((bitsLE buf (declTotal structs (d.fields.take i)) n : Nat) * step)) := by
    intro buf hbuf hlen
    simp only [FixedField.getView, hvw, FixedField.viewFloatGet, hc.get buf hbuf hlen, Res.bind_ok,
      Res.pure_eq, add_zero]
  intro buf hbuf hlen
  refine ⟨key buf hbuf hlen, ?_⟩
  intro x hx0 hx1
  obtain ⟨b, hb, hr⟩ := hc.set buf (satCast f.rawBits (x * (1 / step) + 0)) hbuf hlen
  have hbl := hr.1
  have hfit := hc.fits
  have hraw := hc.raw
  have e : x * (1 / step) + 0 = x / step := by ring
  have hq0 : 0 ≤ x / step := div_nonneg hx0 hstep.le
  have hfl0 : 0 ≤ ⌊x / step⌋ := Int.floor_nonneg.2 hq0
  have hq1 : x / step < ((2 ^ n : Nat) : Rat) := by
    rw [div_lt_iff₀ hstep]; linarith
  have hfl1 : ⌊x / step⌋ < ((2 ^ n : Nat) : Int) := by
    rw [Int.floor_lt]; exact_mod_cast hq1
  have hpw : (2 : Nat) ^ n ≤ 2 ^ f.rawBits := Nat.pow_le_pow_right (by omega) hraw
  have hsat : satCast f.rawBits (x * (1 / step) + 0) = ⌊x / step⌋.toNat := by
    unfold satCast
    rw [e]
    have : Rat.floor (x / step) = ⌊x / step⌋ := rfl
    rw [this]
    have hp := Nat.two_pow_pos n
    omega
  refine ⟨b, ((⌊x / step⌋.toNat : Nat) : Rat) * step, ?_, ⟨_, hr⟩, ?_, ?_, ?_⟩
  · simp only [FixedField.setView, hvw, FixedField.viewFloatSet, hb]
  · rw [key b (by omega) (by omega), hr.bitsLE_eq (by omega), hsat, Nat.mod_eq_of_lt (by omega)]
  · have h1 := Int.floor_le (x / step)
    have h2 : ((⌊x / step⌋.toNat : Nat) : Rat) = ((⌊x / step⌋ : Int) : Rat) := by
      exact_mod_cast Int.toNat_of_nonneg hfl0
    rw [h2]
    have h3 : x = x / step * step := by field_simp
    calc _ ≤ x / step * step := mul_le_mul_of_nonneg_right h1 hstep.le
      _ = x := h3.symm
  · have h1 := Int.lt_floor_add_one (x / step)
    have h2 : ((⌊x / step⌋.toNat : Nat) : Rat) = ((⌊x / step⌋ : Int) : Rat) := by
      exact_mod_cast Int.toNat_of_nonneg hfl0
    rw [h2]
    have h3 : x = x / step * step := by field_simp
    calc x = x / step * step := h3
      _ < ((⌊x / step⌋ : Rat) + 1) * step := mul_lt_mul_of_pos_right h1 hstep
      _ = _ := by ring

/-- Witness: a multiplier view, a range view and a plain float. -/
def Ex.floatModel : Model.Structure :=
  { name := ['S'], fields := [ { name := ['a'], info := .float 8, view := some (.floatMultiplier (1 / 2)) },
                               { name := ['b'], info := .float 8, view := some (.floatRange 1 2) },
                               { name := ['c'], info := .float 32 } ] }

theorem Ex.float_compiled : ∃ s, s.byteSize = 6 ∧ ∀ i v, Ex.floatModel.fields[i]? = some v →
    Compiled .checked [] [] Ex.floatModel s i v := by
  refine ⟨_, ?_, fun i v h => ⟨(by intro n t h; cases h), ⟨0, rfl⟩, .inl rfl, ?_, h, ?_⟩⟩
  · rfl
  · simp [Structure.WellPlaced, SField.listWellPlaced, SField.WellPlaced]; decide
  · rcases i with _ | _ | _ | i <;> simp [Ex.floatModel] at h <;> cases h <;> rfl

example : ∃ (s : Structure) (f : FixedField), s.fields[0]? = some (SField.fixed f) ∧
    f.getView .checked [5, 0, 0, 0, 0, 0] = .ok (.float (5 / 2)) := by
  obtain ⟨s, hs, hc⟩ := Ex.float_compiled
  obtain ⟨f, hf, h⟩ := C16_scaled_view (hc 0 _ rfl) rfl (step := 1 / 2) (by norm_num) (.inl rfl)
  refine ⟨s, f, hf, ?_⟩
  rw [(h [5, 0, 0, 0, 0, 0] (by rw [hs]; decide) (by decide)).1,
    show bitsLE [5, 0, 0, 0, 0, 0] _ 8 = 5 from rfl]
  norm_num

/-- C16: in a range view with minimum `lo` the setter stores `x / step - lo` instead of
`(x - lo) / step`: what it stores for the declared maximum is `2^n - 1 - lo` (rounded down), and the
value read back for the minimum is off by `lo * (step - 1)` before rounding. -/
theorem C16_range_setter (p : Profile) (enums : List (Name × Enum)) {n : Nat} (h1 : n ≤ 63)
    (lo hi x : Rat) :
    ∃ a b ai bi, View.fromModel p enums .float n (some (.floatRange lo hi)) = .ok (.float a b ai bi) ∧
      x * ai + bi = x / (hi / ((2 ^ n - 1 : Nat) : Rat)) - lo :=
  ⟨_, _, _, _, C16_range_params p enums h1 lo hi, by ring⟩

example (p : Profile) : ∃ a b ai bi,
    View.fromModel p [] .float 8 (some (.floatRange 1 2)) = .ok (.float a b ai bi) ∧
      (2 : Rat) * ai + bi = 254 := by
  obtain ⟨a, b, ai, bi, h, h2⟩ := C16_range_setter p [] (n := 8) (by decide) 1 2 2
  exact ⟨a, b, ai, bi, h, by rw [h2]; norm_num⟩

/-- C16: what a range view does, for every minimum and maximum: with `step = max / (2^n - 1)` the getter
yields `raw * step + min` and the setter stores `x / step - min` rounded down, at least 0 and at most the
largest value of the raw integer type, in the field's bits and nothing else. -/
theorem C16_range_view {p : Profile} {structs : List (Name × Structure)}
    {enums : List (Name × Enum)} {d : Model.Structure} {s : Structure} {i : Nat} {v : Model.SField}
    (h : Compiled p structs enums d s i v) {n : Nat} (hty : v.info = .float n) (h63 : n ≤ 63)
    {lo hi : Rat} (hview : v.view = some (.floatRange lo hi)) :
    ∃ f, s.fields[i]? = some (.fixed f) ∧ ∀ buf : Bytes, s.byteSize ≤ buf.length →
      buf.length < 2 ^ 64 →
      f.getView p buf = .ok (.float
        ((bitsLE buf (declTotal structs (d.fields.take i)) n : Nat) * (hi / ((2 ^ n - 1 : Nat) : Rat))
          + lo)) ∧
      ∀ x : Rat, ∃ b, f.setView p buf (.float x) = some (.ok b) ∧
        BitsReplaced buf b (declTotal structs (d.fields.take i)) n
          (min ⌊x / (hi / ((2 ^ n - 1 : Nat) : Rat)) - lo⌋.toNat (2 ^ f.rawBits - 1)) := by
  obtain ⟨f, hf, hc⟩ := h.get (bits := n) (by rw [hty]; rfl)
  refine ⟨f, hf, ?_⟩
  have hv := hc.view
  rw [hty, hview] at hv
  simp only [Model.FieldTy.simple] at hv
  rw [C16_range_params p enums h63] at hv
  have hvw := (Res.ok.inj hv).symm
  intro buf hbuf hlen
  constructor
  · simp only [FixedField.getView, hvw, FixedField.viewFloatGet, hc.get buf hbuf hlen, Res.bind_ok,
      Res.pure_eq]
  · intro x
    obtain ⟨b, hb, hr⟩ := hc.set buf
      (satCast f.rawBits (x * (1 / (hi / ((2 ^ n - 1 : Nat) : Rat))) + -lo)) hbuf hlen
    refine ⟨b, ?_, ?_⟩
    · simp only [FixedField.setView, hvw, FixedField.viewFloatSet, hb]
    · have e : x * (1 / (hi / ((2 ^ n - 1 : Nat) : Rat))) + -lo =
          x / (hi / ((2 ^ n - 1 : Nat) : Rat)) - lo := by ring
      rw [e] at hr
      exact hr

example : ∃ (s : Structure) (f : FixedField), s.fields[1]? = some (SField.fixed f) ∧
    f.getView .checked [0, 255, 0, 0, 0, 0] = .ok (.float 3) := by
  obtain ⟨s, hs, hc⟩ := Ex.float_compiled
  obtain ⟨f, hf, h⟩ := C16_range_view (hc 1 _ rfl) rfl (by decide) rfl
  refine ⟨s, f, hf, ?_⟩
  rw [(h [0, 255, 0, 0, 0, 0] (by rw [hs]; decide) (by decide)).1,
    show bitsLE [0, 255, 0, 0, 0, 0] _ 8 = 255 from rfl]
  norm_num

/-- C16: a range view has the declared extremes, and reading after writing is within one step for the
whole range, exactly when the minimum is 0. -/
theorem C16_range_iff (p : Profile) (enums : List (Name × Enum)) {n : Nat} (h0 : 1 ≤ n)
    (h1 : n ≤ 63) {lo hi : Rat} (hlt : lo < hi) :
    ∃ a b ai bi, View.fromModel p enums .float n (some (.floatRange lo hi)) = .ok (.float a b ai bi) ∧
      ((((0 : Nat) : Rat) * a + b = lo ∧ ((2 ^ n - 1 : Nat) : Rat) * a + b = hi ∧
        ∀ x, lo ≤ x → x ≤ hi → |((satCast n (x * ai + bi) : Nat) : Rat) * a + b - x| ≤
          (hi - lo) / ((2 ^ n - 1 : Nat) : Rat)) ↔ lo = 0) := by
  refine ⟨_, _, _, _, C16_range_params p enums h1 lo hi, ?_⟩
  have h2 : 2 ≤ 2 ^ n := by
    have := Nat.pow_le_pow_right (n := 2) (by omega) h0; omega
  have hpos : (0 : Rat) < ((2 ^ n - 1 : Nat) : Rat) := by
    have : 0 < (2 ^ n - 1 : Nat) := by omega
    exact_mod_cast this
  have e : ((2 ^ n - 1 : Nat) : Rat) * (hi / ((2 ^ n - 1 : Nat) : Rat)) = hi := by field_simp
  constructor
  · rintro ⟨_, h, _⟩
    rw [e] at h
    linarith
  · rintro rfl
    refine ⟨by simp, by rw [e, add_zero], ?_⟩
    intro x hx0 hx1
    set step := hi / ((2 ^ n - 1 : Nat) : Rat) with hs
    have hstep : 0 < step := div_pos hlt hpos
    have e2 : x * (1 / step) + -0 = x / step := by ring
    have hq0 : 0 ≤ x / step := div_nonneg hx0 hstep.le
    have hfl0 : 0 ≤ ⌊x / step⌋ := Int.floor_nonneg.2 hq0
    have hq1 : x / step ≤ ((2 ^ n - 1 : Nat) : Rat) := by
      rw [div_le_iff₀ hstep, e]; exact hx1
    have hfl1 : ⌊x / step⌋ ≤ ((2 ^ n - 1 : Nat) : Int) := by
      have := Int.floor_le (x / step)
      exact_mod_cast le_trans this hq1
    have hsat : satCast n (x * (1 / step) + -0) = ⌊x / step⌋.toNat := by
      unfold satCast
      rw [e2]
      have : Rat.floor (x / step) = ⌊x / step⌋ := rfl
      rw [this]
      omega
    rw [hsat, sub_zero, add_zero]
    have h3 : ((⌊x / step⌋.toNat : Nat) : Rat) = ((⌊x / step⌋ : Int) : Rat) := by
      exact_mod_cast Int.toNat_of_nonneg hfl0
    rw [h3, abs_le]
    have h4 := Int.floor_le (x / step)
    have h5 := Int.lt_floor_add_one (x / step)
    have h6 : x = x / step * step := by field_simp
    have h7 : (⌊x / step⌋ : Rat) * step ≤ x / step * step := mul_le_mul_of_nonneg_right h4 hstep.le
    have h8 : x / step * step < ((⌊x / step⌋ : Rat) + 1) * step := mul_lt_mul_of_pos_right h5 hstep
    constructor
    · linarith
    · linarith

example (p : Profile) : ∃ a b ai bi,
    View.fromModel p [] .float 8 (some (.floatRange 0 2)) = .ok (.float a b ai bi) ∧
      ∀ x, 0 ≤ x → x ≤ 2 → |((satCast 8 (x * ai + bi) : Nat) : Rat) * a + b - x| ≤
        (2 - 0) / ((2 ^ 8 - 1 : Nat) : Rat) :=
  let ⟨a, b, ai, bi, h, h2⟩ := C16_range_iff p [] (n := 8) (by decide) (by decide) (lo := 0) (hi := 2)
    (by norm_num)
  ⟨a, b, ai, bi, h, (h2.2 rfl).2.2⟩

/-- C16: 32- and 64-bit floats without a view, and unsigned integers without a view, are passed
through bit for bit. -/
theorem C16_plain_view {p : Profile} {structs : List (Name × Structure)}
    {enums : List (Name × Enum)} {d : Model.Structure} {s : Structure} {i : Nat} {v : Model.SField}
    (h : Compiled p structs enums d s i v) {n : Nat} {mk : Nat → ViewVal}
    (hty : (v.info = .float n ∧ (n = 32 ∨ n = 64) ∧ mk = .floatBits) ∨
           (v.info = .unsigned n ∧ mk = .uint))
    (hview : v.view = none) :
    ∃ f, s.fields[i]? = some (.fixed f) ∧ ∀ buf : Bytes, s.byteSize ≤ buf.length →
      buf.length < 2 ^ 64 →
      f.getView p buf = .ok (mk (bitsLE buf (declTotal structs (d.fields.take i)) n)) ∧
      ∀ x, ∃ b, f.setView p buf (mk x) = some (.ok b) ∧
        BitsReplaced buf b (declTotal structs (d.fields.take i)) n x ∧
        (x < 2 ^ n → f.getView p b = .ok (mk x)) := by
  obtain ⟨f, hf, hc⟩ := h.get (bits := n) (by rcases hty with h | h <;> rw [h.1] <;> rfl)
  refine ⟨f, hf, ?_⟩
  have hv := hc.view
  have htyp := C08_element_type v.info f.ty hc.ty
  rw [hview] at hv
  have hfit := hc.fits
  have key : (∀ buf : Bytes, s.byteSize ≤ buf.length → buf.length < 2 ^ 64 →
      f.getView p buf = .ok (mk (bitsLE buf (declTotal structs (d.fields.take i)) n))) ∧
      ∀ (buf : Bytes) (x : Nat), f.setView p buf (mk x) = some (f.setRaw p buf x) := by
    rcases hty with ⟨hty, hn, rfl⟩ | ⟨hty, rfl⟩
    · rw [hty] at hv htyp
      unfold ElementType at htyp
      simp only at htyp
      have hvw : f.view = .transmute := by
        simp only [View.fromModel, Model.FieldTy.simple, reduceCtorEq, false_and, if_false] at hv
        rw [if_neg (by omega)] at hv
        exact (Res.ok.inj hv).symm
      have hf : f.ty = .f32 ∨ f.ty = .f64 := by
        rcases hn with hn | hn
        · exact .inl (htyp.2.2.1.2 (.inr hn))
        · exact .inr (htyp.2.2.2.2 (by omega))
      have hnb : f.ty ≠ .bool := by rcases hf with h | h <;> rw [h] <;> decide
      constructor
      · intro buf hbuf hlen
        simp only [FixedField.getView, hvw, if_neg hnb, if_pos hf, hc.get buf hbuf hlen, Res.bind_ok,
          Res.pure_eq]
      · intro buf x
        simp only [FixedField.setView, hvw, if_pos hf]
    · rw [hty] at hv
      have hvw : f.view = .none := by
        simp only [View.fromModel, Model.FieldTy.simple, reduceCtorEq, false_and, if_false,
          if_true] at hv
        exact (Res.ok.inj hv).symm
      constructor
      · intro buf hbuf hlen
        simp only [FixedField.getView, hvw, hc.get buf hbuf hlen, Res.bind_ok, Res.pure_eq]
      · intro buf x
        simp only [FixedField.setView, hvw]
  intro buf hbuf hlen
  refine ⟨key.1 buf hbuf hlen, ?_⟩
  intro x
  obtain ⟨b, hb, hr⟩ := hc.set buf x hbuf hlen
  have hbl := hr.1
  refine ⟨b, by rw [key.2, hb], hr, ?_⟩
  intro hx
  rw [key.1 b (by omega) (by omega), hr.bitsLE_eq (by omega), Nat.mod_eq_of_lt hx]

example : ∃ (s : Structure) (f : FixedField), s.fields[2]? = some (SField.fixed f) ∧
    f.getView .checked [0, 0, 0, 0, 128, 63] = .ok (.floatBits 0x3F800000) := by
  obtain ⟨s, hs, hc⟩ := Ex.float_compiled
  obtain ⟨f, hf, h⟩ := C16_plain_view (hc 2 _ rfl) (.inl ⟨rfl, .inl rfl, rfl⟩) rfl
  exact ⟨s, f, hf, (h [0, 0, 0, 0, 128, 63] (by rw [hs]; decide) (by decide)).1⟩

end Proto.Props
