import Verif.Spec.Values
import Verif.Gen.EffLemmas
import Verif.Compiler.StructureLemmas

/-! # Lemmas about the view accessors -/

namespace Proto

open Spec

theorem toSigned_eq {n raw : Nat} (hn : 1 ≤ n) : toSigned n raw = twosComplement n raw := by
  unfold toSigned twosComplement
  obtain ⟨m, rfl⟩ : ∃ m, n = m + 1 := ⟨n - 1, by omega⟩
  simp only [Nat.add_sub_cancel]
  have e : (2 : Nat) ^ (m + 1) = 2 ^ m * 2 := Nat.pow_succ ..
  by_cases h : raw < 2 ^ m
  · rw [if_pos h, if_pos (by omega)]
  · rw [if_neg h, if_neg (by omega)]

theorem ofSigned_eq (n : Nat) (v : Int) : ofSigned n v = pattern n v := rfl

theorem and_pow_sub_one (x n : Nat) : x &&& (2 ^ n - 1) = x % 2 ^ n := by
  apply Nat.eq_of_testBit_eq
  intro i
  rw [Nat.testBit_and, Nat.testBit_two_pow_sub_one, Nat.testBit_mod_two_pow, Bool.and_comm]

theorem notU_mod {R m x : Nat} (hm : m ≤ R) : notU R x % 2 ^ m = 2 ^ m - 1 - x % 2 ^ m := by
  have : notU m x = 2 ^ m - 1 - x % 2 ^ m := rfl
  rw [← this]
  apply Nat.eq_of_testBit_eq
  intro i
  rw [Nat.testBit_mod_two_pow]
  by_cases hi : i < m
  · rw [testBit_notU hi, testBit_notU (by omega)]; simp [hi]
  · have : (notU m x).testBit i = false :=
      Nat.testBit_lt_two_pow (Nat.lt_of_lt_of_le notU_lt (Nat.pow_le_pow_right (by omega) (by omega)))
    simp [hi, this]

/-- The signed cast computes the two's complement value, without overflow. -/
theorem signedCast_eq (p : Profile) {n W raw : Nat} (hn : 1 ≤ n) (hW : n < W) (hraw : raw < 2 ^ n) :
    (if raw > 2 ^ (n - 1) - 1 then do
        let x ← addU p W (notU W raw &&& (2 ^ (n - 1) - 1)) 1
        negS p W (toSigned W x)
      else pure (toSigned W (raw &&& (2 ^ (n - 1) - 1))) : R Int) = .ok (twosComplement n raw) := by
  obtain ⟨m, rfl⟩ : ∃ m, n = m + 1 := ⟨n - 1, by omega⟩
  simp only [Nat.add_sub_cancel]
  have hm := Nat.two_pow_pos m
  rw [Nat.pow_succ] at hraw
  have hmR1 : (2 : Nat) ^ (m + 1) ≤ 2 ^ (W - 1) := Nat.pow_le_pow_right (by omega) (by omega)
  have hmR2 : (2 : Nat) ^ (W - 1) ≤ 2 ^ W := Nat.pow_le_pow_right (by omega) (by omega)
  rw [Nat.pow_succ] at hmR1
  unfold twosComplement
  rw [and_pow_sub_one, and_pow_sub_one, notU_mod (by omega)]
  by_cases h : raw > 2 ^ m - 1
  · rw [if_pos h]
    have e : raw % 2 ^ m = raw - 2 ^ m := by
      rw [Nat.mod_eq_sub_mod (by omega), Nat.mod_eq_of_lt (by omega)]
    rw [e, addU_ok p (by omega)]
    simp only [Res.bind_ok]
    obtain ⟨x, hx⟩ : ∃ x, x = 2 ^ m - 1 - (raw - 2 ^ m) + 1 := ⟨_, rfl⟩
    rw [← hx]
    have e1 : toSigned W x = (x : Int) := by unfold toSigned; rw [if_pos (by omega)]
    have e2 : negS p W (x : Int) = .ok (-(x : Int)) := by unfold negS; rw [if_neg (by omega)]
    rw [e1, e2, if_neg (by rw [Nat.pow_succ]; omega), Nat.pow_succ]
    congr 1
    omega
  · rw [if_neg h, if_pos (by rw [Nat.pow_succ]; omega)]
    have e : raw % 2 ^ m = raw := Nat.mod_eq_of_lt (by omega)
    unfold toSigned
    rw [e, if_pos (by omega)]
    rfl

/-- Facts about a scalar field compiled from declaration `v`. -/
structure CompiledScalar (p : Profile) (enums : List (Name × Enum)) (s : Structure)
    (v : Model.SField) (bits pos : Nat) (f : FixedField) : Prop where
  width : f.loc.bitSize = bits
  at_pos : f.loc.abs = pos
  name : f.name = v.name
  ty : FixedTy.fromModel v.info = .ok f.ty
  view : View.fromModel p enums v.info.simple bits v.view = .ok f.view
  w1 : 1 ≤ bits
  w64 : bits ≤ 64
  raw : bits ≤ f.rawBits
  rawMin : f.rawBits = 8 ∨ f.rawBits = 16 ∨ f.rawBits = 32 ∨ f.rawBits = 64
  rawLt : bits ≠ 8 → bits ≠ 16 → bits ≠ 32 → bits ≠ 64 → bits < f.rawBits
  rawEq : bits = 8 ∨ bits = 16 ∨ bits = 32 ∨ bits = 64 → f.rawBits = bits
  fits : pos + bits ≤ 8 * s.byteSize
  get : ∀ buf : Bytes, s.byteSize ≤ buf.length → buf.length < 2 ^ 64 →
    f.getRaw p buf = .ok (bitsLE buf pos bits)
  set : ∀ (buf : Bytes) (x : Nat), s.byteSize ≤ buf.length → buf.length < 2 ^ 64 →
    ∃ b, f.setRaw p buf x = .ok b ∧ BitsReplaced buf b pos bits x

/-- A declared scalar field compiles to a fixed field whose raw accessors address its bits, when the
structure is well placed. -/
theorem compiled_scalar {p : Profile} {structs : List (Name × Structure)} {enums : List (Name × Enum)}
    {e : Endian} (hs : ∀ n s, structs.lookup n = some s → s.WF)
    {id : Nat} {d : Model.Structure} {s : Structure}
    (h : Structure.fromModel p structs enums e id d = .ok s)
    (hp : p = .checked ∨ declTotal structs d.fields < 2 ^ 64) (hwp : s.WellPlaced)
    {i : Nat} {v : Model.SField} (hv : d.fields[i]? = some v) {bits : Nat}
    (hbits : v.info.bitSize? = some bits) (harr : v.arrayLen = none) :
    ∃ f, s.fields[i]? = some (.fixed f) ∧
      CompiledScalar p enums s v bits (declTotal structs (d.fields.take i)) f := by
  have hwf := Structure.fromModel_WF hs h hp
  have h' := h
  unfold Structure.fromModel at h'
  obtain ⟨⟨fs, last⟩, h1, h2⟩ := Res.bind_eq_ok.1 h'
  have hfs : s.fields = fs := by cases h2; rfl
  obtain ⟨a1, a2, a3⟩ := SField.fromModels_spec h1 (hp.imp_right (fun h => by omega))
  obtain ⟨hi, hvi⟩ := List.getElem?_eq_some_iff.1 hv
  obtain ⟨b1, b2, b3, b4, _⟩ := a3 i (by omega) hi
  rw [hvi] at b1 b2 b3 b4
  have hw : declWidth structs v = bits := by
    cases hinfo : v.info <;> rw [hinfo] at hbits <;>
      simp only [Model.FieldTy.bitSize?, Option.some.injEq, reduceCtorEq] at hbits <;>
      simp [declWidth, hinfo, harr, hbits]
  have hsi : s.fields[i]? = some fs[i] := by rw [hfs]; exact List.getElem?_eq_getElem _
  have hmem : fs[i] ∈ s.fields := List.mem_of_getElem? hsi
  generalize hfi : fs[i] = fi at *
  cases fi with
  | struct n r l =>
    obtain ⟨_, t, ht, _⟩ := b1
    rw [ht] at hbits; cases hbits
  | array a =>
    obtain ⟨_, ha, _⟩ := b1
    rw [harr] at ha; cases ha
  | fixed f =>
    refine ⟨f, hsi, ?_⟩
    obtain ⟨c1, c2, c3, c4, bits', c5, c6⟩ := b1
    rw [hbits] at c5
    cases c5
    simp only [SField.loc, Nat.zero_add, hw] at b4
    have hpl := hwp.mem _ hmem
    have hWF := (SField.listWF_mem hwf.list _ hmem).1
    have hval := f.valid_of hWF hpl
    simp only [SField.WellPlaced] at hpl
    have hbs : f.loc.bitSize = bits := by rw [b4]
    obtain ⟨e1, e2⟩ := Loc.eff_of_fits hpl.2.2.2 hval.byteSize
    have hst := hwf.stop_le hmem
    simp only [SField.loc] at hst
    have habs : f.loc.abs = declTotal structs (d.fields.take i) := by rw [b4, Loc.abs_mk]
    have hrs := Loc.rawSize_eq hpl.1 hpl.2.1
    have hraw := Loc.rawSize_le hpl.1 hpl.2.1
    have hin := (SField.listWF_mem hwf.list _ hmem).2.2
    have hby := hwf.byteSize
    simp only [SField.loc, SField.width] at hin
    refine ⟨hbs, habs, c1, c3, c6, by omega, by omega, ?_, ?_, ?_, ?_, ?_, ?_, ?_⟩
    · unfold FixedField.rawBits; omega
    · unfold FixedField.rawBits; rw [hrs]
      split
      · omega
      · split
        · omega
        · split <;> omega
    · intro n1 n2 n3 n4
      unfold FixedField.rawBits; rw [hrs, hbs]
      split
      · omega
      · split
        · omega
        · split <;> omega
    · intro hn
      unfold FixedField.rawBits; rw [hrs, hbs]
      split
      · omega
      · split
        · omega
        · split <;> omega
    · rw [← habs, ← hbs, hby]; unfold ceil8; omega
    · intro buf hbuf _
      have := FixedField.getRaw_eq p hval (buf := buf) (by omega)
      rwa [e1, e2, habs, hbs] at this
    · intro buf x hbuf _
      have := FixedField.setRaw_eq p hval (buf := buf) x (by omega)
      rwa [e1, e2, habs, hbs] at this

end Proto
