import Verif.Float.Structure
import Verif.Props.AccessorViews
import Verif.Props.Float

/-!
# C69, float views as Rust computes them

The accessors of a structure whose constants the compiler computed in `f64`, run with the arithmetic of
`f32` and `f64`.
-/

namespace Proto.Rs.Acc

open Text Props Spec

theorem roundedFields_spec {ms : List Model.SField} {fs gs : List SField}
    (h : Ieee.roundedFields ms fs = some gs) : gs.length = fs.length ∧ ∀ i,
      (∀ f m, fs[i]? = some f → ms[i]? = some m → ∃ g, gs[i]? = some g ∧ Ieee.roundedField m f = some g) ∧
      (ms.length ≤ i → gs[i]? = fs[i]?) := by
  induction ms generalizing fs gs with
  | nil =>
    cases h
    exact ⟨rfl, fun i => ⟨fun _ _ _ hm => by simp at hm, fun _ => rfl⟩⟩
  | cons m ms ih =>
    cases fs with
    | nil =>
      cases h
      exact ⟨rfl, fun i => ⟨fun _ _ hf => by simp at hf, fun _ => rfl⟩⟩
    | cons f fs =>
      simp only [Ieee.roundedFields, Option.bind_eq_bind, Option.bind_eq_some_iff, Option.some.injEq] at h
      obtain ⟨g, hg, gs', hgs, rfl⟩ := h
      obtain ⟨hl, ih⟩ := ih hgs
      refine ⟨by simp [hl], fun i => ?_⟩
      cases i with
      | zero =>
        refine ⟨fun f' m' hf hm => ?_, fun hle => by simp at hle⟩
        cases hf; cases hm
        exact ⟨g, rfl, hg⟩
      | succ i =>
        refine ⟨fun f' m' hf hm => (ih i).1 f' m' hf hm, fun hle => (ih i).2 ?_⟩
        simpa using hle

/-- C69: computing the parameters in `f64` changes nothing but the parameters of the float views. -/
theorem C69_rounded {d : Model.Structure} {s t : Structure} (h : Ieee.rounded d s = some t) :
    t.name = s.name ∧ t.byteSize = s.byteSize ∧ t.bitSize = s.bitSize ∧ t.fields.length = s.fields.length ∧
    ∀ (i : Nat) (f : SField) (v : Model.SField), s.fields[i]? = some f → d.fields[i]? = some v →
      ((∀ n w (x : FixedField), v.info = .float n → v.view = some w → f ≠ .fixed x) → t.fields[i]? = some f) ∧
      ∀ n w (x : FixedField), v.info = .float n → v.view = some w → f = .fixed x →
        ∃ a b ai bi, Ieee.params n w = some (a, b, ai, bi) ∧
          t.fields[i]? = some (SField.fixed { x with view := .float a b ai bi }) := by
  simp only [Ieee.rounded, Option.bind_eq_bind, Option.bind_eq_some_iff, Option.some.injEq] at h
  obtain ⟨gs, hgs, rfl⟩ := h
  obtain ⟨hl, hall⟩ := roundedFields_spec hgs
  refine ⟨rfl, rfl, rfl, hl, fun i f v hf hv => ?_⟩
  obtain ⟨g, hg, hr⟩ := (hall i).1 f v hf hv
  change (_ → gs[i]? = some f) ∧ _
  constructor
  · intro hne
    rw [hg]
    unfold Ieee.roundedField at hr
    cases f with
    | fixed x =>
      simp only at hr
      cases hvi : v.info with
      | float n =>
        cases hvw : v.view with
        | none => rw [hvi, hvw] at hr; exact hr.symm
        | some w => exact absurd rfl (hne n w x hvi hvw)
      | _ => rw [hvi] at hr; exact hr.symm
    | array x => exact hr.symm
    | struct n r l => exact hr.symm
  · intro n w x hvi hvw hfx
    subst hfx
    change ∃ a b ai bi, _ ∧ gs[i]? = _
    simp only [Ieee.roundedField, hvi, hvw, Option.bind_eq_bind, Option.bind_eq_some_iff, Option.some.injEq] at hr
    obtain ⟨⟨a, b, ai, bi⟩, hp, rfl⟩ := hr
    exact ⟨a, b, ai, bi, hp, hg⟩

/-- Bytes of the type of a float view of `n` bits. -/
def floatBytes (n : Nat) : Nat := if n ≤ 16 ∨ n = 32 then 4 else 8

/-- The programs of a float view and the functions of `Verif/Float`. -/
theorem ieee_calls {p : Profile} {structs : List (Name × Structure)} {enums : List (Name × Enum)}
    {d : Model.Structure} {s t : Structure} {i : Nat} {v : Model.SField}
    (h : Compiled p structs enums d s i v) {n : Nat} (hty : v.info = .float n) {w : Model.FieldView}
    (hview : v.view = some w) (ht : Ieee.rounded d s = some t)
    (hn : NamesApart t) (lib : Lib) (paths : List (Name × Name)) {g : Globals} (hg : g.p = p)
    (hs : g.structure_ = t) (he : EnumPaths g paths t) {decimal : Rat → Rat} (hx : g.num = .ieee decimal) :
    ∃ f fmt k m a b ai bi, s.fields[i]? = some (.fixed f) ∧ Ieee.fmtOf f.ty = some fmt ∧
      Implements fmt (floatType n) ∧ n ≤ f.rawBits ∧ Holds f.loc.rawSize n ∧
      Ieee.params n w = some (a, b, ai, bi) ∧ Generated lib paths t i v.name k m ∧
      (∀ buf, k.call g buf none = (lift (Ieee.getView p f (decimal a) (decimal b) fmt buf) >>= fun x =>
        .ok (buf, some (.real (floatBytes n) x)))) ∧
      ∀ buf x, m.call g buf (some (.real (floatBytes n) x)) =
        (lift (Ieee.setView p f (decimal ai) (decimal bi) fmt buf x) >>= fun b => .ok (b, none)) := by
  obtain ⟨f, fmt, hf, hfmt, himp, hraw, -⟩ := C85_view h hty
  obtain ⟨f', hf', hc⟩ := h.get (bits := n) (by rw [hty]; rfl)
  rw [hf] at hf'
  cases hf'
  obtain ⟨-, -, -, -, hall⟩ := C69_rounded ht
  obtain ⟨a, b, ai, bi, hp, hft⟩ := (hall i _ v hf h.declared).2 n w f hty hview rfl
  have hmem := List.mem_of_getElem? hft
  have hsc : Scalar f := ⟨by rw [hc.width]; exact hc.w1, by rw [hc.width]; exact hc.w64⟩
  have hsz : f.ty.byteSize = floatBytes n := by
    have het := C08_element_type _ _ hc.ty
    rw [hty] at het
    obtain ⟨_, _, h32, h64⟩ := het
    unfold floatBytes
    by_cases h' : n ≤ 16 ∨ n = 32
    · rw [if_pos h', h32.2 h']; rfl
    · rw [if_neg h', h64.2 (by omega)]; rfl
  subst hs hg
  have hl := linked hn he hmem
  have hh := rawSize_holds hsc
  rw [hc.width] at hh
  refine ⟨f, fmt, _, _, a, b, ai, bi, hf, hfmt, himp, hraw, hh, hp, generated lib paths hft hc.name,
    fun buf => ?_, fun buf x => ?_⟩
  · rw [ieeeGet_run hl hx rfl hfmt, ← hsz]; rfl
  · rw [← hsz]
    exact ieeeSet_run (f := { f with view := .float a b ai bi }) hsc hl hx rfl hfmt buf x

/-- C69, float views as Rust computes them: on every buffer of the structure's size the getter returns, all
operations rounded to the field's type, the field's bits times one constant plus another; the setter stores
its argument times one constant plus another, cut off below the decimal point and brought into the range of
the raw integer type, and changes nothing else.  The constants are the texts of the parameters computed in
`f64`, read in the field's type. -/
theorem C69_ieee {p : Profile} {structs : List (Name × Structure)} {enums : List (Name × Enum)}
    {d : Model.Structure} {s t : Structure} {i : Nat} {v : Model.SField}
    (h : Compiled p structs enums d s i v) {n : Nat} (hty : v.info = .float n) {w : Model.FieldView}
    (hview : v.view = some w) (ht : Ieee.rounded d s = some t)
    (hn : NamesApart t) (lib : Lib) (paths : List (Name × Name)) {g : Globals} (hg : g.p = p)
    (hs : g.structure_ = t) (he : EnumPaths g paths t) {decimal : Rat → Rat} (hx : g.num = .ieee decimal) :
    ∃ k m r a b ai bi, ∃ fmt : Ieee.Fmt, Generated lib paths t i v.name k m ∧ Holds r n ∧
      Implements fmt (floatType n) ∧ Ieee.params n w = some (a, b, ai, bi) ∧
      ∀ buf : Bytes, s.byteSize ≤ buf.length → buf.length < 2 ^ 64 →
        k.call g buf none = .ok (buf, some (.real (floatBytes n)
          (fmt.add (fmt.mul (fmt.round ((bitsLE buf (declTotal structs (d.fields.take i)) n : Nat) : Rat))
            (fmt.round (decimal a))) (fmt.round (decimal b))))) ∧
        ∀ x, ∃ out raw, m.call g buf (some (.real (floatBytes n) x)) = .ok (out, none) ∧
          BitsReplaced buf out (declTotal structs (d.fields.take i)) n raw ∧
          match fmt.add (fmt.mul x (fmt.round (decimal ai))) (fmt.round (decimal bi)) with
          | .fin q => raw = min ⌊q⌋.toNat (2 ^ (8 * r) - 1)
          | .inf negative => raw = if negative then 0 else 2 ^ (8 * r) - 1
          | .nan => raw = 0 := by
  obtain ⟨f, fmt, k, m, a, b, ai, bi, hf, hfmt, himp, hraw, hh, hp, hgen, hget, hset⟩ :=
    ieee_calls h hty hview ht hn lib paths hg hs he hx
  obtain ⟨f', fmt', hf', hfmt', -, -, hacc⟩ := C85_view h hty
  rw [hf] at hf'; cases hf'
  rw [hfmt] at hfmt'; cases hfmt'
  refine ⟨k, m, _, a, b, ai, bi, fmt, hgen, hh, himp, hp, fun buf h1 h2 => ⟨?_, fun x => ?_⟩⟩
  · rw [hget, (hacc buf h1 h2).1]; rfl
  · obtain ⟨out, ho, hr⟩ := (hacc buf h1 h2).2 (decimal ai) (decimal bi) x
    refine ⟨out, _, by rw [hset, ho]; rfl, hr, ?_⟩
    unfold Ieee.viewSet FixedField.rawBits
    cases fmt.add (fmt.mul x (fmt.round (decimal ai))) (fmt.round (decimal bi)) with
    | fin q =>
      simp only [Ieee.Fl.toUInt, satCast]
      have : Rat.floor q = ⌊q⌋ := rfl
      rw [this]
    | inf n => cases n <;> rfl
    | nan => rfl

/-- C69: reading a float view without offset and writing the number back, with the generated programs,
keeps the field or lowers it by one and changes nothing else. -/
theorem C69_ieee_reread {p : Profile} {structs : List (Name × Structure)} {enums : List (Name × Enum)}
    {d : Model.Structure} {s t : Structure} {i : Nat} {v : Model.SField}
    (h : Compiled p structs enums d s i v) {n : Nat} (hty : v.info = .float n) {w : Model.FieldView}
    (hview : v.view = some w) (ht : Ieee.rounded d s = some t) (h50 : n ≤ 50) (h32 : n ≠ 32)
    {a ai bi : Rat} (hp : Ieee.params n w = some (a, 0, ai, bi)) (h1 : 2 ^ (-100 : Int) ≤ a)
    (h2 : a ≤ 2 ^ (60 : Int)) (hn : NamesApart t) (lib : Lib) (paths : List (Name × Name)) {g : Globals}
    (hg : g.p = p) (hs : g.structure_ = t) (he : EnumPaths g paths t) {decimal : Rat → Rat}
    (hx : g.num = .ieee decimal) (hd : ∀ c ∈ [a, 0, ai, bi], Ieee.Prints c (decimal c)) :
    ∃ k m, Generated lib paths t i v.name k m ∧
      ∀ buf : Bytes, s.byteSize ≤ buf.length → buf.length < 2 ^ 64 →
        ∃ x out raw, k.call g buf none = .ok (buf, some x) ∧ m.call g buf (some x) = .ok (out, none) ∧
          BitsReplaced buf out (declTotal structs (d.fields.take i)) n raw ∧
          (raw = bitsLE buf (declTotal structs (d.fields.take i)) n ∨
            raw + 1 = bitsLE buf (declTotal structs (d.fields.take i)) n) := by
  obtain ⟨f, fmt, k, m, a', b', ai', bi', hf, hfmt, himp, hraw, hh, hp', hgen, hget, hset⟩ :=
    ieee_calls h hty hview ht hn lib paths hg hs he hx
  rw [hp] at hp'; cases hp'
  obtain ⟨f', fmt', hf', hfmt', hall⟩ := C85_reread h hty hview h50 h32 hp h1 h2 (hd a (by simp))
    (hd 0 (by simp)) (hd ai (by simp)) (hd bi (by simp))
  rw [hf] at hf'; cases hf'
  rw [hfmt] at hfmt'; cases hfmt'
  refine ⟨k, m, hgen, fun buf b1 b2 => ?_⟩
  obtain ⟨x, out, raw, e1, e2, e3, e4⟩ := hall buf b1 b2
  exact ⟨_, out, raw, by rw [hget, e1]; rfl, by rw [hset, e2]; rfl, e3, e4⟩

/-- C69: writing a number of the range of a float view without offset and reading it back, with the
generated programs, gives a number at most one step (and the roundings) below and at most the roundings
above. -/
theorem C69_ieee_write_read {p : Profile} {structs : List (Name × Structure)} {enums : List (Name × Enum)}
    {d : Model.Structure} {s t : Structure} {i : Nat} {v : Model.SField}
    (h : Compiled p structs enums d s i v) {n : Nat} (hty : v.info = .float n) {w : Model.FieldView}
    (hview : v.view = some w) (ht : Ieee.rounded d s = some t) (h50 : n ≤ 50) (h32 : n ≠ 32)
    {a ai bi : Rat} (hp : Ieee.params n w = some (a, 0, ai, bi)) (h1 : 2 ^ (-100 : Int) ≤ a)
    (h2 : a ≤ 2 ^ (60 : Int)) (hn : NamesApart t) (lib : Lib) (paths : List (Name × Name)) {g : Globals}
    (hg : g.p = p) (hs : g.structure_ = t) (he : EnumPaths g paths t) {decimal : Rat → Rat}
    (hx : g.num = .ieee decimal) (hd : ∀ c ∈ [a, 0, ai, bi], Ieee.Prints c (decimal c)) :
    ∃ k m, Generated lib paths t i v.name k m ∧
      ∀ buf : Bytes, s.byteSize ≤ buf.length → buf.length < 2 ^ 64 →
        ∀ x : Rat, 0 ≤ x → x ≤ a * (2 ^ n - 1 : Nat) →
        ∃ out raw y, m.call g buf (some (.real (floatBytes n) (.fin x))) = .ok (out, none) ∧
          BitsReplaced buf out (declTotal structs (d.fields.take i)) n raw ∧
          k.call g out none = .ok (out, some (.real (floatBytes n) (.fin y))) ∧
          y ≤ x + 8 * (floatType n).eps * x ∧
          x - (a + (floatType n).eps * a + 8 * (floatType n).eps * x) ≤ y := by
  obtain ⟨f, fmt, k, m, a', b', ai', bi', hf, hfmt, himp, hraw, hh, hp', hgen, hget, hset⟩ :=
    ieee_calls h hty hview ht hn lib paths hg hs he hx
  rw [hp] at hp'; cases hp'
  obtain ⟨f', fmt', hf', hfmt', hall⟩ := C85_write_read h hty hview h50 h32 hp h1 h2 (hd a (by simp))
    (hd 0 (by simp)) (hd ai (by simp)) (hd bi (by simp))
  rw [hf] at hf'; cases hf'
  rw [hfmt] at hfmt'; cases hfmt'
  refine ⟨k, m, hgen, fun buf b1 b2 x x0 x1 => ?_⟩
  obtain ⟨out, raw, y, e1, e2, -, e3, e4, e5⟩ := hall buf b1 b2 x x0 x1
  exact ⟨out, raw, y, by rw [hset, e1]; rfl, e2, by rw [hget, e3]; rfl, e4, e5⟩

/-- C69: what the generated getter of a float view with any offset returns is step times raw value plus
offset, up to the roundings. -/
theorem C69_ieee_read {p : Profile} {structs : List (Name × Structure)} {enums : List (Name × Enum)}
    {d : Model.Structure} {s t : Structure} {i : Nat} {v : Model.SField}
    (h : Compiled p structs enums d s i v) {n : Nat} (hty : v.info = .float n) {w : Model.FieldView}
    (hview : v.view = some w) (ht : Ieee.rounded d s = some t) (h50 : n ≤ 50) (h32 : n ≠ 32)
    {a b ai bi : Rat} (hp : Ieee.params n w = some (a, b, ai, bi)) (h1 : 2 ^ (-100 : Int) ≤ a)
    (h2 : a ≤ 2 ^ (60 : Int)) (hb : |b| ≤ 2 ^ (60 : Int)) (hn : NamesApart t) (lib : Lib)
    (paths : List (Name × Name)) {g : Globals}
    (hg : g.p = p) (hs : g.structure_ = t) (he : EnumPaths g paths t) {decimal : Rat → Rat}
    (hx : g.num = .ieee decimal) (hd : ∀ c ∈ [a, b, ai], Ieee.Prints c (decimal c)) :
    ∃ k m, Generated lib paths t i v.name k m ∧
      ∀ buf : Bytes, s.byteSize ≤ buf.length → buf.length < 2 ^ 64 →
        ∃ y, k.call g buf none = .ok (buf, some (.real (floatBytes n) (.fin y))) ∧
          |y - (bitsLE buf (declTotal structs (d.fields.take i)) n * a + b)| ≤
            10 * (floatType n).eps * (bitsLE buf (declTotal structs (d.fields.take i)) n * a + |b|) +
              2 ^ (-140 : Int) := by
  obtain ⟨f, fmt, k, m, a', b', ai', bi', hf, hfmt, himp, hraw, hh, hp', hgen, hget, hset⟩ :=
    ieee_calls h hty hview ht hn lib paths hg hs he hx
  rw [hp] at hp'; cases hp'
  obtain ⟨f', fmt', hf', hfmt', hall⟩ := C85_read h hty hview h50 h32 hp h1 h2 hb (hd a (by simp))
    (hd b (by simp)) (hd ai (by simp))
  rw [hf] at hf'; cases hf'
  rw [hfmt] at hfmt'; cases hfmt'
  refine ⟨k, m, hgen, fun buf b1 b2 => ?_⟩
  obtain ⟨y, e1, e2⟩ := hall buf b1 b2
  exact ⟨y, by rw [hget, e1]; rfl, e2⟩

/-- C69: writing a number to a float view with an offset and reading it back, with the generated programs,
is off by offset times one minus step, up to two steps and the roundings. -/
theorem C69_ieee_offset {p : Profile} {structs : List (Name × Structure)} {enums : List (Name × Enum)}
    {d : Model.Structure} {s t : Structure} {i : Nat} {v : Model.SField}
    (h : Compiled p structs enums d s i v) {n : Nat} (hty : v.info = .float n) {w : Model.FieldView}
    (hview : v.view = some w) (ht : Ieee.rounded d s = some t) (h50 : n ≤ 50) (h32 : n ≠ 32)
    {a b ai bi : Rat} (hp : Ieee.params n w = some (a, b, ai, bi)) (h1 : 2 ^ (-100 : Int) ≤ a)
    (h2 : a ≤ 2 ^ (60 : Int)) (hb : 40 * (floatType n).eps * (2 ^ n + |b|) ≤ 1) (hn : NamesApart t)
    (lib : Lib) (paths : List (Name × Name)) {g : Globals}
    (hg : g.p = p) (hs : g.structure_ = t) (he : EnumPaths g paths t) {decimal : Rat → Rat}
    (hx : g.num = .ieee decimal) (hd : ∀ c ∈ [a, b, ai, bi], Ieee.Prints c (decimal c)) :
    ∃ k m, Generated lib paths t i v.name k m ∧
      ∀ buf : Bytes, s.byteSize ≤ buf.length → buf.length < 2 ^ 64 →
        ∀ x : Rat, a * b ≤ x → x ≤ a * b + a * (2 ^ n - 1 : Nat) →
        ∃ out raw y, m.call g buf (some (.real (floatBytes n) (.fin x))) = .ok (out, none) ∧
          BitsReplaced buf out (declTotal structs (d.fields.take i)) n raw ∧ raw < 2 ^ n ∧
          k.call g out none = .ok (out, some (.real (floatBytes n) (.fin y))) ∧
          |y - (x + b * (1 - a))| ≤
            2 * a + 10 * (floatType n).eps * (|x| + |b| + a * |b| + 2 * a) + 2 ^ (-140 : Int) := by
  obtain ⟨f, fmt, k, m, a', b', ai', bi', hf, hfmt, himp, hraw, hh, hp', hgen, hget, hset⟩ :=
    ieee_calls h hty hview ht hn lib paths hg hs he hx
  rw [hp] at hp'; cases hp'
  obtain ⟨f', fmt', hf', hfmt', hall⟩ := C85_offset h hty hview h50 h32 hp h1 h2 hb (hd a (by simp))
    (hd b (by simp)) (hd ai (by simp)) (hd bi (by simp))
  rw [hf] at hf'; cases hf'
  rw [hfmt] at hfmt'; cases hfmt'
  refine ⟨k, m, hgen, fun buf b1 b2 x x0 x1 => ?_⟩
  obtain ⟨out, raw, y, e1, e2, e3, e4, e5⟩ := hall buf b1 b2 x x0 x1
  exact ⟨out, raw, y, by rw [hset, e1]; rfl, e2, e3, by rw [hget, e4]; rfl, e5⟩

/-! ## A structure that meets the conditions -/

/-- **C69.** Arithmetic of infinities and of what is not a number leaves them as they are. -/
theorem C69_special {m : Arith} {bytes : Nat} {x : Ieee.Fl} {a b : Rat} (hm : m = .exact)
    (hx : ∀ q, x ≠ .fin q) : m.affine bytes x a b = x := by
  subst hm
  cases x with
  | fin q => exact absurd rfl (hx q)
  | inf => rfl
  | nan => rfl

namespace Ex

/-- One field, a fraction of 17 bits from 0 to 10. -/
def fraction : Model.Structure where
  name := ['F']
  fields := [{ name := ['a'], info := .float 17, view := some (.floatRange 0 10) }]

def fractionC : Structure := .mk 0 ['F'] [
  .fixed { name := ['a'], ty := .f64, loc := ⟨0, 0, 3, 17⟩,
           view := .float (10 / 131071) 0 (1 / (10 / 131071)) (-0), endian := .little }] 3 17

theorem fraction_compiled : Compiled .checked [] [] fraction fractionC 0
    { name := ['a'], info := .float 17, view := some (.floatRange 0 10) } :=
  ⟨(by intro n t h; cases h), ⟨0, rfl⟩, .inl rfl,
   by simp [fractionC, Structure.WellPlaced, SField.listWellPlaced, SField.WellPlaced], rfl, rfl⟩

/-- With the parameters computed in `f64`. -/
def fractionT : Structure := .mk 0 ['F'] [
  .fixed { name := ['a'], ty := .f64, loc := ⟨0, 0, 3, 17⟩,
           view := .float (5629542484213763 * 2 ^ (-66 : Int)) 0 (7205704428211404 * 2 ^ (-39 : Int)) 0,
           endian := .little }] 3 17

theorem fraction_rounded : Ieee.rounded fraction fractionC = some fractionT := by
  unfold Ieee.rounded fraction fractionC
  simp only [Structure.fields, Ieee.roundedFields, Ieee.roundedField, fixture_params]
  rfl

example := C69_ieee_reread fraction_compiled rfl rfl fraction_rounded (by norm_num) (by norm_num) fixture_params
  (by norm_num) (by norm_num) (by decide) empty []
  (g := ⟨.checked, fractionT, fun _ => none, .ieee fun x => x⟩) rfl rfl (by
    intro f hf e he
    simp only [fractionT, Structure.fields, List.mem_cons, SField.fixed.injEq, List.not_mem_nil, or_false] at hf
    subst hf
    cases he) rfl (by
    intro c hc
    simp only [List.mem_cons, List.not_mem_nil, or_false] at hc
    rcases hc with rfl | rfl | rfl | rfl
    · exact Props.Ex.prints_a
    · exact Props.Ex.prints_zero
    · exact Props.Ex.prints_ai
    · exact Props.Ex.prints_zero)

/-- One field, 8 bits for the numbers from 100 to 510. -/
def gauge : Model.Structure where
  name := ['G']
  fields := [{ name := ['d'], info := .float 8, view := some (.floatRange 100 510) }]

def gaugeC : Structure := .mk 0 ['G'] [
  .fixed { name := ['d'], ty := .f32, loc := ⟨0, 0, 1, 8⟩,
           view := .float (510 / 255) 100 (1 / (510 / 255)) (-100), endian := .little }] 1 8

theorem gauge_compiled : Compiled .checked [] [] gauge gaugeC 0
    { name := ['d'], info := .float 8, view := some (.floatRange 100 510) } :=
  ⟨(by intro n t h; cases h), ⟨0, rfl⟩, .inl rfl,
   by simp [gaugeC, Structure.WellPlaced, SField.listWellPlaced, SField.WellPlaced], rfl, rfl⟩

def gaugeT : Structure := .mk 0 ['G'] [
  .fixed { name := ['d'], ty := .f32, loc := ⟨0, 0, 1, 8⟩,
           view := .float 2 100 (1 / 2) (-100), endian := .little }] 1 8

theorem gauge_rounded : Ieee.rounded gauge gaugeC = some gaugeT := by
  unfold Ieee.rounded gauge gaugeC
  simp only [Structure.fields, Ieee.roundedFields, Ieee.roundedField, Props.Ex.range_params]
  rfl

theorem gauge_paths {g : Globals} : EnumPaths g [] gaugeT := by
  intro f hf e he
  simp only [gaugeT, Structure.fields, List.mem_cons, SField.fixed.injEq, List.not_mem_nil, or_false] at hf
  subst hf
  cases he

theorem gauge_prints : ∀ c ∈ ([2, 100, 1 / 2, -100] : List Rat), Ieee.Prints c c := by
  intro c hc
  simp only [List.mem_cons, List.not_mem_nil, or_false] at hc
  rcases hc with rfl | rfl | rfl | rfl
  · exact Props.Ex.prints_self ⟨2, 0, by norm_num, by norm_num, by norm_num, by norm_num⟩
  · exact Props.Ex.prints_self ⟨100, 0, by norm_num, by norm_num, by norm_num, by norm_num⟩
  · exact Props.Ex.prints_self ⟨1, -1, by norm_num, by norm_num, by norm_num, by norm_num⟩
  · exact Props.Ex.prints_self ⟨-100, 0, by norm_num, by norm_num, by norm_num, by norm_num⟩

example := C69_ieee_read gauge_compiled rfl rfl gauge_rounded (by norm_num) (by norm_num)
  Props.Ex.range_params (by norm_num) (by norm_num) (by norm_num) (by decide) empty []
  (g := ⟨.checked, gaugeT, fun _ => none, .ieee fun x => x⟩) rfl rfl gauge_paths rfl
  (fun c hc => gauge_prints c (by
    simp only [List.mem_cons, List.not_mem_nil, or_false] at hc ⊢
    tauto))

/-- The generated setter is given 300, the generated getter returns about 200. -/
example : ∃ k m, Generated empty [] gaugeT 0 ['d'] k m ∧
    ∀ buf : Bytes, 1 ≤ buf.length → buf.length < 2 ^ 64 →
      ∃ out y, m.call ⟨.checked, gaugeT, fun _ => none, .ieee fun x => x⟩ buf (some (.real 4 (.fin 300))) =
          .ok (out, none) ∧
        k.call ⟨.checked, gaugeT, fun _ => none, .ieee fun x => x⟩ out none =
          .ok (out, some (.real 4 (.fin y))) ∧ 195 ≤ y ∧ y ≤ 205 := by
  obtain ⟨k, m, hg, h⟩ := C69_ieee_offset gauge_compiled rfl rfl gauge_rounded (by norm_num) (by norm_num)
    Props.Ex.range_params (by norm_num) (by norm_num) (by norm_num [floatType, F32]) (by decide) empty []
    (g := ⟨.checked, gaugeT, fun _ => none, .ieee fun x => x⟩) rfl rfl gauge_paths rfl gauge_prints
  refine ⟨k, m, hg, fun buf hb hl => ?_⟩
  obtain ⟨out, raw, y, s1, -, -, s2, s3⟩ := h buf hb hl 300 (by norm_num) (by norm_num)
  refine ⟨out, y, s1, s2, ?_⟩
  have := abs_le.mp s3
  norm_num [floatType, F32] at this ⊢
  exact ⟨by linarith [this.1], by linarith [this.2]⟩

end Ex

end Proto.Rs.Acc
