import Verif.Props.Accessor

/-!
# C69, end to end for every kind of scalar field

From the declaration of a field to what the programs in the generated text do on every buffer.
-/

namespace Proto.Rs.Acc

open Text Props Spec

/-- `t` is the number of bytes of the smallest integer type with at least `n` bits. -/
def Holds (t n : Nat) : Prop := t ∈ [1, 2, 4, 8] ∧ n ≤ 8 * t ∧ (t ≠ 1 → 4 * t < n)

/-- The text of the getters and setters of a field ends with the programs `k` and `m`, named after the
field, whose argument and result types are `t`. -/
structure Generated (lib : Lib) (paths : List (Name × Name)) (s : Structure) (i : Nat) (x : Name)
    (k m : Fn) : Prop where
  getter : ∃ f rest, s.fields[i]? = some f ∧ fieldGetter lib paths f = rest ++ Fn.print lib k
  setter : ∃ f rest, s.fields[i]? = some f ∧ fieldSetter lib paths f = rest ++ Fn.print lib m
  getName : k.name = "get_".toList ++ x
  setName : m.name = "set_".toList ++ x

theorem viewGet_name (paths : List (Name × Name)) (f : FixedField) :
    (viewGet paths f).name = "get_".toList ++ f.name := by
  unfold viewGet
  cases f.view <;> simp only [id]
  by_cases h : f.ty = .bool <;> simp [h]

theorem viewSet_name (paths : List (Name × Name)) (f : FixedField) :
    (viewSet paths f).name = "set_".toList ++ f.name := by
  unfold viewSet
  cases f.view <;> simp only [id]

theorem generated (lib : Lib) (paths : List (Name × Name)) {s : Structure} {i : Nat} {f : FixedField}
    (hf : s.fields[i]? = some (.fixed f)) {x : Name} (hx : f.name = x) :
    Generated lib paths s i x (viewGet paths f) (viewSet paths f) where
  getter := ⟨_, _, hf, ((C69_text lib paths _).1 f rfl).1⟩
  setter := ⟨_, _, hf, ((C69_text lib paths _).1 f rfl).2⟩
  getName := by rw [viewGet_name, hx]
  setName := by rw [viewSet_name, hx]

/-- What a compiled field without an enum view does, as programs. -/
theorem scalar_calls {p : Profile} {structs : List (Name × Structure)} {enums : List (Name × Enum)}
    {d : Model.Structure} {s : Structure} {i : Nat} {v : Model.SField}
    (h : Compiled p structs enums d s i v) {bits : Nat} (hb : v.info.bitSize? = some bits)
    (hview : ∀ n, v.view ≠ some (.enum n))
    (hn : NamesApart s) (paths : List (Name × Name)) {g : Globals} (hg : g.p = p)
    (hs : g.structure_ = s) (he : EnumPaths g paths s) (hx : v.view = none ∨ g.num = .exact) {f : FixedField}
    (hf : s.fields[i]? = some (.fixed f)) :
    Scalar f ∧ f.loc.bitSize = bits ∧ f.name = v.name ∧ FixedTy.fromModel v.info = .ok f.ty ∧
    (∀ e, f.view ≠ .enum e) ∧ ∀ b,
      (viewGet paths f).call g b none = (lift (f.getView p b) >>= fun v => .ok (b, some (val paths f v))) ∧
      ∀ v r, f.setView p b v = some r →
        (viewSet paths f).call g b (some (argOf paths f v)) = (lift r >>= fun b => .ok (b, none)) := by
  obtain ⟨f', hf', hc⟩ := h.get hb
  rw [hf] at hf'
  cases hf'
  have hsc : Scalar f := ⟨by rw [hc.width]; exact hc.w1, by rw [hc.width]; exact hc.w64⟩
  have hmem : SField.fixed f ∈ s.fields := List.mem_of_getElem? hf
  have hv := hc.view
  have hne : ∀ e, f.view ≠ .enum e := by
    intro e hve
    rw [hve] at hv
    cases hvv : v.view with
    | none =>
      rw [hvv] at hv
      simp only [View.fromModel] at hv
      repeat' split at hv
      all_goals first
        | (cases hv; done)
        | skip
      obtain ⟨_, _, hv⟩ := Res.bind_eq_ok.1 hv
      obtain ⟨_, _, hv⟩ := Res.bind_eq_ok.1 hv
      obtain ⟨_, _, hv⟩ := Res.bind_eq_ok.1 hv
      cases hv
    | some w =>
      rw [hvv] at hv
      cases w with
      | enum n => exact hview n hvv
      | floatRange a b =>
        simp only [View.fromModel] at hv
        split at hv
        · cases hv
        · obtain ⟨_, _, hv⟩ := Res.bind_eq_ok.1 hv
          obtain ⟨_, _, hv⟩ := Res.bind_eq_ok.1 hv
          cases hv
      | floatMultiplier m =>
        simp only [View.fromModel] at hv
        split at hv <;> cases hv
  obtain ⟨id, hcomp⟩ := h.compiles
  have ht : Typed f := by
    rcases C69_compiled hcomp h.size hmem hsc with ht | ⟨_, x, hx, _⟩
    · exact ht
    · exact absurd hx (hne x)
  subst hs hg
  refine ⟨hsc, hc.width, hc.name, hc.ty, hne, fun b => ?_⟩
  have hxf : ExactIn g f := by
    intro a c ai ci hfl
    rcases hx with hx | hx
    · rw [hfl, hx] at hv
      exact absurd hv view_none_float
    · exact hx
  have hvw := C69_view hn he hmem hsc ht hxf b
  refine ⟨?_, hvw.2⟩
  rw [hvw.1]
  congr 1
  funext v
  split
  · next e d he => exact absurd he (hne e)
  · rfl

theorem rawSize_holds {f : FixedField} (h : Scalar f) : Holds f.loc.rawSize f.loc.bitSize := by
  obtain ⟨h1, h2⟩ := h
  rw [rawSize_eq ⟨h1, h2⟩]
  unfold rawBytes Holds
  (repeat' split) <;> simp <;> omega

/-- C69, unsigned fields without a view: the getter returns the field's bits as an integer of the smallest
type that has as many, the setter stores the low bits of its argument and changes nothing else; values
that fit are read back. -/
theorem C69_unsigned {p : Profile} {structs : List (Name × Structure)} {enums : List (Name × Enum)}
    {d : Model.Structure} {s : Structure} {i : Nat} {v : Model.SField}
    (h : Compiled p structs enums d s i v) {n : Nat} (hty : v.info = .unsigned n) (hview : v.view = none)
    (hn : NamesApart s) (lib : Lib) (paths : List (Name × Name)) {g : Globals} (hg : g.p = p)
    (hs : g.structure_ = s) (he : EnumPaths g paths s) :
    ∃ k m t, Generated lib paths s i v.name k m ∧ Holds t n ∧
      ∀ buf : Bytes, s.byteSize ≤ buf.length → buf.length < 2 ^ 64 →
        k.call g buf none =
          .ok (buf, some (.uint t (bitsLE buf (declTotal structs (d.fields.take i)) n))) ∧
        ∀ x, ∃ b, m.call g buf (some (.uint t x)) = .ok (b, none) ∧
          BitsReplaced buf b (declTotal structs (d.fields.take i)) n x ∧
          (x < 2 ^ n → k.call g b none = .ok (b, some (.uint t x))) := by
  obtain ⟨f, hf, hall⟩ := C16_plain_view (mk := .uint) h (.inr ⟨hty, rfl⟩) hview
  obtain ⟨hsc, hw, hnm, -, hne, hcall⟩ :=
    scalar_calls h (bits := n) (by rw [hty]; rfl) (by simp [hview]) hn paths hg hs he (.inl hview) hf
  have hh := rawSize_holds hsc
  rw [hw] at hh
  refine ⟨_, _, _, generated lib paths hf hnm, hh, fun buf h1 h2 => ?_⟩
  obtain ⟨hget, hset⟩ := hall buf h1 h2
  refine ⟨by rw [(hcall buf).1, hget]; rfl, fun x => ?_⟩
  obtain ⟨b, hb, hr, hback⟩ := hset x
  exact ⟨b, (hcall buf).2 (.uint x) _ hb, hr, fun hx => by rw [(hcall b).1, hback hx]; rfl⟩

/-- C69, floats without a view (of 32 or 64 bits): the getter returns the float with the field's bits, the
setter stores the bits of its argument and changes nothing else. -/
theorem C69_float {p : Profile} {structs : List (Name × Structure)} {enums : List (Name × Enum)}
    {d : Model.Structure} {s : Structure} {i : Nat} {v : Model.SField}
    (h : Compiled p structs enums d s i v) {n : Nat} (hty : v.info = .float n) (h3264 : n = 32 ∨ n = 64)
    (hview : v.view = none)
    (hn : NamesApart s) (lib : Lib) (paths : List (Name × Name)) {g : Globals} (hg : g.p = p)
    (hs : g.structure_ = s) (he : EnumPaths g paths s) :
    ∃ k m, Generated lib paths s i v.name k m ∧
      ∀ buf : Bytes, s.byteSize ≤ buf.length → buf.length < 2 ^ 64 →
        k.call g buf none =
          .ok (buf, some (.bits (n / 8) (bitsLE buf (declTotal structs (d.fields.take i)) n))) ∧
        ∀ x, ∃ b, m.call g buf (some (.bits (n / 8) x)) = .ok (b, none) ∧
          BitsReplaced buf b (declTotal structs (d.fields.take i)) n x ∧
          (x < 2 ^ n → k.call g b none = .ok (b, some (.bits (n / 8) x))) := by
  obtain ⟨f, hf, hall⟩ := C16_plain_view (mk := .floatBits) h (.inl ⟨hty, h3264, rfl⟩) hview
  obtain ⟨hsc, hw, hnm, -, hne, hcall⟩ :=
    scalar_calls h (bits := n) (by rw [hty]; rfl) (by simp [hview]) hn paths hg hs he (.inl hview) hf
  have hh : f.loc.rawSize = n / 8 := by
    have hh := rawSize_holds hsc
    rw [hw] at hh
    obtain ⟨h1, h2, h3⟩ := hh
    simp only [List.mem_cons, List.not_mem_nil, or_false] at h1
    omega
  refine ⟨_, _, generated lib paths hf hnm, fun buf h1 h2 => ?_⟩
  rw [← hh]
  obtain ⟨hget, hset⟩ := hall buf h1 h2
  refine ⟨by rw [(hcall buf).1, hget]; rfl, fun x => ?_⟩
  obtain ⟨b, hb, hr, hback⟩ := hset x
  exact ⟨b, (hcall buf).2 (.floatBits x) _ hb, hr, fun hx => by rw [(hcall b).1, hback hx]; rfl⟩

/-- C69, booleans: the getter returns whether a bit of the field is set, the setter sets the field to one or
zero and changes nothing else; what was set is read back. -/
theorem C69_bool {p : Profile} {structs : List (Name × Structure)} {enums : List (Name × Enum)}
    {d : Model.Structure} {s : Structure} {i : Nat} {v : Model.SField}
    (h : Compiled p structs enums d s i v) {n : Nat} (hty : v.info = .boolean n) (hview : v.view = none)
    (hn : NamesApart s) (lib : Lib) (paths : List (Name × Name)) {g : Globals} (hg : g.p = p)
    (hs : g.structure_ = s) (he : EnumPaths g paths s) :
    ∃ k m, Generated lib paths s i v.name k m ∧
      ∀ buf : Bytes, s.byteSize ≤ buf.length → buf.length < 2 ^ 64 →
        (∃ r, k.call g buf none = .ok (buf, some (.bool r)) ∧
          (r = true ↔ ∃ j, j < n ∧ bitAt buf (declTotal structs (d.fields.take i) + j) = true)) ∧
        ∀ x : Bool, ∃ b, m.call g buf (some (.bool x)) = .ok (b, none) ∧
          BitsReplaced buf b (declTotal structs (d.fields.take i)) n (if x then 1 else 0) ∧
          k.call g b none = .ok (b, some (.bool x)) := by
  obtain ⟨f, hf, hall⟩ := C14_bool_view h hty hview
  obtain ⟨hsc, hw, hnm, -, hne, hcall⟩ :=
    scalar_calls h (bits := n) (by rw [hty]; rfl) (by simp [hview]) hn paths hg hs he (.inl hview) hf
  refine ⟨_, _, generated lib paths hf hnm, fun buf h1 h2 => ?_⟩
  obtain ⟨⟨r, hget, hr⟩, hset⟩ := hall buf h1 h2
  refine ⟨⟨r, by rw [(hcall buf).1, hget]; rfl, hr⟩, fun x => ?_⟩
  obtain ⟨b, hb, hr, hback⟩ := hset x
  exact ⟨b, (hcall buf).2 (.bool x) _ hb, hr, by rw [(hcall b).1, hback]; rfl⟩

/-- C69, floats with a range: with `step = max / (2^n - 1)` the getter returns `raw * step + min`, the
setter stores `x / step - min` rounded down and brought into the range of the raw integer type, and
changes nothing else (numbers taken as exact). -/
theorem C69_range {p : Profile} {structs : List (Name × Structure)} {enums : List (Name × Enum)}
    {d : Model.Structure} {s : Structure} {i : Nat} {v : Model.SField}
    (h : Compiled p structs enums d s i v) {n : Nat} (hty : v.info = .float n) (h63 : n ≤ 63)
    {lo hi : Rat} (hview : v.view = some (.floatRange lo hi))
    (hn : NamesApart s) (lib : Lib) (paths : List (Name × Name)) {g : Globals} (hg : g.p = p)
    (hs : g.structure_ = s) (he : EnumPaths g paths s)
    (hx : g.num = .exact) :
    ∃ k m t, Generated lib paths s i v.name k m ∧ Holds t n ∧
      ∀ buf : Bytes, s.byteSize ≤ buf.length → buf.length < 2 ^ 64 →
        k.call g buf none = .ok (buf, some (.real (if n ≤ 16 ∨ n = 32 then 4 else 8)
          (.fin ((bitsLE buf (declTotal structs (d.fields.take i)) n : Nat) * (hi / ((2 ^ n - 1 : Nat) : Rat))
            + lo)))) ∧
        ∀ x : Rat, ∃ b, m.call g buf (some (.real (if n ≤ 16 ∨ n = 32 then 4 else 8) (.fin x))) = .ok (b, none) ∧
          BitsReplaced buf b (declTotal structs (d.fields.take i)) n
            (min ⌊x / (hi / ((2 ^ n - 1 : Nat) : Rat)) - lo⌋.toNat (2 ^ (8 * t) - 1)) := by
  obtain ⟨f, hf, hall⟩ := C16_range_view h hty h63 hview
  obtain ⟨hsc, hw, hnm, hft, hne, hcall⟩ :=
    scalar_calls h (bits := n) (by rw [hty]; rfl) (by simp [hview]) hn paths hg hs he (.inr hx) hf
  have hh := rawSize_holds hsc
  rw [hw] at hh
  have hsz : f.ty.byteSize = if n ≤ 16 ∨ n = 32 then 4 else 8 := by
    have het := C08_element_type _ _ hft
    rw [hty] at het
    obtain ⟨_, _, h32, h64⟩ := het
    by_cases h' : n ≤ 16 ∨ n = 32
    · rw [if_pos h', h32.2 h']; rfl
    · rw [if_neg h', h64.2 (by omega)]; rfl
  refine ⟨_, _, _, generated lib paths hf hnm, hh, fun buf h1 h2 => ?_⟩
  rw [← hsz]
  obtain ⟨hget, hset⟩ := hall buf h1 h2
  refine ⟨by rw [(hcall buf).1, hget]; rfl, fun x => ?_⟩
  obtain ⟨b, hb, hr⟩ := hset x
  exact ⟨b, (hcall buf).2 (.float x) _ hb, hr⟩

/-- C69, floats with a step, or a range from zero: the getter returns the multiple of the step, the setter
stores, for a number from zero to below the step times `2^n`, the multiple just below it and changes nothing
else (numbers taken as exact). -/
theorem C69_scaled {p : Profile} {structs : List (Name × Structure)} {enums : List (Name × Enum)}
    {d : Model.Structure} {s : Structure} {i : Nat} {v : Model.SField}
    (h : Compiled p structs enums d s i v) {n : Nat} (hty : v.info = .float n) {step : Rat}
    (hstep : 0 < step)
    (hview : v.view = some (.floatMultiplier step) ∨
      (n ≤ 63 ∧ v.view = some (.floatRange 0 (step * ((2 ^ n - 1 : Nat) : Rat)))))
    (hn : NamesApart s) (lib : Lib) (paths : List (Name × Name)) {g : Globals} (hg : g.p = p)
    (hs : g.structure_ = s) (he : EnumPaths g paths s)
    (hx : g.num = .exact) :
    ∃ k m, Generated lib paths s i v.name k m ∧
      ∀ buf : Bytes, s.byteSize ≤ buf.length → buf.length < 2 ^ 64 →
        k.call g buf none = .ok (buf, some (.real (if n ≤ 16 ∨ n = 32 then 4 else 8)
          (.fin ((bitsLE buf (declTotal structs (d.fields.take i)) n : Nat) * step)))) ∧
        ∀ x : Rat, 0 ≤ x → x < step * ((2 ^ n : Nat) : Rat) → ∃ b q,
          m.call g buf (some (.real (if n ≤ 16 ∨ n = 32 then 4 else 8) (.fin x))) = .ok (b, none) ∧
          (∃ raw, BitsReplaced buf b (declTotal structs (d.fields.take i)) n raw) ∧
          k.call g b none = .ok (b, some (.real (if n ≤ 16 ∨ n = 32 then 4 else 8) (.fin q))) ∧
          q ≤ x ∧ x < q + step := by
  obtain ⟨f, hf, hall⟩ := C16_scaled_view h hty hstep hview
  obtain ⟨hsc, hw, hnm, hft, hne, hcall⟩ := scalar_calls h (bits := n) (by rw [hty]; rfl)
    (by rcases hview with hv | ⟨_, hv⟩ <;> simp [hv]) hn paths hg hs he (.inr hx) hf
  have hsz : f.ty.byteSize = if n ≤ 16 ∨ n = 32 then 4 else 8 := by
    have het := C08_element_type _ _ hft
    rw [hty] at het
    obtain ⟨_, _, h32, h64⟩ := het
    by_cases h' : n ≤ 16 ∨ n = 32
    · rw [if_pos h', h32.2 h']; rfl
    · rw [if_neg h', h64.2 (by omega)]; rfl
  refine ⟨_, _, generated lib paths hf hnm, fun buf h1 h2 => ?_⟩
  rw [← hsz]
  obtain ⟨hget, hset⟩ := hall buf h1 h2
  refine ⟨by rw [(hcall buf).1, hget]; rfl, fun x h0 h3 => ?_⟩
  obtain ⟨b, q, hb, hr, hback, hq⟩ := hset x h0 h3
  exact ⟨b, q, (hcall buf).2 (.float x) _ hb, hr, by rw [(hcall b).1, hback]; rfl, hq⟩

/-- C69, fields with an enum view, when the enum has the size of the raw integer type: the getter returns
no value for numbers above the largest value, the variant for the value of one, and is undefined behaviour
for the numbers in between; the setter stores the value of its argument and changes nothing else, and what
was set is read back.  When the enum has another size the getter is rejected (`C69_enum_rejected`). -/
theorem C69_enum {p : Profile} {structs : List (Name × Structure)} {enums : List (Name × Enum)}
    {d : Model.Structure} {s : Structure} {i : Nat} {v : Model.SField}
    (h : Compiled p structs enums d s i v) {n : Nat} (hty : v.info = .unsigned n) {nm : Name}
    (hview : v.view = some (.enum nm)) {e : Enum} (hl : enums.lookup nm = some e)
    (hmax : ∀ x, Declared e x → x ≤ e.largest)
    (hn : NamesApart s) (lib : Lib) (paths : List (Name × Name)) {g : Globals} (hg : g.p = p)
    (hs : g.structure_ = s) (he : EnumPaths g paths s) :
    ∃ k m t, Generated lib paths s i v.name k m ∧ Holds t n ∧
      (enumBytes e = t → e.largest < 2 ^ (8 * t) →
      ∀ buf : Bytes, s.byteSize ≤ buf.length → buf.length < 2 ^ 64 →
        ∃ raw, raw = bitsLE buf (declTotal structs (d.fields.take i)) n ∧
        (e.largest < raw → k.call g buf none = .ok (buf, some .none)) ∧
        (Declared e raw → k.call g buf none =
          .ok (buf, some (.some (.enum (pathOf paths e.name) raw)))) ∧
        (raw ≤ e.largest → ¬ Declared e raw → k.call g buf none = .err .undefined) ∧
        ∀ x, ∃ b, m.call g buf (some (.enum (pathOf paths e.name) x)) = .ok (b, none) ∧
          BitsReplaced buf b (declTotal structs (d.fields.take i)) n x ∧
          (Declared e x → x < 2 ^ n → k.call g b none =
            .ok (b, some (.some (.enum (pathOf paths e.name) x))))) := by
  obtain ⟨f, hf, hall⟩ := C15_enum_view h hty hview hl hmax
  obtain ⟨f', hf', hc⟩ := h.get (bits := n) (by rw [hty]; rfl)
  rw [hf] at hf'
  cases hf'
  have hsc : Scalar f := ⟨by rw [hc.width]; exact hc.w1, by rw [hc.width]; exact hc.w64⟩
  have hmem : SField.fixed f ∈ s.fields := List.mem_of_getElem? hf
  have hv := hc.view
  rw [hty, hview] at hv
  simp only [View.fromModel, Model.FieldTy.simple, ne_eq, not_true_eq_false, if_false, hl,
    Res.ofOption_some, Res.bind_ok] at hv
  have hv : f.view = .enum e := (Res.ok.inj hv).symm
  have hh := rawSize_holds hsc
  rw [hc.width] at hh
  refine ⟨_, _, _, generated lib paths hf hc.name, hh, fun hsz hlt buf h1 h2 => ⟨_, rfl, ?_⟩⟩
  have ht : Typed f := by simp only [Typed, hv]; exact ⟨hsz, hlt⟩
  have mem : ∀ x, x ∈ e.variants.map Prod.snd ↔ Declared e x := by
    intro x; simp [Declared]
  subst hs hg
  have hvw := fun b => C69_view hn he hmem hsc ht (fun _ _ _ _ hfl => by rw [hv] at hfl; cases hfl) b
  obtain ⟨hget, hset⟩ := hall buf h1 h2
  have hcall := (hvw buf).1
  rw [hget] at hcall
  refine ⟨fun hlt => ?_, fun hd => ?_, fun hle hd => ?_, fun x => ?_⟩
  · rw [hcall, if_neg (by omega)]
    simp [lift, hv, val]
  · rw [hcall, if_pos (hmax _ hd)]
    simp only [lift, Res.bind_ok, hv]
    rw [if_pos ((mem _).2 hd)]
    simp [val, hv]
  · rw [hcall, if_pos hle]
    simp only [lift, Res.bind_ok, hv]
    rw [if_neg (fun h => hd ((mem _).1 h))]
  · obtain ⟨b, hb, hr, hback⟩ := hset x
    have := (hvw buf).2 (.enum (some x)) _ hb
    simp only [argOf, hv] at this
    refine ⟨b, this, hr, fun hd hx => ?_⟩
    rw [(hvw b).1, hback hd hx]
    simp only [lift, Res.bind_ok, hv]
    rw [if_pos ((mem _).2 hd)]
    simp [val, hv]

/-- C69, arrays and nested structures: the two accessors give the bytes of the field, as an array or as a
structure of the nested type, and panic exactly on buffers that end before the field does. -/
theorem C69_part {s : Structure} {i : Nat} {f : SField} (hf : s.fields[i]? = some f)
    (hx : ∀ x, f ≠ .fixed x) (lib : Lib) (paths : List (Name × Name)) :
    ∃ k m path, fieldGetter lib paths f = Fn.print lib k ∧ fieldSetter lib paths f = Fn.print lib m ∧
      k.name = "get_".toList ++ f.name ∧ m.name = "get_".toList ++ f.name ++ "_mut".toList ∧
      path = (match f with
        | .struct _ r _ => pathOf paths r.name
        | _ => b!"bp3d_proto::codec::ArrayCodec") ∧
      ∀ (g : Globals) (b : Bytes),
        (f.loc.byteOffset + f.loc.byteSize ≤ b.length →
          k.call g b none = .ok (b, some (.part path ((b.drop f.loc.byteOffset).take f.loc.byteSize))) ∧
          m.call g b none = .ok (b, some (.part path ((b.drop f.loc.byteOffset).take f.loc.byteSize)))) ∧
        (b.length < f.loc.byteOffset + f.loc.byteSize →
          k.call g b none = .panic ∧ m.call g b none = .panic) ∧
        (s.WF → s.byteSize ≤ b.length → f.loc.byteOffset + f.loc.byteSize ≤ b.length) := by
  obtain ⟨k, m, hk, hm, h1, h2⟩ := (C69_text lib paths f).2 hx
  refine ⟨k, m, _, h1, h2, ?_, ?_, rfl, fun g b => ⟨fun hb => ?_, fun hb => ?_, fun hw hb => ?_⟩⟩
  · cases f with
    | fixed x => exact absurd rfl (hx x)
    | array x => simp only [partGet, Option.some.injEq] at hk; subst hk; simp [SField.name, id]
    | struct n r l => simp only [partGet, Option.some.injEq] at hk; subst hk; simp [SField.name, id]
  · cases f with
    | fixed x => exact absurd rfl (hx x)
    | array x => simp only [partGet, Option.some.injEq] at hm; subst hm; simp [SField.name, id]
    | struct n r l => simp only [partGet, Option.some.injEq] at hm; subst hm; simp [SField.name, id]
  · rw [partGet_run hk, partGet_run hm, slice_ok (by omega) hb, Nat.add_sub_cancel_left]
    cases f <;> exact ⟨rfl, rfl⟩
  · have : (slice b f.loc.byteOffset (f.loc.byteOffset + f.loc.byteSize) : R Bytes) = .panic := by
      unfold slice; rw [if_neg (by omega)]
    rw [partGet_run hk, partGet_run hm, this]
    exact ⟨rfl, rfl⟩
  · have hst := hw.stop_le (List.mem_of_getElem? hf)
    unfold Loc.stop at hst
    omega

/-! ## Structures that meet the conditions -/

namespace Ex

def empty : Lib := ⟨⟨fun b => b, fun b => b⟩, fun _ => [], fun _ => []⟩

def g1 : Globals := ⟨.checked, Props.Ex.signedC, fun _ => none, .exact⟩

def g2 : Globals := ⟨.checked, Props.Ex.gapC, fun _ => some Props.Ex.gapEnumC, .exact⟩

example := C69_bool (Props.Ex.signed_compiled 2 _ rfl rfl) rfl rfl (by decide) empty []
  (g := g1) rfl rfl (by
    intro f hf e he
    simp only [Props.Ex.signedC, Structure.fields, List.mem_cons, SField.fixed.injEq, List.not_mem_nil,
      or_false] at hf
    rcases hf with rfl | rfl | rfl | rfl <;> cases he)

example := C69_enum Props.Ex.gap_compiled rfl rfl rfl (by
    rintro x ⟨name, hx⟩
    simp [Props.Ex.gapEnumC] at hx ⊢
    omega) (by decide) empty [] (g := g2) rfl rfl (by
    intro f hf e he
    simp only [Props.Ex.gapC, Structure.fields, List.mem_cons, SField.fixed.injEq, List.not_mem_nil,
      or_false] at hf
    subst hf
    cases he
    rfl)

end Ex

end Proto.Rs.Acc
