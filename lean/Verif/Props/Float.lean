import Verif.Float.Round
import Verif.Float.Offset
import Verif.Spec.Float
import Verif.Props.Views

/-!
# C85: float views in IEEE 754 arithmetic
-/

namespace Proto.Props

open Proto Spec Ieee

/-! ## Rounding -/

/-- The formats and the types they implement. -/
def Implements (f : Fmt) (t : FloatType) : Prop := (f = binary32 ∧ t = F32) ∨ (f = binary64 ∧ t = F64)

theorem Implements.std {f : Fmt} {t : FloatType} (h : Implements f t) : Std f := by
  rcases h with ⟨h, -⟩ | ⟨h, -⟩
  · exact .inl h
  · exact .inr h

theorem Implements.eps {f : Fmt} {t : FloatType} (h : Implements f t) : f.u = t.eps := by
  rcases h with ⟨rfl, rfl⟩ | ⟨rfl, rfl⟩ <;> simp only [Fmt.u, binary32, binary64, F32, F64] <;> norm_num

theorem Implements.limit {f : Fmt} {t : FloatType} (h : Implements f t) :
    (2 : Rat) ^ (f.top + 1) - 2 ^ (f.top - f.prec) = t.limit := by
  rcases h with ⟨rfl, rfl⟩ | ⟨rfl, rfl⟩ <;> simp only [binary32, binary64, F32, F64]
  · norm_num
  · have e1 : ((1023 : Int) + 1) = ((1024 : Nat) : Int) := rfl
    have e2 : ((1023 : Int) - ((53 : Nat) : Int)) = ((970 : Nat) : Int) := rfl
    rw [e1, e2, zpow_natCast, zpow_natCast]

theorem number_aux {prec : Nat} {least top : Int} (hl : least ≤ top + 1 - prec) (x : Rat) :
    (∃ m e : Int, x = m * 2 ^ e ∧ |m| < 2 ^ prec ∧ least ≤ e ∧ e ≤ top + 1 - prec) ↔
      (∃ m e : Int, x = m * 2 ^ e ∧ |m| < 2 ^ prec ∧ least ≤ e) ∧ |x| < 2 ^ (top + 1) := by
  constructor
  · rintro ⟨m, e, rfl, hm, h1, h2⟩
    refine ⟨⟨m, e, rfl, hm, h1⟩, ?_⟩
    rw [abs_mul, abs_of_pos (pow_pos' e)]
    have hm' : (|m| : Rat) < 2 ^ prec := by exact_mod_cast hm
    calc |(m : Rat)| * 2 ^ e < 2 ^ prec * 2 ^ e := mul_lt_mul_of_pos_right hm' (pow_pos' _)
      _ = 2 ^ ((prec : Int) + e) := by rw [zpow_add₀ (by norm_num), zpow_natCast]
      _ ≤ _ := zpow_le_zpow_right₀ (by norm_num) (by omega)
  · rintro ⟨⟨m, e, rfl, hm, h1⟩, hx⟩
    by_cases he : e ≤ top + 1 - prec
    · exact ⟨m, e, rfl, hm, h1, he⟩
    · obtain ⟨k, hk⟩ := Int.le.dest (show top + 1 - (prec : Int) ≤ e by omega)
      have e1 : (m : Rat) * 2 ^ e = ((m * 2 ^ k : Int) : Rat) * 2 ^ (top + 1 - (prec : Int)) := by
        push_cast
        rw [mul_assoc, ← zpow_natCast, ← zpow_add₀ (by norm_num), Int.add_comm, hk]
      refine ⟨m * 2 ^ k, top + 1 - prec, e1, ?_, hl, le_refl _⟩
      rw [e1, abs_mul, abs_of_pos (pow_pos' _)] at hx
      have e2 : (2 : Rat) ^ (top + 1) = 2 ^ prec * 2 ^ (top + 1 - (prec : Int)) := by
        rw [← zpow_natCast, ← zpow_add₀ (by norm_num)]
        congr 1
        ring
      rw [e2] at hx
      have := lt_of_mul_lt_mul_right hx (pow_pos' _).le
      exact_mod_cast this

theorem Implements.number {f : Fmt} {t : FloatType} (h : Implements f t) (x : Rat) :
    t.isNumber x ↔ f.Rep x ∧ |x| < 2 ^ (f.top + 1) := by
  rcases h with ⟨rfl, rfl⟩ | ⟨rfl, rfl⟩
  · exact number_aux (prec := 24) (least := -149) (top := 127) (by norm_num) x
  · exact number_aux (prec := 53) (least := -1074) (top := 1023) (by norm_num) x

theorem nearest_unique {t : FloatType} {q x y : Rat} (hx : Nearest t q x) (hy : Nearest t q y) :
    x = y := by
  have h1 := (hx.2 y hy.1).1
  have h2 := (hy.2 x hx.1).1
  have he : |x - q| = |y - q| := le_antisymm h1 h2
  rcases (hx.2 y hy.1).2 he with h | ⟨m, e, hm, hd⟩
  · exact h.symm
  rcases (hy.2 x hx.1).2 he.symm with h | ⟨m', e', hm', hd'⟩
  · exact h
  exfalso
  have hee : (2 : Rat) ^ e = 2 ^ e' := by rw [← hd, ← hd', abs_sub_comm]
  rw [hm, hm', ← hee, ← sub_mul, abs_mul, abs_of_pos (pow_pos' e)] at hd
  have h3 : |((2 * m' : Int) : Rat) - ((2 * m : Int) : Rat)| = 1 := by
    have := hd
    nth_rewrite 2 [← one_mul ((2 : Rat) ^ e)] at this
    exact mul_right_cancel₀ (pow_pos' e).ne' this
  have h4 : |2 * m' - 2 * m| = 1 := by exact_mod_cast h3
  rcases abs_choice (2 * m' - 2 * m) with h | h <;> rw [h] at h4 <;> omega

/-- C85: rounding to `f32` and `f64`: below the limit the nearest number of the type, the even one of two;
from the limit on infinity of the sign. -/
theorem C85_round {f : Fmt} {t : FloatType} (h : Implements f t) (q : Rat) :
    (∀ x, f.round q = .fin x ↔ |q| < t.limit ∧ Nearest t q x) ∧
    (f.round q = .inf false ↔ t.limit ≤ q) ∧ (f.round q = .inf true ↔ q ≤ -t.limit) ∧
    f.round q ≠ .nan := by
  have hp := h.std.prec
  have hl : f.least + f.prec - 1 ≤ f.top := by
    rcases h with ⟨rfl, -⟩ | ⟨rfl, -⟩ <;> decide
  have habs : |f.near q| = f.near |q| := by
    rcases abs_cases q with ⟨e, hq⟩ | ⟨e, hq⟩ <;> rw [e]
    · exact abs_of_nonneg (near_nonneg f hq)
    · rw [near_neg, abs_of_nonpos]
      have := near_nonneg f (x := -q) (by linarith)
      rw [near_neg] at this
      linarith
  have hlim : |f.near q| < 2 ^ (f.top + 1) ↔ |q| < t.limit := by
    rw [habs, ← not_le, near_top f hp hl (abs_nonneg q), h.limit, not_le]
  have hpos : 0 < t.limit := by
    have e := h.limit
    rw [← e]
    have : (2 : Rat) ^ (f.top - f.prec) < 2 ^ (f.top + 1) :=
      zpow_lt_zpow_right₀ (by norm_num) (by omega)
    linarith
  have hnear : |q| < t.limit → Nearest t q (f.near q) := by
    intro hq
    refine ⟨(h.number _).mpr ⟨rep_near f hp q, hlim.mpr hq⟩, ?_⟩
    intro y hy
    have hr := ((h.number y).mp hy).1
    refine ⟨near_nearest f hp hr q, ?_⟩
    intro e
    by_cases hne : y = f.near q
    · exact .inl hne
    · exact .inr (near_tie f hp hr hne e.symm)
  unfold Fmt.round
  by_cases hq : |q| < t.limit
  · rw [if_pos (hlim.mpr hq)]
    refine ⟨?_, ?_, ?_, nofun⟩
    · intro x
      constructor
      · intro e; rw [← Fl.fin.inj e]; exact ⟨hq, hnear hq⟩
      · intro e; rw [nearest_unique e.2 (hnear hq)]
    · constructor
      · nofun
      · intro hh; exact absurd (lt_of_le_of_lt (le_abs_self q) hq) (not_lt.mpr hh)
    · constructor
      · nofun
      · intro hh; have := (abs_lt.mp hq).1; linarith
  · rw [if_neg (fun hh => hq (hlim.mp hh))]
    have hq' := not_lt.mp hq
    refine ⟨?_, ?_, ?_, nofun⟩
    · intro x
      constructor
      · nofun
      · intro e; exact absurd e.1 hq
    · rcases abs_cases q with ⟨e, h0⟩ | ⟨e, h0⟩ <;> rw [e] at hq'
      · simp [not_lt.mpr h0, hq']
      · simp [h0]; linarith
    · rcases abs_cases q with ⟨e, h0⟩ | ⟨e, h0⟩ <;> rw [e] at hq'
      · simp [not_lt.mpr h0]; linarith
      · simp [h0]; linarith

theorem ulp_eq {f : Fmt} {q : Rat} {e : Int} (h1 : (2 : Rat) ^ (e + f.prec - 1) ≤ |q|)
    (h2 : |q| < 2 ^ (e + f.prec)) (he : f.least ≤ e) : f.ulp q = e := by
  have h0 : 0 < |q| := lt_of_lt_of_le (pow_pos' _) h1
  have l1 : e + f.prec - 1 ≤ Int.log 2 |q| := by
    rw [← Int.zpow_le_iff_le_log (by norm_num) h0]; exact_mod_cast h1
  have l2 : Int.log 2 |q| < e + f.prec := by
    rw [← Int.lt_zpow_iff_log_lt (by norm_num) h0]; exact_mod_cast h2
  unfold Fmt.ulp; omega

/-- The first integer that is not a number of the format. -/
theorem round_gap {f : Fmt} (hf : Std f) :
    f.round ((2 ^ f.prec : Nat) : Rat) = .fin (2 ^ f.prec : Nat) ∧
    f.round ((2 ^ f.prec + 1 : Nat) : Rat) = .fin (2 ^ f.prec : Nat) := by
  constructor
  · rw [hf.round (by positivity), near_rep]
    · exact ⟨1, f.prec, by push_cast; rw [one_mul, zpow_natCast], by
        have : (1 : Int) < 2 ^ f.prec := one_lt_pow₀ (by norm_num) (by have := hf.prec; omega)
        simpa using this, by rcases hf with rfl | rfl <;> decide⟩
    · rcases hf with rfl | rfl <;> simp only [binary32, binary64] <;> norm_num
  · rw [hf.round (by positivity)]
    · have hu : f.ulp ((2 ^ f.prec + 1 : Nat) : Rat) = 1 := by
        apply ulp_eq
        · rw [abs_of_nonneg (by positivity)]
          rcases hf with rfl | rfl <;> simp only [binary32, binary64] <;> norm_num
        · rw [abs_of_nonneg (by positivity)]
          rcases hf with rfl | rfl <;> simp only [binary32, binary64] <;> norm_num
        · rcases hf with rfl | rfl <;> decide
      unfold Fmt.near
      rw [hu]
      congr 1
      have hfl : ⌊((2 ^ f.prec + 1 : Nat) : Rat) / 2 ^ (1 : Int)⌋ = 2 ^ (f.prec - 1) := by
        rw [Int.floor_eq_iff]
        rcases hf with rfl | rfl <;> simp only [binary32, binary64] <;> norm_num
      unfold halfEven
      rw [hfl]
      rcases hf with rfl | rfl <;> simp only [binary32, binary64] <;> norm_num
    · rcases hf with rfl | rfl <;> simp only [binary32, binary64] <;> norm_num

example : Nearest F32 (16777217 : Nat) (16777216 : Nat) :=
  (((C85_round (f := binary32) (t := F32) (.inl ⟨rfl, rfl⟩) (16777217 : Nat)).1 (16777216 : Nat)).mp
    (round_gap (.inl rfl)).2).2

/-! ## Parameters -/

/-- C85: the parameters of a multiplier view: the declared multiplier and the `f64` nearest to its inverse;
none when the multiplier is zero or its inverse is too large. -/
theorem C85_multiplier_params (n : Nat) (multiplier a b aInv bInv : Rat) :
    params n (.floatMultiplier multiplier) = some (a, b, aInv, bInv) ↔
      multiplier ≠ 0 ∧ a = multiplier ∧ b = 0 ∧ bInv = 0 ∧ |1 / multiplier| < F64.limit ∧
      Nearest F64 (1 / multiplier) aInv := by
  have hr := (C85_round (f := binary64) (t := F64) (.inr ⟨rfl, rfl⟩) (1 / multiplier)).1
  unfold params Fmt.div
  by_cases h0 : multiplier = 0
  · simp [h0]
  · simp only [if_neg h0]
    constructor
    · intro h
      split at h
      · rename_i x hx
        simp only [Option.some.injEq, Prod.mk.injEq] at h
        obtain ⟨rfl, rfl, rfl, rfl⟩ := h
        exact ⟨h0, rfl, rfl, rfl, (hr _).mp hx⟩
      · cases h
    · rintro ⟨-, rfl, rfl, rfl, h⟩
      rw [(hr aInv).mpr h]

/-- C85: the parameters of a range view of at most 53 bits: the `f64` nearest to `max / (2^n - 1)`, the
declared minimum, the `f64` nearest to the inverse of the former, and the negated minimum. -/
theorem C85_range_params {n : Nat} (h1 : 1 ≤ n) (h53 : n ≤ 53) (lo hi a b aInv bInv : Rat) :
    params n (.floatRange lo hi) = some (a, b, aInv, bInv) ↔
      |hi / ((2 ^ n - 1 : Nat) : Rat)| < F64.limit ∧ Nearest F64 (hi / ((2 ^ n - 1 : Nat) : Rat)) a ∧
      a ≠ 0 ∧ |1 / a| < F64.limit ∧ Nearest F64 (1 / a) aInv ∧ b = lo ∧ bInv = -lo := by
  have hr := fun q => (C85_round (f := binary64) (t := F64) (.inr ⟨rfl, rfl⟩) q).1
  have hp := Nat.two_pow_pos n
  have hlt : 2 ^ n - 1 < 2 ^ binary64.prec := by
    have : 2 ^ n ≤ 2 ^ 53 := Nat.pow_le_pow_right (by omega) h53
    change _ < 2 ^ 53
    omega
  have h2 : 2 ≤ 2 ^ n := by have := Nat.pow_le_pow_right (n := 2) (by omega) h1; omega
  have hne : ((2 ^ n - 1 : Nat) : Rat) ≠ 0 := by
    have : (2 ^ n - 1 : Nat) ≠ 0 := by omega
    exact_mod_cast this
  unfold params
  rw [round_nat (.inr rfl) hlt]
  simp only [Fmt.div, if_neg hne]
  constructor
  · intro h
    split at h
    · rename_i x hx
      have e1 := (hr _ _).mp hx
      by_cases hx0 : x = 0
      · simp [hx0] at h
      · simp only [if_neg hx0] at h
        split at h
        · rename_i y hy
          simp only [Option.some.injEq, Prod.mk.injEq] at h
          obtain ⟨rfl, rfl, rfl, rfl⟩ := h
          have e2 := (hr _ _).mp hy
          exact ⟨e1.1, e1.2, hx0, e2.1, e2.2, rfl, rfl⟩
        · cases h
    · cases h
  · rintro ⟨h3, h4, h5, h6, h7, rfl, rfl⟩
    rw [(hr _ a).mpr ⟨h3, h4⟩]
    simp only [if_neg h5]
    rw [(hr _ aInv).mpr ⟨h6, h7⟩]

/-! ## Accessors -/

variable {p : Profile} {structs : List (Name × Structure)} {enums : List (Name × Enum)}
  {d : Model.Structure} {s : Structure} {i : Nat} {v : Model.SField}

/-- C85: the accessors of an `n`-bit float view are those of the type of the field; they compute with the
field's bits, `set` changes nothing else, and neither fails on a buffer of the size of the structure. -/
theorem C85_view (h : Compiled p structs enums d s i v) {n : Nat} (hty : v.info = .float n) :
    ∃ f fmt, s.fields[i]? = some (.fixed f) ∧ fmtOf f.ty = some fmt ∧ Implements fmt (floatType n) ∧
      n ≤ f.rawBits ∧
      ∀ buf : Bytes, s.byteSize ≤ buf.length → buf.length < 2 ^ 64 →
        (∀ a b, getView p f a b fmt buf =
          .ok (viewGet fmt a b (bitsLE buf (declTotal structs (d.fields.take i)) n))) ∧
        ∀ a b x, ∃ out, setView p f a b fmt buf x = .ok out ∧
          BitsReplaced buf out (declTotal structs (d.fields.take i)) n (viewSet fmt f.rawBits a b x) := by
  obtain ⟨f, hf, hc⟩ := h.get (bits := n) (by rw [hty]; rfl)
  have htyp := C08_element_type v.info f.ty hc.ty
  rw [hty] at htyp
  obtain ⟨-, -, t1, t2⟩ := htyp
  have hfmt : ∃ fmt, fmtOf f.ty = some fmt ∧ Implements fmt (floatType n) := by
    unfold floatType
    by_cases hn : n ≤ 16 ∨ n = 32
    · rw [t1.mpr hn, if_pos hn]
      exact ⟨binary32, rfl, .inl ⟨rfl, rfl⟩⟩
    · rw [t2.mpr (by omega), if_neg hn]
      exact ⟨binary64, rfl, .inr ⟨rfl, rfl⟩⟩
  obtain ⟨fmt, h1, h2⟩ := hfmt
  refine ⟨f, fmt, hf, h1, h2, hc.raw, ?_⟩
  intro buf hb hl
  constructor
  · intro a b
    simp only [getView, hc.get buf hb hl, Res.bind_ok, Res.pure_eq]
  · intro a b x
    exact hc.set buf _ hb hl

theorem prec_of {n : Nat} {fmt : Fmt} (h : Implements fmt (floatType n)) :
    (n ≤ 16 ∨ n = 32 → fmt = binary32) ∧ (16 < n → n ≠ 32 → fmt = binary64) := by
  have hne : (F32 : FloatType) ≠ F64 := by
    intro e
    have := congrArg FloatType.eps e
    simp only [F32, F64] at this
    norm_num at this
  unfold floatType at h
  constructor
  · intro hn
    rw [if_pos hn] at h
    rcases h with h | h
    · exact h.1
    · exact absurd h.2 hne
  · intro h1 h2
    rw [if_neg (by omega)] at h
    rcases h with h | h
    · exact absurd h.2.symm hne
    · exact h.1

theorem spare_digits {n : Nat} {fmt : Fmt} (h : Implements fmt (floatType n)) (h50 : n ≤ 50)
    (h32 : n ≠ 32) : n + 3 ≤ fmt.prec := by
  by_cases hn : n ≤ 16
  · rw [(prec_of h).1 (.inl hn)]; simp only [binary32]; omega
  · rw [(prec_of h).2 (by omega) h32]; simp only [binary64]; omega

/-- What the parameters of a view without offset satisfy. -/
theorem params_inv {n : Nat} {w : Model.FieldView} {a b aInv bInv : Rat}
    (h : params n w = some (a, b, aInv, bInv)) : binary64.div 1 a = .fin aInv ∧ bInv = -b := by
  unfold params at h
  cases w with
  | enum _ => cases h
  | floatMultiplier m =>
    simp only at h
    split at h
    · rename_i hx
      simp only [Option.some.injEq, Prod.mk.injEq] at h
      obtain ⟨rfl, rfl, rfl, rfl⟩ := h
      exact ⟨hx, by simp⟩
    · cases h
  | floatRange lo hi =>
    simp only at h
    split at h
    · split at h
      · split at h
        · rename_i hx
          simp only [Option.some.injEq, Prod.mk.injEq] at h
          obtain ⟨rfl, rfl, rfl, rfl⟩ := h
          exact ⟨hx, rfl⟩
        · cases h
      · cases h
    · cases h

/-- C85: reading a float view without offset and writing the result back keeps the field or lowers it by
one, and changes nothing else. -/
theorem C85_reread (h : Compiled p structs enums d s i v) {n : Nat} (hty : v.info = .float n)
    {w : Model.FieldView} (_hview : v.view = some w) (h50 : n ≤ 50) (h32 : n ≠ 32)
    {a aInv bInv : Rat} (hp : params n w = some (a, 0, aInv, bInv))
    (h1 : 2 ^ (-100 : Int) ≤ a) (h2 : a ≤ 2 ^ (60 : Int)) {dA dB dAi dBi : Rat} (hA : Prints a dA)
    (hB : Prints 0 dB) (hAi : Prints aInv dAi) (hBi : Prints bInv dBi) :
    ∃ f fmt, s.fields[i]? = some (.fixed f) ∧ fmtOf f.ty = some fmt ∧
      ∀ buf : Bytes, s.byteSize ≤ buf.length → buf.length < 2 ^ 64 →
        ∃ x out k, getView p f dA dB fmt buf = .ok x ∧ setView p f dAi dBi fmt buf x = .ok out ∧
          BitsReplaced buf out (declTotal structs (d.fields.take i)) n k ∧
          (k = bitsLE buf (declTotal structs (d.fields.take i)) n ∨
            k + 1 = bitsLE buf (declTotal structs (d.fields.take i)) n) := by
  obtain ⟨f, fmt, hf, hfm, himp, hraw, hacc⟩ := C85_view h hty
  refine ⟨f, fmt, hf, hfm, ?_⟩
  intro buf hb hl
  obtain ⟨hget, hset⟩ := hacc buf hb hl
  obtain ⟨hinv, rfl⟩ := params_inv hp
  rw [neg_zero] at hBi
  have c := consts himp.std h1 h2 hinv hA hAi
  have hlt := bitsLE_lt buf (declTotal structs (d.fields.take i)) n
  obtain ⟨x, g1, -, g2⟩ := c.reread himp.std (spare_digits himp h50 h32) hlt hraw
  obtain ⟨out, s1, s2⟩ := hset dAi dBi (.fin x)
  rw [hBi.zero] at s1 s2
  refine ⟨.fin x, out, _, ?_, ?_, s2, g2⟩
  · rw [hget, hB.zero, g1]
  · rw [hBi.zero, s1]

/-- C85: writing a number of the range of a float view without offset and reading it back gives a number
at most one step (and the roundings) below and at most the roundings above. -/
theorem C85_write_read (h : Compiled p structs enums d s i v) {n : Nat} (hty : v.info = .float n)
    {w : Model.FieldView} (_hview : v.view = some w) (h50 : n ≤ 50) (h32 : n ≠ 32)
    {a aInv bInv : Rat} (hp : params n w = some (a, 0, aInv, bInv))
    (h1 : 2 ^ (-100 : Int) ≤ a) (h2 : a ≤ 2 ^ (60 : Int)) {dA dB dAi dBi : Rat} (hA : Prints a dA)
    (hB : Prints 0 dB) (hAi : Prints aInv dAi) (hBi : Prints bInv dBi) :
    ∃ f fmt, s.fields[i]? = some (.fixed f) ∧ fmtOf f.ty = some fmt ∧
      ∀ buf : Bytes, s.byteSize ≤ buf.length → buf.length < 2 ^ 64 →
        ∀ x : Rat, 0 ≤ x → x ≤ a * (2 ^ n - 1 : Nat) →
        ∃ out k y, setView p f dAi dBi fmt buf (.fin x) = .ok out ∧
          BitsReplaced buf out (declTotal structs (d.fields.take i)) n k ∧ k < 2 ^ n ∧
          getView p f dA dB fmt out = .ok (.fin y) ∧
          y ≤ x + 8 * (floatType n).eps * x ∧
          x - (a + (floatType n).eps * a + 8 * (floatType n).eps * x) ≤ y := by
  obtain ⟨f, fmt, hf, hfm, himp, hraw, hacc⟩ := C85_view h hty
  refine ⟨f, fmt, hf, hfm, ?_⟩
  intro buf hb hl x hx0 hx1
  obtain ⟨hget, hset⟩ := hacc buf hb hl
  obtain ⟨hinv, rfl⟩ := params_inv hp
  rw [neg_zero] at hBi
  have c := consts himp.std h1 h2 hinv hA hAi
  obtain ⟨g1, y, g2, g3, g4⟩ := c.write_read himp.std (spare_digits himp h50 h32) hraw hx0 hx1
  obtain ⟨out, s1, s2⟩ := hset dAi dBi (.fin x)
  rw [hBi.zero] at s1 s2
  rw [← himp.eps]
  obtain ⟨f', hf', hc⟩ := h.get (bits := n) (by rw [hty]; rfl)
  have hfit := hc.fits
  obtain ⟨hget', -⟩ := hacc out (by rw [s2.1]; exact hb) (by rw [s2.1]; exact hl)
  refine ⟨out, _, y, by rw [hBi.zero, s1], s2, g1, ?_, g3, g4⟩
  rw [hget', hB.zero, s2.bitsLE_eq (by omega), Nat.mod_eq_of_lt g1, g2]

/-- C85: reading a float view with any offset yields step times raw value plus offset, up to the
roundings. -/
theorem C85_read (h : Compiled p structs enums d s i v) {n : Nat} (hty : v.info = .float n)
    {w : Model.FieldView} (_hview : v.view = some w) (h50 : n ≤ 50) (h32 : n ≠ 32)
    {a b aInv bInv : Rat} (hp : params n w = some (a, b, aInv, bInv))
    (h1 : 2 ^ (-100 : Int) ≤ a) (h2 : a ≤ 2 ^ (60 : Int)) (hb : |b| ≤ 2 ^ (60 : Int))
    {dA dB dAi : Rat} (hA : Prints a dA) (hB : Prints b dB) (hAi : Prints aInv dAi) :
    ∃ f fmt, s.fields[i]? = some (.fixed f) ∧ fmtOf f.ty = some fmt ∧
      ∀ buf : Bytes, s.byteSize ≤ buf.length → buf.length < 2 ^ 64 →
        ∃ y, getView p f dA dB fmt buf = .ok (.fin y) ∧
          |y - (bitsLE buf (declTotal structs (d.fields.take i)) n * a + b)| ≤
            10 * (floatType n).eps * (bitsLE buf (declTotal structs (d.fields.take i)) n * a + |b|) +
              2 ^ (-140 : Int) := by
  obtain ⟨f, fmt, hf, hfm, himp, hraw, hacc⟩ := C85_view h hty
  refine ⟨f, fmt, hf, hfm, ?_⟩
  intro buf hbuf hl
  obtain ⟨hinv, -⟩ := params_inv hp
  have c := consts himp.std h1 h2 hinv hA hAi
  have hlt := bitsLE_lt buf (declTotal structs (d.fields.take i)) n
  have hsp := spare_digits himp h50 h32
  obtain ⟨y, g1, g2⟩ := viewGet_offset himp.std c hB hb
    (lt_of_lt_of_le hlt (Nat.pow_le_pow_right (by omega) (by omega)))
    (lt_of_lt_of_le hlt (Nat.pow_le_pow_right (by omega) (by omega)))
  rw [← himp.eps]
  exact ⟨y, by rw [(hacc buf hbuf hl).1, g1], le_trans g2 (by
    have : 8 * (2 : Rat) ^ (-149 : Int) ≤ 2 ^ (-140 : Int) := by norm_num
    linarith)⟩

/-- C85: writing a number to a view with an offset and reading it back is off by offset times one minus
step, up to two steps and the roundings: the setter subtracts the offset after scaling instead of before. -/
theorem C85_offset (h : Compiled p structs enums d s i v) {n : Nat} (hty : v.info = .float n)
    {w : Model.FieldView} (_hview : v.view = some w) (h50 : n ≤ 50) (h32 : n ≠ 32)
    {a b aInv bInv : Rat} (hp : params n w = some (a, b, aInv, bInv))
    (h1 : 2 ^ (-100 : Int) ≤ a) (h2 : a ≤ 2 ^ (60 : Int))
    (hb : 40 * (floatType n).eps * (2 ^ n + |b|) ≤ 1)
    {dA dB dAi dBi : Rat} (hA : Prints a dA) (hB : Prints b dB) (hAi : Prints aInv dAi)
    (hBi : Prints bInv dBi) :
    ∃ f fmt, s.fields[i]? = some (.fixed f) ∧ fmtOf f.ty = some fmt ∧
      ∀ buf : Bytes, s.byteSize ≤ buf.length → buf.length < 2 ^ 64 →
        ∀ x : Rat, a * b ≤ x → x ≤ a * b + a * (2 ^ n - 1 : Nat) →
        ∃ out k y, setView p f dAi dBi fmt buf (.fin x) = .ok out ∧
          BitsReplaced buf out (declTotal structs (d.fields.take i)) n k ∧ k < 2 ^ n ∧
          getView p f dA dB fmt out = .ok (.fin y) ∧
          |y - (x + b * (1 - a))| ≤
            2 * a + 10 * (floatType n).eps * (|x| + |b| + a * |b| + 2 * a) + 2 ^ (-140 : Int) := by
  obtain ⟨f, fmt, hf, hfm, himp, hraw, hacc⟩ := C85_view h hty
  refine ⟨f, fmt, hf, hfm, ?_⟩
  intro buf hbuf hl x hx0 hx1
  obtain ⟨hget, hset⟩ := hacc buf hbuf hl
  obtain ⟨hinv, rfl⟩ := params_inv hp
  have c := consts himp.std h1 h2 hinv hA hAi
  have hsp := spare_digits himp h50 h32
  rw [← himp.eps] at hb ⊢
  obtain ⟨u0, u1, -⟩ := himp.std.u
  have a0 : 0 < a := lt_of_lt_of_le (pow_pos' _) h1
  have hb0 := abs_nonneg b
  have hb60 : |b| ≤ 2 ^ (60 : Int) := by
    have hu53 := himp.std.u.2.2
    have e : binary64.u = 1 / 2 ^ 53 := by unfold Fmt.u binary64; norm_num
    rw [e] at hu53
    have h3 : 1 / 2 ^ 53 * |b| ≤ fmt.u * |b| := mul_le_mul_of_nonneg_right hu53 hb0
    have h4 : 0 ≤ fmt.u * 2 ^ n := mul_nonneg u0.le (by positivity)
    have h5 : 1 / 2 ^ 53 * |b| ≤ 1 := by
      have : 0 ≤ fmt.u * |b| := mul_nonneg u0.le hb0
      linarith
    norm_num at h5 ⊢
    linarith
  obtain ⟨g1, g2⟩ := viewSet_offset himp.std c hBi hraw hb hx0 hx1
  obtain ⟨out, s1, s2⟩ := hset dAi dBi (.fin x)
  generalize viewSet fmt f.rawBits dAi dBi (.fin x) = k at *
  obtain ⟨f', hf', hc⟩ := h.get (bits := n) (by rw [hty]; rfl)
  have hfit := hc.fits
  obtain ⟨hget', -⟩ := hacc out (by rw [s2.1]; exact hbuf) (by rw [s2.1]; exact hl)
  obtain ⟨y, y1, y2⟩ := viewGet_offset himp.std c hB hb60 (k := k)
    (lt_of_lt_of_le g1 (Nat.pow_le_pow_right (by omega) (by omega)))
    (lt_of_lt_of_le g1 (Nat.pow_le_pow_right (by omega) (by omega)))
  refine ⟨out, k, y, s1, s2, g1, ?_, ?_⟩
  · rw [hget', s2.bitsLE_eq (by omega), Nat.mod_eq_of_lt g1, y1]
  · have e1 : |k * a - (x - a * b)| ≤ 2 * a := by
      have := mul_le_mul_of_nonneg_right g2 a0.le
      rw [← abs_of_pos a0, ← abs_mul, abs_of_pos a0] at this
      have e : ((k : Rat) - (x / a - b)) * a = k * a - (x - a * b) := by field_simp
      rwa [e] at this
    obtain ⟨e2, e3⟩ := abs_le.mp e1
    have e4 : (k : Rat) * a ≤ |x| + a * |b| + 2 * a := by
      have := le_abs_self x
      have : -(a * b) ≤ a * |b| := by
        have := mul_le_mul_of_nonneg_left (neg_le_abs b) a0.le
        linarith
      linarith
    have e5 : 10 * fmt.u * (k * a + |b|) ≤ 10 * fmt.u * (|x| + |b| + a * |b| + 2 * a) :=
      mul_le_mul_of_nonneg_left (by linarith) (by linarith)
    have e6 := abs_add_le (y - (k * a + b)) (k * a + b - (x + b * (1 - a)))
    rw [sub_add_sub_cancel] at e6
    have e7 : (k : Rat) * a + b - (x + b * (1 - a)) = k * a - (x - a * b) := by ring
    rw [e7] at e6
    have e8 : 8 * (2 : Rat) ^ (-149 : Int) ≤ 2 ^ (-140 : Int) := by norm_num
    linarith

theorem replaced_self (l : Bytes) (o n : Nat) : BitsReplaced l l o n (bitsLE l o n) := by
  refine ⟨rfl, ?_⟩
  intro i _
  split
  · rename_i hi
    rw [testBit_bitsLE, decide_eq_true (by omega : i - o < n), Bool.true_and,
      show o + (i - o) = i by omega]
  · rfl

/-- C85: with a multiplier that is a power of two the getter yields exactly the multiple, and writing it
back restores the field; for widths up to the digits of the type. -/
theorem C85_power_of_two (h : Compiled p structs enums d s i v) {n : Nat} (hty : v.info = .float n)
    {k : Int} (_hview : v.view = some (.floatMultiplier (2 ^ k))) (h53 : n ≤ 53) (h32 : n ≠ 32)
    (h1 : -100 ≤ k) (h2 : k ≤ 60) {b aInv bInv : Rat}
    (hp : params n (.floatMultiplier (2 ^ k)) = some (2 ^ k, b, aInv, bInv))
    {dA dB dAi dBi : Rat} (hA : Prints (2 ^ k) dA) (hB : Prints b dB) (hAi : Prints aInv dAi)
    (hBi : Prints bInv dBi) :
    ∃ f fmt, s.fields[i]? = some (.fixed f) ∧ fmtOf f.ty = some fmt ∧
      ∀ buf : Bytes, s.byteSize ≤ buf.length → buf.length < 2 ^ 64 →
        getView p f dA dB fmt buf =
          .ok (.fin (bitsLE buf (declTotal structs (d.fields.take i)) n * 2 ^ k)) ∧
        setView p f dAi dBi fmt buf
          (.fin (bitsLE buf (declTotal structs (d.fields.take i)) n * 2 ^ k)) = .ok buf := by
  obtain ⟨f, fmt, hf, hfm, himp, hraw, hacc⟩ := C85_view h hty
  refine ⟨f, fmt, hf, hfm, ?_⟩
  intro buf hb hl
  obtain ⟨hget, hset⟩ := hacc buf hb hl
  obtain ⟨hinv, rfl⟩ := params_inv hp
  have hb0 : b = 0 := ((C85_multiplier_params n _ _ _ _ _).mp hp).2.2.1
  subst hb0
  rw [neg_zero] at hBi
  have hai : aInv = 2 ^ (-k) := by
    have h64 : Std binary64 := .inr rfl
    unfold Fmt.div at hinv
    rw [if_neg (pow_pos' k).ne', one_div, ← zpow_neg, h64.round (pow_pos' _).le
      (zpow_le_zpow_right₀ (by norm_num) (by omega)), near_rep (rep_pow h64 (by
        simp only [binary64]; omega))] at hinv
    exact (Fl.fin.inj hinv).symm
  rw [hai] at hAi
  have hlt := bitsLE_lt buf (declTotal structs (d.fields.take i)) n
  have hnp : n ≤ fmt.prec := by
    by_cases hn : n ≤ 16
    · rw [(prec_of himp).1 (.inl hn)]; simp only [binary32]; omega
    · rw [(prec_of himp).2 (by omega) h32]; simp only [binary64]; omega
  obtain ⟨g1, g2⟩ := pow_view himp.std h1 h2 hA hAi (bits := f.rawBits)
    (lt_of_lt_of_le hlt (Nat.pow_le_pow_right (by omega) hnp))
    (lt_of_lt_of_le hlt (Nat.pow_le_pow_right (by omega) hraw))
  constructor
  · rw [hget, hB.zero, g1]
  · obtain ⟨out, s1, s2⟩ := hset dAi dBi
      (.fin (bitsLE buf (declTotal structs (d.fields.take i)) n * 2 ^ k))
    rw [hBi.zero] at s1 s2 ⊢
    rw [g2] at s2
    rw [s1, s2.unique (replaced_self _ _ _)]

/-- C85: a 32-bit float view and those of more than 53 bits do not tell all fields apart: two successive
raw values read the same, whatever the parameters. -/
theorem C85_lossy (h : Compiled p structs enums d s i v) {n : Nat} (hty : v.info = .float n)
    (hn : n = 32 ∨ 53 < n) :
    ∃ f fmt k, s.fields[i]? = some (.fixed f) ∧ fmtOf f.ty = some fmt ∧ k + 1 < 2 ^ n ∧
      ∀ buf buf' : Bytes, s.byteSize ≤ buf.length → buf.length < 2 ^ 64 →
        s.byteSize ≤ buf'.length → buf'.length < 2 ^ 64 →
        bitsLE buf (declTotal structs (d.fields.take i)) n = k →
        bitsLE buf' (declTotal structs (d.fields.take i)) n = k + 1 →
        ∀ dA dB, getView p f dA dB fmt buf = getView p f dA dB fmt buf' := by
  obtain ⟨f, fmt, hf, hfm, himp, hraw, hacc⟩ := C85_view h hty
  refine ⟨f, fmt, 2 ^ fmt.prec, hf, hfm, ?_, ?_⟩
  · rcases hn with rfl | hn
    · rw [(prec_of himp).1 (.inr rfl)]; decide
    · rw [(prec_of himp).2 (by omega) (by omega)]
      have : 2 ^ 54 ≤ 2 ^ n := Nat.pow_le_pow_right (by omega) hn
      simp only [binary64]
      omega
  · intro buf buf' hb hl hb' hl' e1 e2 dA dB
    obtain ⟨g1, g2⟩ := round_gap himp.std
    rw [(hacc buf hb hl).1, (hacc buf' hb' hl').1, e1, e2]
    unfold viewGet
    rw [g1, g2]

/-! ## Order -/

theorem round_mono {f : Fmt} (hf : Std f) {x y : Rat} (h : x ≤ y) : FlLe (f.round x) (f.round y) := by
  have hn := near_mono f hf.prec h
  have hp := pow_pos' (f.top + 1)
  have hneg : ∀ q : Rat, q < 0 → f.near q ≤ 0 := by
    intro q hq
    have := near_nonneg f (x := -q) (by linarith)
    rw [near_neg] at this
    linarith
  unfold Fmt.round
  by_cases h1 : |f.near x| < 2 ^ (f.top + 1)
  · rw [if_pos h1]
    by_cases h2 : |f.near y| < 2 ^ (f.top + 1)
    · rw [if_pos h2]; exact hn
    · rw [if_neg h2]
      have hy : ¬ y < 0 := by
        intro hy
        rw [abs_of_nonpos (hneg y hy)] at h2
        have := (abs_lt.mp h1).1
        linarith
      simp [hy, FlLe]
  · rw [if_neg h1]
    by_cases hx : x < 0
    · simp only [hx, decide_true]
      split <;> (try split) <;> simp [FlLe]
    · have hx' := not_lt.mp hx
      rw [abs_of_nonneg (near_nonneg f hx')] at h1
      rw [if_neg (by rw [abs_of_nonneg (near_nonneg f (le_trans hx' h))]; linarith)]
      simp [hx, not_lt.mpr (le_trans hx' h), FlLe]

theorem mul_mono {f : Fmt} (hf : Std f) {c : Rat} (hc : 0 < c) {x y : Fl} (h : FlLe x y) :
    FlLe (f.mul x (.fin c)) (f.mul y (.fin c)) := by
  have hc' : ¬ c < 0 := not_lt.mpr hc.le
  cases x with
  | nan => exact h.elim
  | inf s =>
    cases y with
    | nan => cases s <;> exact h.elim
    | inf t =>
      simp only [Fmt.mul, if_neg hc.ne', hc', decide_false, Bool.bne_false]
      exact h
    | fin y =>
      cases s with
      | false => exact h.elim
      | true =>
        simp only [Fmt.mul, if_neg hc.ne', hc', decide_false, Bool.bne_false]
        unfold Fmt.round
        split <;> simp [FlLe]
  | fin x =>
    cases y with
    | nan => exact h.elim
    | inf t =>
      cases t with
      | true => exact h.elim
      | false =>
        simp only [Fmt.mul, if_neg hc.ne', hc', decide_false, Bool.bne_false]
        unfold Fmt.round
        split
        · simp [FlLe]
        · cases decide (x * c < 0) <;> simp [FlLe]
    | fin y => exact round_mono hf (mul_le_mul_of_nonneg_right h hc.le)

theorem add_mono {f : Fmt} (hf : Std f) (c : Rat) {x y : Fl} (h : FlLe x y) :
    FlLe (f.add x (.fin c)) (f.add y (.fin c)) := by
  cases x with
  | nan => exact h.elim
  | inf s =>
    cases y with
    | nan => cases s <;> exact h.elim
    | inf t => cases s <;> cases t <;> simp_all [Fmt.add, FlLe]
    | fin y =>
      cases s with
      | false => exact h.elim
      | true =>
        simp only [Fmt.add]
        unfold Fmt.round
        split <;> simp [FlLe]
  | fin x =>
    cases y with
    | nan => exact h.elim
    | inf t =>
      cases t with
      | true => exact h.elim
      | false =>
        simp only [Fmt.add]
        unfold Fmt.round
        split
        · simp [FlLe]
        · cases decide (x + c < 0) <;> simp [FlLe]
    | fin y => exact round_mono hf (by linarith [show x ≤ y from h])

theorem toUInt_mono (bits : Nat) {x y : Fl} (h : FlLe x y) : x.toUInt bits ≤ y.toUInt bits := by
  cases x with
  | nan => exact h.elim
  | inf s =>
    cases s with
    | true => simp [Fl.toUInt]
    | false =>
      cases y with
      | nan => exact h.elim
      | inf t => cases t <;> simp_all [FlLe]
      | fin y => exact h.elim
  | fin x =>
    cases y with
    | nan => exact h.elim
    | inf t =>
      cases t with
      | true => exact h.elim
      | false => simp [Fl.toUInt, satCast]
    | fin y =>
      have hm : Rat.floor x ≤ Rat.floor y := Int.floor_mono (show x ≤ y from h)
      simp only [Fl.toUInt, satCast]
      omega

/-- C85: with a positive step the getter preserves the order of the fields, and the setter the order of
what it stores (before a value too large for the field is cut), for any offset. -/
theorem C85_order (h : Compiled p structs enums d s i v) {n : Nat} (hty : v.info = .float n) :
    ∃ f fmt, s.fields[i]? = some (.fixed f) ∧ fmtOf f.ty = some fmt ∧
      (∀ dA dB A B, fmt.round dA = .fin A → 0 < A → fmt.round dB = .fin B →
        ∀ buf buf' : Bytes, s.byteSize ≤ buf.length → buf.length < 2 ^ 64 →
          s.byteSize ≤ buf'.length → buf'.length < 2 ^ 64 →
          bitsLE buf (declTotal structs (d.fields.take i)) n ≤
            bitsLE buf' (declTotal structs (d.fields.take i)) n →
          ∃ x y, getView p f dA dB fmt buf = .ok x ∧ getView p f dA dB fmt buf' = .ok y ∧ FlLe x y) ∧
      (∀ dAi dBi A B, fmt.round dAi = .fin A → 0 < A → fmt.round dBi = .fin B →
        ∀ buf : Bytes, s.byteSize ≤ buf.length → buf.length < 2 ^ 64 → ∀ x y, FlLe x y →
          ∃ out out' k k', setView p f dAi dBi fmt buf x = .ok out ∧
            setView p f dAi dBi fmt buf y = .ok out' ∧
            BitsReplaced buf out (declTotal structs (d.fields.take i)) n k ∧
            BitsReplaced buf out' (declTotal structs (d.fields.take i)) n k' ∧ k ≤ k' ∧
            k' < 2 ^ f.rawBits) := by
  obtain ⟨f, fmt, hf, hfm, himp, hraw, hacc⟩ := C85_view h hty
  refine ⟨f, fmt, hf, hfm, ?_, ?_⟩
  · intro dA dB A B hA hpos hB buf buf' hb hl hb' hl' hle
    refine ⟨_, _, (hacc buf hb hl).1 dA dB, (hacc buf' hb' hl').1 dA dB, ?_⟩
    unfold viewGet
    rw [hA, hB]
    exact add_mono himp.std _ (mul_mono himp.std hpos (round_mono himp.std (by exact_mod_cast hle)))
  · intro dAi dBi A B hA hpos hB buf hb hl x y hxy
    obtain ⟨out, s1, s2⟩ := (hacc buf hb hl).2 dAi dBi x
    obtain ⟨out', s1', s2'⟩ := (hacc buf hb hl).2 dAi dBi y
    refine ⟨out, out', _, _, s1, s1', s2, s2', ?_, ?_⟩
    · unfold viewSet
      rw [hA, hB]
      exact toUInt_mono _ (add_mono himp.std _ (mul_mono himp.std hpos hxy))
    · unfold viewSet
      have hp := Nat.two_pow_pos f.rawBits
      generalize fmt.add _ _ = z
      cases z with
      | nan => simpa [Fl.toUInt] using hp
      | inf s => cases s <;> simp [Fl.toUInt]
      | fin q => simp only [Fl.toUInt, satCast]; omega

/-- C85: special values: NaN and negative infinity store 0, infinity stores ones in all bits of the field
(views with a positive step); where the offset is not negative, so that the setter subtracts, negative
numbers store 0 too. -/
theorem C85_special (h : Compiled p structs enums d s i v) {n : Nat} (hty : v.info = .float n) :
    ∃ f fmt, s.fields[i]? = some (.fixed f) ∧ fmtOf f.ty = some fmt ∧
      ∀ dAi A dBi B, fmt.round dAi = .fin A → 0 < A → fmt.round dBi = .fin B →
        ∀ buf : Bytes, s.byteSize ≤ buf.length → buf.length < 2 ^ 64 →
          (∀ x, (x = .nan ∨ x = .inf true ∨ B ≤ 0 ∧ ∃ q, q ≤ 0 ∧ x = .fin q) →
            ∃ out, setView p f dAi dBi fmt buf x = .ok out ∧
              BitsReplaced buf out (declTotal structs (d.fields.take i)) n 0) ∧
          ∃ out, setView p f dAi dBi fmt buf (.inf false) = .ok out ∧
            BitsReplaced buf out (declTotal structs (d.fields.take i)) n (2 ^ n - 1) := by
  obtain ⟨f, fmt, hf, hfm, himp, hraw, hacc⟩ := C85_view h hty
  refine ⟨f, fmt, hf, hfm, ?_⟩
  intro dAi A dBi B hA hpos hB buf hb hl
  have hA' : ¬ A < 0 := not_lt.mpr hpos.le
  constructor
  · intro x hx
    obtain ⟨out, s1, s2⟩ := (hacc buf hb hl).2 dAi dBi x
    refine ⟨out, s1, ?_⟩
    have e : viewSet fmt f.rawBits dAi dBi x = 0 := by
      unfold viewSet
      rw [hA, hB]
      rcases hx with rfl | rfl | ⟨hB0, q, hq, rfl⟩
      · rfl
      · simp [Fmt.mul, Fmt.add, Fl.toUInt, hpos.ne', hA']
      · have h1 := toUInt_mono f.rawBits (add_mono himp.std B (mul_mono himp.std hpos
          (show FlLe (.fin q) (.fin 0) from hq)))
        have h2 := toUInt_mono f.rawBits (round_mono himp.std (show 0 + B ≤ 0 by linarith))
        have h3 : (fmt.round 0).toUInt f.rawBits = 0 := by
          rw [round_zero himp.std]
          simp only [Fl.toUInt, satCast]
          have : Rat.floor 0 = 0 := rfl
          rw [this]
          simp
        have h4 : fmt.add (fmt.mul (.fin 0) (.fin A)) (.fin B) = fmt.round (0 + B) := by
          simp only [Fmt.mul, zero_mul, round_zero himp.std, Fmt.add]
        rw [h4] at h1
        omega
    rwa [e] at s2
  · obtain ⟨out, s1, s2⟩ := (hacc buf hb hl).2 dAi dBi (.inf false)
    refine ⟨out, s1, ?_⟩
    have e : viewSet fmt f.rawBits dAi dBi (.inf false) = 2 ^ f.rawBits - 1 := by
      unfold viewSet
      rw [hA, hB]
      simp [Fmt.mul, Fmt.add, Fl.toUInt, hpos.ne', hA']
    rw [e] at s2
    refine ⟨s2.1, ?_⟩
    intro j hj
    rw [s2.2 j hj]
    split
    · rename_i hh
      rw [Nat.testBit_two_pow_sub_one, Nat.testBit_two_pow_sub_one,
        decide_eq_true (by omega : j - _ < f.rawBits), decide_eq_true (by omega : j - _ < n)]
    · rfl

/-- C85: the operations on infinities and NaN are those of IEEE 754: both commute and spread NaN; infinity
times a number is infinite with the sign of the product, or NaN for 0; adding to infinity changes nothing,
except that opposite infinities give NaN; dividing by zero gives infinity with the sign of the dividend, or
NaN for 0. -/
theorem C85_infinite (f : Fmt) :
    (∀ x y, f.mul x y = f.mul y x ∧ f.add x y = f.add y x) ∧
    (∀ x, f.mul x .nan = .nan ∧ f.add x .nan = .nan) ∧
    (∀ q : Rat, 0 < q → ∀ sign, f.mul (.fin q) (.inf sign) = .inf sign ∧
      f.mul (.fin (-q)) (.inf sign) = .inf (!sign)) ∧
    (∀ sign, f.mul (.fin 0) (.inf sign) = .nan ∧ f.mul (.inf sign) (.inf sign) = .inf false ∧
      f.mul (.inf sign) (.inf (!sign)) = .inf true) ∧
    (∀ sign, (∀ q, f.add (.fin q) (.inf sign) = .inf sign) ∧
      f.add (.inf sign) (.inf sign) = .inf sign ∧ f.add (.inf sign) (.inf (!sign)) = .nan) ∧
    (∀ q : Rat, 0 < q → f.div q 0 = .inf false ∧ f.div (-q) 0 = .inf true) ∧ f.div 0 0 = .nan := by
  refine ⟨?_, ?_, ?_, ?_, ?_, ?_, by simp [Fmt.div]⟩
  · intro x y
    cases x <;> cases y <;> simp [Fmt.mul, Fmt.add, mul_comm, add_comm]
    rename_i s t
    cases s <;> cases t <;> simp
  · intro x
    cases x <;> exact ⟨rfl, rfl⟩
  · intro q hq sign
    have h1 : ¬ q < 0 := not_lt.mpr hq.le
    cases sign <;> simp [Fmt.mul, hq.ne', h1, hq]
  · intro sign
    cases sign <;> simp [Fmt.mul]
  · intro sign
    cases sign <;> simp [Fmt.add]
  · intro q hq
    have h1 : ¬ q < 0 := not_lt.mpr hq.le
    simp [Fmt.div, hq.ne', h1, hq]

/-- A number above the range of `f32` is infinite there, and 0 times it is NaN. -/
example : binary32.mul (.fin 0) (.inf false) = .nan ∧ binary32.mul (.fin 3) (.inf true) = .inf true ∧
    binary64.div (-5) 0 = .inf true :=
  have h := C85_infinite binary32
  ⟨(h.2.2.2.1 false).1, (h.2.2.1 3 (by norm_num) true).1,
    ((C85_infinite binary64).2.2.2.2.2.1 5 (by norm_num)).2⟩

/-! ## The views of `testprog/src/views.json5` -/

/-- The parameters of `Floats.a`. -/
theorem fixture_params : params 17 (.floatRange 0 10) =
    some (5629542484213763 * 2 ^ (-66 : Int), 0, 7205704428211404 * 2 ^ (-39 : Int), 0) := by
  have h64 : Std binary64 := .inr rfl
  have n1 : binary64.near (10 / ((2 ^ 17 - 1 : Nat) : Rat)) = 5629542484213763 * 2 ^ (-66 : Int) := by
    have := near_eq binary64 (10 / ((2 ^ 17 - 1 : Nat) : Rat)) 5629542484213763 (-66)
    rw [abs_of_nonneg (by positivity)] at this
    rw [this (by norm_num [binary64]) (by norm_num [binary64]) (by decide) (by
      rw [abs_lt]; constructor <;> norm_num)]
    norm_num
  have n2 : binary64.near (1 / (5629542484213763 * 2 ^ (-66 : Int))) =
      7205704428211404 * 2 ^ (-39 : Int) := by
    have := near_eq binary64 (1 / (5629542484213763 * 2 ^ (-66 : Int))) 7205704428211404 (-39)
    rw [abs_of_nonneg (by positivity)] at this
    rw [this (by norm_num [binary64]) (by norm_num [binary64]) (by decide) (by
      rw [abs_lt]; constructor <;> norm_num)]
    norm_num
  unfold params
  simp only [round_nat h64 (show 2 ^ 17 - 1 < 2 ^ binary64.prec by decide)]
  have d1 : binary64.div 10 ((2 ^ 17 - 1 : Nat) : Rat) = .fin (5629542484213763 * 2 ^ (-66 : Int)) := by
    unfold Fmt.div
    rw [if_neg (by norm_num), h64.round (by positivity) (by norm_num), n1]
  have d2 : binary64.div 1 (5629542484213763 * 2 ^ (-66 : Int)) =
      .fin (7205704428211404 * 2 ^ (-39 : Int)) := by
    unfold Fmt.div
    rw [if_neg (by norm_num), h64.round (by positivity) (by norm_num), n2]
  simp only [d1, d2, neg_zero]

/-- C85: the float range of `testprog/src/views.json5` (17 bits, 0 to 10) loses a step: reading the raw
value 3 and writing the result back stores 2, and writing the declared maximum stores 131070 instead of
131071. -/
theorem C85_fixture (h : Compiled p structs enums d s i v) (hty : v.info = .float 17)
    (_hview : v.view = some (.floatRange 0 10)) {a b aInv bInv : Rat}
    (hp : params 17 (.floatRange 0 10) = some (a, b, aInv, bInv)) {dA dB dAi dBi : Rat}
    (hA : Prints a dA) (hB : Prints b dB) (hAi : Prints aInv dAi) (hBi : Prints bInv dBi) :
    ∃ f fmt, s.fields[i]? = some (.fixed f) ∧ fmtOf f.ty = some fmt ∧
      ∀ buf : Bytes, s.byteSize ≤ buf.length → buf.length < 2 ^ 64 →
        (bitsLE buf (declTotal structs (d.fields.take i)) 17 = 3 →
          ∃ x out, getView p f dA dB fmt buf = .ok x ∧ setView p f dAi dBi fmt buf x = .ok out ∧
            bitsLE out (declTotal structs (d.fields.take i)) 17 = 2) ∧
        ∃ out, setView p f dAi dBi fmt buf (.fin 10) = .ok out ∧
          bitsLE out (declTotal structs (d.fields.take i)) 17 = 131070 := by
  obtain ⟨f, fmt, hf, hfm, himp, hraw, hacc⟩ := C85_view h hty
  refine ⟨f, fmt, hf, hfm, ?_⟩
  intro buf hb hl
  obtain ⟨hget, hset⟩ := hacc buf hb hl
  have h64 : Std binary64 := .inr rfl
  have hfmt : fmt = binary64 := (prec_of himp).2 (by omega) (by omega)
  subst hfmt
  rw [fixture_params] at hp
  simp only [Option.some.injEq, Prod.mk.injEq] at hp
  obtain ⟨rfl, rfl, rfl, rfl⟩ := hp
  obtain ⟨f', hf', hc⟩ := h.get (bits := 17) (by rw [hty]; rfl)
  have hfit := hc.fits
  have lA := hA.1
  have lAi := hAi.1
  have n3 : binary64.near (3 * (5629542484213763 * 2 ^ (-66 : Int))) = 8444313726320644 * 2 ^ (-65 : Int) := by
    have hu : binary64.ulp (3 * (5629542484213763 * 2 ^ (-66 : Int))) = -65 := by
      apply ulp_eq
      · rw [abs_of_nonneg (by positivity)]; norm_num [binary64]
      · rw [abs_of_nonneg (by positivity)]; norm_num [binary64]
      · decide
    have hfl : ⌊(3 * (5629542484213763 * 2 ^ (-66 : Int)) / 2 ^ (-65 : Int) : Rat)⌋ = 8444313726320644 := by
      rw [Int.floor_eq_iff]
      constructor <;> norm_num
    unfold Fmt.near
    rw [hu]
    unfold halfEven
    rw [hfl]
    norm_num
  have n4 : binary64.near (8444313726320644 * 2 ^ (-65 : Int) * (7205704428211404 * 2 ^ (-39 : Int))) =
      6755399441055743 * 2 ^ (-51 : Int) := by
    have := near_eq binary64 (8444313726320644 * 2 ^ (-65 : Int) * (7205704428211404 * 2 ^ (-39 : Int)))
      6755399441055743 (-51)
    rw [abs_of_nonneg (by positivity)] at this
    rw [this (by norm_num [binary64]) (by norm_num [binary64]) (by decide) (by
      rw [abs_lt]; constructor <;> norm_num)]
    norm_num
  have n5 : binary64.near (10 * (7205704428211404 * 2 ^ (-39 : Int))) =
      9007130535264255 * 2 ^ (-36 : Int) := by
    have := near_eq binary64 (10 * (7205704428211404 * 2 ^ (-39 : Int))) 9007130535264255 (-36)
    rw [abs_of_nonneg (by positivity)] at this
    rw [this (by norm_num [binary64]) (by norm_num [binary64]) (by decide) (by
      rw [abs_lt]; constructor <;> norm_num)]
    norm_num
  have cast : ∀ {q : Rat} {k : Nat}, (k : Rat) ≤ q → q < k + 1 → k < 2 ^ 17 →
      satCast f.rawBits q = k := by
    intro q k h1 h2 h3
    have e : Rat.floor q = k := by
      have : ⌊q⌋ = (k : Int) := by
        rw [Int.floor_eq_iff]; push_cast; exact ⟨h1, h2⟩
      exact this
    have : 2 ^ 17 ≤ 2 ^ f.rawBits := Nat.pow_le_pow_right (by omega) hraw
    unfold satCast
    rw [e]
    omega
  constructor
  · intro hr
    have g : viewGet binary64 dA dB 3 = .fin (8444313726320644 * 2 ^ (-65 : Int)) := by
      unfold viewGet
      rw [hB.zero, round_nat h64 (show 3 < 2 ^ binary64.prec by decide), lA, round_zero h64]
      simp only [Fmt.mul]
      push_cast
      rw [h64.round (by positivity) (by norm_num), n3]
      simp only [Fmt.add]
      rw [add_zero, ← n3, h64.round (near_nonneg _ (by positivity)) (by rw [n3]; norm_num),
        near_idem _ h64.prec]
    obtain ⟨out, s1, s2⟩ := hset dAi dBi (.fin (8444313726320644 * 2 ^ (-65 : Int)))
    refine ⟨_, out, by rw [hget, hr, g], s1, ?_⟩
    have e : viewSet binary64 f.rawBits dAi dBi (.fin (8444313726320644 * 2 ^ (-65 : Int))) = 2 := by
      unfold viewSet
      rw [hBi.zero, lAi, round_zero h64]
      simp only [Fmt.mul]
      rw [h64.round (by positivity) (by norm_num), n4]
      simp only [Fmt.add]
      rw [add_zero, ← n4, h64.round (near_nonneg _ (by positivity)) (by rw [n4]; norm_num),
        near_idem _ h64.prec, n4]
      simp only [Fl.toUInt]
      exact cast (by norm_num) (by norm_num) (by norm_num)
    rw [s2.bitsLE_eq (by omega), e]
  · obtain ⟨out, s1, s2⟩ := hset dAi dBi (.fin 10)
    refine ⟨out, s1, ?_⟩
    have e : viewSet binary64 f.rawBits dAi dBi (.fin 10) = 131070 := by
      unfold viewSet
      rw [hBi.zero, lAi, round_zero h64]
      simp only [Fmt.mul]
      rw [h64.round (by positivity) (by norm_num), n5]
      simp only [Fmt.add]
      rw [add_zero, ← n5, h64.round (near_nonneg _ (by positivity)) (by rw [n5]; norm_num),
        near_idem _ h64.prec, n5]
      simp only [Fl.toUInt]
      exact cast (by norm_num) (by norm_num) (by norm_num)
    rw [s2.bitsLE_eq (by omega), e]

namespace Ex

def floatsModel : Model.Structure where
  name := "Floats".toList
  fields := [
    { name := ['a'], info := .float 17, view := some (.floatRange 0 10) },
    { name := ['b'], info := .float 7, view := some (.floatMultiplier (1 / 8)) },
    { name := ['c'], info := .float 32, view := some (.floatMultiplier 3) },
    { name := ['d'], info := .float 8, view := some (.floatRange 100 510) }]

/-- The compiled structure. -/
def floatsC : Structure := .mk 0 "Floats".toList [
    .fixed { name := ['a'], ty := .f64, loc := ⟨0, 0, 3, 17⟩,
             view := .float (10 / 131071) 0 (1 / (10 / 131071)) (-0), endian := .little },
    .fixed { name := ['b'], ty := .f32, loc := ⟨2, 1, 1, 7⟩, view := .float (1 / 8) 0 (1 / (1 / 8)) 0,
             endian := .little },
    .fixed { name := ['c'], ty := .f32, loc := ⟨3, 0, 4, 32⟩, view := .float 3 0 (1 / 3) 0,
             endian := .little },
    .fixed { name := ['d'], ty := .f32, loc := ⟨7, 0, 1, 8⟩,
             view := .float (510 / 255) 100 (1 / (510 / 255)) (-100), endian := .little }]
    8 64

theorem floats_compiled (i : Nat) (v : Model.SField) (h : floatsModel.fields[i]? = some v)
    (ha : v.arrayLen = none) : Compiled .checked [] [] floatsModel floatsC i v :=
  ⟨(by intro n t h; cases h), ⟨0, rfl⟩, .inl rfl,
   by simp [floatsC, Structure.WellPlaced, SField.listWellPlaced, SField.WellPlaced], h, ha⟩

/-- A finite `f64` prints as itself. -/
theorem prints_self {x : Rat} (h : F64.isNumber x) : Prints x x := by
  obtain ⟨h1, h2⟩ := (Implements.number (f := binary64) (.inr ⟨rfl, rfl⟩) x).mp h
  refine ⟨?_, fun h => h⟩
  unfold Fmt.round
  rw [near_rep h1, if_pos h2]

theorem prints_a : Prints (5629542484213763 * 2 ^ (-66 : Int)) (5629542484213763 * 2 ^ (-66 : Int)) :=
  prints_self ⟨5629542484213763, -66, by norm_num, by norm_num, by norm_num, by norm_num⟩
theorem prints_ai : Prints (7205704428211404 * 2 ^ (-39 : Int)) (7205704428211404 * 2 ^ (-39 : Int)) :=
  prints_self ⟨7205704428211404, -39, by norm_num, by norm_num, by norm_num, by norm_num⟩
theorem prints_zero : Prints 0 0 := prints_self ⟨0, 0, by norm_num, by norm_num, by norm_num, by norm_num⟩

/-- The parameters of the multiplier 1/8. -/
theorem eighth_params : params 7 (.floatMultiplier (2 ^ (-3 : Int))) = some (2 ^ (-3 : Int), 0, 8, 0) := by
  have h64 : Std binary64 := .inr rfl
  have d : binary64.div 1 (2 ^ (-3 : Int)) = .fin 8 := by
    unfold Fmt.div
    rw [if_neg (by norm_num), show (1 : Rat) / 2 ^ (-3 : Int) = ((8 : Nat) : Rat) by norm_num,
      round_nat h64 (by decide)]
    norm_num
  unfold params
  simp only [d]

/-- The parameters of the range 100 to 510 on 8 bits. -/
theorem range_params : params 8 (.floatRange 100 510) = some (2, 100, 1 / 2, -100) := by
  have h64 : Std binary64 := .inr rfl
  have d : binary64.div 510 ((2 ^ 8 - 1 : Nat) : Rat) = .fin 2 := by
    unfold Fmt.div
    rw [if_neg (by norm_num), show (510 : Rat) / ((2 ^ 8 - 1 : Nat) : Rat) = ((2 : Nat) : Rat) by norm_num,
      round_nat h64 (by decide)]
    norm_num
  have d' : binary64.div 1 2 = .fin (1 / 2) := by
    unfold Fmt.div
    rw [if_neg (by norm_num), h64.round (by positivity) (by norm_num),
      near_rep ⟨1, -1, by norm_num, by decide, by decide⟩]
  unfold params
  simp only [round_nat h64 (show 2 ^ 8 - 1 < 2 ^ binary64.prec by decide), d, d']

example := C85_read (floats_compiled 3 _ rfl rfl) rfl rfl (by norm_num) (by norm_num) range_params
  (by norm_num) (by norm_num) (by norm_num)
  (prints_self ⟨2, 0, by norm_num, by norm_num, by norm_num, by norm_num⟩)
  (prints_self ⟨100, 0, by norm_num, by norm_num, by norm_num, by norm_num⟩)
  (prints_self ⟨1, -1, by norm_num, by norm_num, by norm_num, by norm_num⟩)

/-- A range from 100 to 510 on 8 bits: 300 is written, about 200 is read. -/
example : ∃ f fmt, floatsC.fields[3]? = some (.fixed f) ∧ fmtOf f.ty = some fmt ∧
    ∀ buf : Bytes, 8 ≤ buf.length → buf.length < 2 ^ 64 →
      ∃ out y, setView .checked f (1 / 2) (-100) fmt buf (.fin 300) = .ok out ∧
        getView .checked f 2 100 fmt out = .ok (.fin y) ∧ y ≤ 205 := by
  obtain ⟨f, fmt, hf, hfm, h⟩ := C85_offset (floats_compiled 3 _ rfl rfl) rfl rfl (by norm_num) (by norm_num)
    range_params (by norm_num) (by norm_num)
    (by norm_num [floatType, F32])
    (prints_self ⟨2, 0, by norm_num, by norm_num, by norm_num, by norm_num⟩)
    (prints_self ⟨100, 0, by norm_num, by norm_num, by norm_num, by norm_num⟩)
    (prints_self ⟨1, -1, by norm_num, by norm_num, by norm_num, by norm_num⟩)
    (prints_self ⟨-100, 0, by norm_num, by norm_num, by norm_num, by norm_num⟩)
  refine ⟨f, fmt, hf, hfm, ?_⟩
  intro buf hb hl
  obtain ⟨out, k, y, s1, -, -, s2, s3⟩ := h buf hb hl 300 (by norm_num) (by norm_num)
  refine ⟨out, y, s1, s2, ?_⟩
  have := (abs_le.mp s3).2
  norm_num [floatType, F32] at this ⊢
  linarith

example := C85_view (floats_compiled 0 _ rfl rfl) rfl
example := C85_reread (floats_compiled 0 _ rfl rfl) rfl rfl (by norm_num) (by norm_num) fixture_params
  (by norm_num) (by norm_num) prints_a prints_zero prints_ai prints_zero
example := C85_write_read (floats_compiled 0 _ rfl rfl) rfl rfl (by norm_num) (by norm_num) fixture_params
  (by norm_num) (by norm_num) prints_a prints_zero prints_ai prints_zero
example := C85_fixture (floats_compiled 0 _ rfl rfl) rfl rfl fixture_params prints_a prints_zero prints_ai
  prints_zero
example := C85_power_of_two (k := -3) (floats_compiled 1 _ rfl rfl) rfl
  (congrArg (fun x => some (Model.FieldView.floatMultiplier x)) (by norm_num)) (by norm_num) (by norm_num)
  (by norm_num) (by norm_num) eighth_params
  (prints_self ⟨1, -3, by norm_num, by norm_num, by norm_num, by norm_num⟩) prints_zero
  (prints_self ⟨8, 0, by norm_num, by norm_num, by norm_num, by norm_num⟩) prints_zero
example := C85_lossy (floats_compiled 2 _ rfl rfl) rfl (.inl rfl)
example := C85_order (floats_compiled 1 _ rfl rfl) rfl
example := C85_special (floats_compiled 1 _ rfl rfl) rfl
example : FlLe (.inf true) (.fin 3) ∧ FlLe (.fin 2) (.fin 3) ∧ ¬ FlLe .nan (.fin 3) := by
  refine ⟨trivial, ?_, nofun⟩
  change (2 : Rat) ≤ 3
  norm_num

end Ex

end Proto.Props
