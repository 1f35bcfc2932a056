import Verif.Float.Views

/-!
# Errors of views with an offset
-/

namespace Proto.Ieee

/-- The error of rounding any number. -/
theorem near_abs {f : Fmt} (hf : Std f) (q : Rat) : |f.near q - q| ≤ f.u * |q| + 2 ^ (-149 : Int) := by
  have hu := hf.u.1
  have hq := abs_nonneg q
  have ht := pow_pos' (-149)
  by_cases hn : f.Normal q
  · have h := near_relative hn
    unfold Fmt.u
    linarith
  · by_cases h0 : q = 0
    · subst h0
      rw [near_zero, sub_zero, abs_zero]
      linarith
    · have hl : Int.log 2 |q| < f.least + f.prec - 1 := by
        by_contra hc
        apply hn
        unfold Fmt.Normal
        exact le_trans (zpow_le_zpow_right₀ (by norm_num) (not_lt.mp hc)) (log_bounds h0).1
      have e : f.ulp q = f.least := by unfold Fmt.ulp; omega
      have h := near_error f q
      rw [e] at h
      have : (2 : Rat) ^ f.least ≤ 2 ^ (-149 : Int) :=
        zpow_le_zpow_right₀ (by norm_num) (by rcases hf with rfl | rfl <;> decide)
      have := pow_pos' f.least
      have := mul_nonneg hu.le hq
      linarith

theorem Std.round_abs {f : Fmt} (h : Std f) {q : Rat} (h2 : |q| ≤ 2 ^ (127 : Int)) :
    f.round q = .fin (f.near q) :=
  round_fin f h.prec h.range.1 (le_trans h2 (zpow_le_zpow_right₀ (by norm_num) h.range.2.2))

/-- The literal of an offset. -/
theorem literal_offset {f : Fmt} (hf : Std f) {x d : Rat} (h : Prints x d) (h2 : |x| ≤ 2 ^ (110 : Int)) :
    f.round d = .fin (f.near d) ∧ |f.near d - x| ≤ 3 * f.u * |x| + 3 * 2 ^ (-149 : Int) := by
  obtain ⟨u0, u1, u2⟩ := hf.u
  have h64 : Std binary64 := .inr rfl
  obtain ⟨v0, -, -⟩ := h64.u
  have e : binary64.near d = x := by
    have := h.1
    unfold Fmt.round at this
    split at this
    · exact Fl.fin.inj this
    · cases this
  have n1 := near_abs h64 d
  have n2 := near_abs hf d
  rw [e] at n1
  have hd0 := abs_nonneg d
  have hx0 := abs_nonneg x
  have ht := pow_pos' (-149)
  have ht' : (2 : Rat) ^ (-149 : Int) ≤ 1 := by norm_num
  have m1 : binary64.u * |d| ≤ f.u * |d| := mul_le_mul_of_nonneg_right u2 hd0
  have m2 : f.u * |d| ≤ 1 / 16777216 * |d| := mul_le_mul_of_nonneg_right u1 hd0
  have t1 : |d| ≤ |x| + |x - d| := by
    have := abs_sub_abs_le_abs_sub d x
    rw [abs_sub_comm] at this
    linarith
  have hd' : |d| ≤ 3 / 2 * |x| + 3 / 2 * 2 ^ (-149 : Int) := by
    generalize (2 : Rat) ^ (-149 : Int) = t at *
    linarith
  have hd : |d| ≤ 2 * |x| + 2 * 2 ^ (-149 : Int) := by
    generalize (2 : Rat) ^ (-149 : Int) = t at *
    linarith
  constructor
  · refine hf.round_abs (le_trans hd ?_)
    have e1 : (2 : Rat) ^ (110 : Int) * 2 + 2 ≤ 2 ^ (127 : Int) := by norm_num
    linarith
  · have t2 : |f.near d - x| ≤ |f.near d - d| + |x - d| := by
      rw [abs_sub_comm x d]
      have := abs_add_le (f.near d - d) (d - x)
      rwa [sub_add_sub_cancel] at this
    have m3 : f.u * |d| ≤ f.u * (3 / 2 * |x| + 3 / 2 * 2 ^ (-149 : Int)) :=
      mul_le_mul_of_nonneg_left hd' u0.le
    have m4 : f.u * 2 ^ (-149 : Int) ≤ 1 / 16777216 * 2 ^ (-149 : Int) :=
      mul_le_mul_of_nonneg_right u1 ht.le
    generalize (2 : Rat) ^ (-149 : Int) = t at *
    nlinarith

/-- The error of `x * A + B`, where `A` and `B` approximate `a` and `b`. -/
theorem linear_error {f : Fmt} (hf : Std f) {x A B a b : Rat} (ha : 0 ≤ a)
    (hA : |A - a| ≤ 5 * f.u * a) (hB : |B - b| ≤ 3 * f.u * |b| + 3 * 2 ^ (-149 : Int)) :
    |x * A| ≤ 2 * (|x| * a) ∧ |f.near (x * A) + B| ≤ 2 * (|x| * a + |b|) + 1 ∧
    |f.near (f.near (x * A) + B) - (x * a + b)| ≤
      10 * f.u * (|x| * a + |b|) + 8 * 2 ^ (-149 : Int) := by
  obtain ⟨u0, u1, -⟩ := hf.u
  have ht := pow_pos' (-149)
  have ht' : (2 : Rat) ^ (-149 : Int) ≤ 1 / 16 := by norm_num
  have n1 := near_abs hf (x * A)
  have n2 := near_abs hf (f.near (x * A) + B)
  have hX0 : 0 ≤ |x| * a := mul_nonneg (abs_nonneg x) ha
  have hQ0 := abs_nonneg b
  have e1 : |x * A - x * a| ≤ 5 * (f.u * (|x| * a)) := by
    rw [← mul_sub, abs_mul]
    have := mul_le_mul_of_nonneg_left hA (abs_nonneg x)
    linarith
  have e2 : |x * a| = |x| * a := by rw [abs_mul, abs_of_nonneg ha]
  have m1 : f.u * (|x| * a) ≤ 1 / 16777216 * (|x| * a) := mul_le_mul_of_nonneg_right u1 hX0
  have m2 : f.u * |b| ≤ 1 / 16777216 * |b| := mul_le_mul_of_nonneg_right u1 hQ0
  have m0 : 0 ≤ f.u * (|x| * a) := mul_nonneg u0.le hX0
  have m0' : 0 ≤ f.u * |b| := mul_nonneg u0.le hQ0
  have t1 : |x * A| ≤ |x| * a + 5 * (f.u * (|x| * a)) := by
    have := abs_add_le (x * a) (x * A - x * a)
    rw [add_sub_cancel] at this
    linarith
  have m3 : f.u * |x * A| ≤ f.u * (|x| * a + 5 * (f.u * (|x| * a))) := mul_le_mul_of_nonneg_left t1 u0.le
  have m4 : f.u * (f.u * (|x| * a)) ≤ 1 / 16777216 * (f.u * (|x| * a)) := mul_le_mul_of_nonneg_right u1 m0
  have m5 : f.u * (f.u * |b|) ≤ 1 / 16777216 * (f.u * |b|) := mul_le_mul_of_nonneg_right u1 m0'
  have m6 : f.u * 2 ^ (-149 : Int) ≤ 1 / 16777216 * 2 ^ (-149 : Int) :=
    mul_le_mul_of_nonneg_right u1 ht.le
  generalize hX : |x| * a = X at *
  generalize hQ : |b| = Q at *
  generalize (2 : Rat) ^ (-149 : Int) = t at *
  generalize f.near (x * A) = m at *
  generalize f.near (m + B) = y at *
  have g1 : |m - x * a| ≤ 7 * (f.u * X) + t := by
    have := abs_add_le (m - x * A) (x * A - x * a)
    rw [sub_add_sub_cancel] at this
    linarith
  have g2 : |m + B - (x * a + b)| ≤ 7 * (f.u * X) + 3 * (f.u * Q) + 4 * t := by
    have := abs_add_le (m - x * a) (B - b)
    have e : m - x * a + (B - b) = m + B - (x * a + b) := by ring
    rw [e] at this
    linarith
  have g3 : |x * a + b| ≤ X + Q := by
    have := abs_add_le (x * a) b
    linarith
  have g4 : |m + B| ≤ X + Q + (7 * (f.u * X) + 3 * (f.u * Q) + 4 * t) := by
    have := abs_add_le (x * a + b) (m + B - (x * a + b))
    rw [add_sub_cancel] at this
    linarith
  refine ⟨by linarith, by linarith, ?_⟩
  have g5 : f.u * |m + B| ≤ f.u * (X + Q + (7 * (f.u * X) + 3 * (f.u * Q) + 4 * t)) :=
    mul_le_mul_of_nonneg_left g4 u0.le
  have g6 := abs_add_le (y - (m + B)) (m + B - (x * a + b))
  rw [sub_add_sub_cancel] at g6
  linarith

theorem Consts.near {f : Fmt} (hf : Std f) {a dA dI : Rat} (c : Consts f a dA dI) :
    |f.near dA - a| ≤ 5 * f.u * a ∧ |f.near dI - 1 / a| ≤ 5 * f.u * (1 / a) := by
  obtain ⟨u0, u1, -⟩ := hf.u
  have a0 : 0 < a := lt_of_lt_of_le (pow_pos' _) c.range.1
  have hlo := c.lo
  have hhi := c.hi
  have hil := c.ilo
  have hih := c.ihi
  have w : f.u * f.u ≤ 1 / 16777216 * f.u := mul_le_mul_of_nonneg_right u1 u0.le
  have wa : a * (f.u * f.u) ≤ 1 / 16777216 * (a * f.u) := by
    have := mul_le_mul_of_nonneg_left w a0.le
    linarith
  have pa : 0 < a * f.u := mul_pos a0 u0
  have pu : 0 < f.u * f.u := mul_pos u0 u0
  have pau : 0 < a * (f.u * f.u) := mul_pos a0 pu
  generalize f.near dA = A at *
  have hI : 0 < f.near dI := c.posI
  generalize f.near dI = I at *
  constructor
  · rw [abs_le]
    constructor
    · refine le_of_mul_le_mul_right (a := 1 + f.u) ?_ (by linarith)
      linarith
    · refine le_of_mul_le_mul_right (a := 1 - f.u) ?_ (by linarith)
      linarith
  · have e : |a * I - 1| ≤ 5 * f.u := by
      rw [abs_le]
      constructor
      · refine le_of_mul_le_mul_right (a := 1 + f.u) ?_ (by linarith)
        linarith
      · refine le_of_mul_le_mul_right (a := 1 - f.u) ?_ (by linarith)
        linarith
    have e2 : I - 1 / a = (a * I - 1) * (1 / a) := by field_simp
    rw [e2, abs_mul, abs_of_pos (show 0 < 1 / a by positivity)]
    exact mul_le_mul_of_nonneg_right e (by positivity)

/-- What the getter computes. -/
theorem viewGet_offset {f : Fmt} (hf : Std f) {a b dA dB dI : Rat} (c : Consts f a dA dI)
    (hB : Prints b dB) (hb : |b| ≤ 2 ^ (60 : Int)) {k : Nat} (hk : k < 2 ^ f.prec) (hn : k < 2 ^ 53) :
    ∃ y, viewGet f dA dB k = .fin y ∧
      |y - (k * a + b)| ≤ 10 * f.u * (k * a + |b|) + 8 * 2 ^ (-149 : Int) := by
  have a0 : 0 < a := lt_of_lt_of_le (pow_pos' _) c.range.1
  obtain ⟨l1, l2⟩ := literal_offset hf hB (le_trans hb (by norm_num))
  have hkr : (k : Rat) ≤ 2 ^ (53 : Int) := by exact_mod_cast hn.le
  have hka : (k : Rat) * a ≤ 2 ^ (113 : Int) := by
    calc (k : Rat) * a ≤ 2 ^ (53 : Int) * 2 ^ (60 : Int) :=
          mul_le_mul hkr c.range.2 a0.le (pow_pos' _).le
      _ = _ := by norm_num
  obtain ⟨g1, g2, g3⟩ := linear_error hf (x := k) a0.le (c.near hf).1 l2
  rw [abs_of_nonneg (show (0 : Rat) ≤ k by positivity)] at g1 g2 g3
  refine ⟨_, ?_, g3⟩
  unfold viewGet
  rw [round_nat hf hk, c.lit, l1]
  simp only [Fmt.mul]
  rw [hf.round_abs (le_trans g1 (by
    have : (2 : Rat) ^ (113 : Int) * 2 ≤ 2 ^ (127 : Int) := by norm_num
    linarith))]
  simp only [Fmt.add]
  rw [hf.round_abs (le_trans g2 (by
    have : (2 : Rat) ^ (113 : Int) * 2 + 2 * 2 ^ (60 : Int) + 1 ≤ 2 ^ (127 : Int) := by norm_num
    linarith))]

/-- What the setter computes, of a number the field can hold. -/
theorem viewSet_offset {f : Fmt} (hf : Std f) {a b dA dB dI : Rat} (c : Consts f a dA dI)
    (hB : Prints (-b) dB) {n bits : Nat} (hnb : n ≤ bits) (hb : 40 * f.u * (2 ^ n + |b|) ≤ 1) {x : Rat}
    (h0 : a * b ≤ x) (h1 : x ≤ a * b + a * (2 ^ n - 1 : Nat)) :
    viewSet f bits dI dB (.fin x) < 2 ^ n ∧
    |(viewSet f bits dI dB (.fin x) : Rat) - (x / a - b)| ≤ 2 := by
  obtain ⟨u0, u1, -⟩ := hf.u
  have a0 : 0 < a := lt_of_lt_of_le (pow_pos' _) c.range.1
  have hu53 : 1 / 2 ^ 53 ≤ f.u := by
    have := hf.u.2.2
    have e : binary64.u = 1 / 2 ^ 53 := by unfold Fmt.u binary64; norm_num
    rwa [e] at this
  have hp2 : (0 : Rat) < 2 ^ n := by positivity
  have hb0 := abs_nonneg b
  have hsum : (2 : Rat) ^ n + |b| ≤ 2 ^ 53 := by
    have h3 : 1 / 2 ^ 53 * (2 ^ n + |b|) ≤ f.u * (2 ^ n + |b|) :=
      mul_le_mul_of_nonneg_right hu53 (by linarith)
    have h4 : 1 / 2 ^ 53 * ((2 : Rat) ^ n + |b|) ≤ 1 := by
      have : 0 ≤ f.u * (2 ^ n + |b|) := mul_nonneg u0.le (by linarith)
      linarith
    norm_num at h4 ⊢
    linarith
  have hn1 : (((2 ^ n - 1 : Nat) : Nat) : Rat) = 2 ^ n - 1 := by
    have : 1 ≤ 2 ^ n := Nat.one_le_two_pow
    push_cast [Nat.cast_sub this]
    rfl
  rw [hn1] at h1
  -- the exact value
  have q0 : 0 ≤ x / a - b := by
    rw [sub_nonneg, le_div_iff₀ a0]
    linarith
  have q1 : x / a - b ≤ 2 ^ n - 1 := by
    rw [sub_le_iff_le_add, div_le_iff₀ a0]
    linarith
  have hX : |x| * (1 / a) ≤ 2 ^ n + |b| := by
    have e : |x| * (1 / a) = |x / a| := by rw [abs_div, abs_of_pos a0]; ring
    rw [e]
    have := abs_add_le (x / a - b) b
    rw [sub_add_cancel, abs_of_nonneg q0] at this
    linarith
  obtain ⟨l1, l2⟩ := literal_offset hf hB (by
    rw [abs_neg]
    refine le_trans (show |b| ≤ 2 ^ 53 by linarith) (by norm_num))
  obtain ⟨g1, g2, g3⟩ := linear_error hf (x := x) (show 0 ≤ 1 / a by positivity) (c.near hf).2 l2
  rw [abs_neg] at g2 g3
  have hz : viewSet f bits dI dB (.fin x) = satCast bits (f.near (f.near (x * f.near dI) + f.near dB)) := by
    unfold viewSet
    rw [c.inv, l1]
    simp only [Fmt.mul]
    rw [hf.round_abs (le_trans g1 (by
      have : (2 : Rat) ^ 53 * 2 ≤ 2 ^ (127 : Int) := by norm_num
      linarith))]
    simp only [Fmt.add]
    rw [hf.round_abs (le_trans g2 (by
      have : (2 : Rat) ^ 53 * 4 + 1 ≤ 2 ^ (127 : Int) := by norm_num
      linarith))]
    rfl
  rw [hz]
  generalize f.near (f.near (x * f.near dI) + f.near dB) = z at *
  have e3 : x * (1 / a) + -b = x / a - b := by ring
  rw [e3] at g3
  have he : |z - (x / a - b)| ≤ 3 / 4 := by
    refine le_trans g3 ?_
    have s1 : 10 * f.u * (|x| * (1 / a) + |b|) ≤ 10 * f.u * (2 * (2 ^ n + |b|)) :=
      mul_le_mul_of_nonneg_left (by linarith) (by linarith)
    have s2 : 8 * (2 : Rat) ^ (-149 : Int) ≤ 1 / 4 := by norm_num
    linarith
  generalize x / a - b = w at *
  obtain ⟨z1, z2⟩ := abs_le.mp he
  have hfl1 := Int.floor_le z
  have hfl2 := Int.lt_floor_add_one z
  have hk : satCast bits z = ⌊z⌋.toNat := by
    unfold satCast
    have e : z.floor = ⌊z⌋ := rfl
    rw [e]
    have : ⌊z⌋ < 2 ^ n := by
      rw [Int.floor_lt]
      push_cast
      linarith
    have hle : 2 ^ n ≤ 2 ^ bits := Nat.pow_le_pow_right (by omega) hnb
    have : ⌊z⌋.toNat < 2 ^ n := by
      have h5 : ((2 ^ n : Nat) : Int) = 2 ^ n := by push_cast; rfl
      have := Nat.two_pow_pos n
      omega
    omega
  rw [hk]
  have hlt : ⌊z⌋ < 2 ^ n := by
    rw [Int.floor_lt]
    push_cast
    linarith
  constructor
  · have h5 : ((2 ^ n : Nat) : Int) = 2 ^ n := by push_cast; rfl
    have := Nat.two_pow_pos n
    omega
  · by_cases hneg : ⌊z⌋ < 0
    · have e : ⌊z⌋.toNat = 0 := by omega
      rw [e]
      have : z < 0 := Int.floor_lt.mp hneg |>.trans_eq (by simp)
      rw [Nat.cast_zero, abs_le]
      constructor <;> linarith
    · have e : ((⌊z⌋.toNat : Nat) : Rat) = (⌊z⌋ : Rat) := by
        have : ((⌊z⌋.toNat : Nat) : Int) = ⌊z⌋ := Int.toNat_of_nonneg (by omega)
        exact_mod_cast this
      rw [e, abs_le]
      constructor <;> linarith

end Proto.Ieee
