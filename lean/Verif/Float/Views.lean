import Verif.Float.Lemmas
import Mathlib.Tactic.Ring
import Mathlib.Tactic.GCongr

/-!
# Error of the float views
-/

namespace Proto.Ieee

open Proto

/-- One of the two formats of Rust. -/
def Std (f : Fmt) : Prop := f = binary32 ∨ f = binary64

/-- Half a unit in the last place of 1. -/
def Fmt.u (f : Fmt) : Rat := 2 ^ (-(f.prec : Int))

theorem Std.prec {f : Fmt} (h : Std f) : 1 ≤ f.prec := by
  rcases h with rfl | rfl <;> decide

theorem Std.u {f : Fmt} (h : Std f) : 0 < f.u ∧ f.u ≤ 1 / 16777216 ∧ binary64.u ≤ f.u := by
  rcases h with rfl | rfl <;> simp only [Fmt.u, binary32, binary64] <;> norm_num

theorem Std.range {f : Fmt} (h : Std f) : f.least ≤ f.top ∧ f.least + f.prec - 1 ≤ -126 ∧ 127 ≤ f.top := by
  rcases h with rfl | rfl <;> decide

theorem near_bounds {f : Fmt} {q : Rat} (h0 : 0 ≤ q) (hn : f.Normal q) :
    q * (1 - f.u) ≤ f.near q ∧ f.near q ≤ q * (1 + f.u) := by
  have h := near_relative hn
  rw [abs_of_nonneg h0] at h
  obtain ⟨a, b⟩ := abs_le.mp h
  unfold Fmt.u
  constructor <;> linarith

theorem Std.normal {f : Fmt} (h : Std f) {q : Rat} (hq : 2 ^ (-126 : Int) ≤ q) : f.Normal q := by
  unfold Fmt.Normal
  refine le_trans (zpow_le_zpow_right₀ (by norm_num) h.range.2.1) (le_trans hq (le_abs_self q))

theorem Std.round {f : Fmt} (h : Std f) {q : Rat} (h0 : 0 ≤ q) (h2 : q ≤ 2 ^ (127 : Int)) :
    f.round q = .fin (f.near q) :=
  round_fin f h.prec h.range.1 (by
    rw [abs_of_nonneg h0]
    exact le_trans h2 (zpow_le_zpow_right₀ (by norm_num) h.range.2.2))

/-- A positive number that prints as `d`. -/
theorem Prints.bounds {x d : Rat} (h : Prints x d) (hx : 2 ^ (-1000 : Int) ≤ x) :
    0 < d ∧ d * (1 - binary64.u) ≤ x ∧ x ≤ d * (1 + binary64.u) ∧ binary64.near d = x := by
  have h64 : Std binary64 := .inr rfl
  have hx0 : 0 < x := lt_of_lt_of_le (pow_pos' _) hx
  have e : binary64.near d = x := by
    have := h.1
    unfold Fmt.round at this
    split at this
    · exact Fl.fin.inj this
    · cases this
  have hd : 2 ^ (-1022 : Int) ≤ d := by
    by_contra hlt
    have hlt : d ≤ 2 ^ (-1022 : Int) := (not_le.mp hlt).le
    have hm := near_mono binary64 h64.prec hlt
    have hr : binary64.Rep ((2 : Rat) ^ (-1022 : Int)) := ⟨1, -1022, by simp, by decide, by decide⟩
    rw [e, near_rep hr] at hm
    have : (2 : Rat) ^ (-1022 : Int) < 2 ^ (-1000 : Int) := zpow_lt_zpow_right₀ (by norm_num) (by norm_num)
    linarith
  have hd0 : 0 < d := lt_of_lt_of_le (pow_pos' _) hd
  have hn : binary64.Normal d := by
    unfold Fmt.Normal
    rw [abs_of_pos hd0]
    exact hd
  obtain ⟨a, b⟩ := near_bounds hd0.le hn
  rw [e] at a b
  exact ⟨hd0, a, b, e⟩

/-- The literal of a constant in the type of the view. -/
theorem literal {f : Fmt} (hf : Std f) {x d : Rat} (h : Prints x d) (h1 : 2 ^ (-110 : Int) ≤ x)
    (h2 : x ≤ 2 ^ (110 : Int)) :
    f.round d = .fin (f.near d) ∧ 0 < f.near d ∧
    x * (1 - f.u) ≤ f.near d * (1 + f.u) ∧ f.near d * (1 - f.u) ≤ x * (1 + f.u) := by
  obtain ⟨u0, u1, u2⟩ := hf.u
  obtain ⟨v0, v1, -⟩ := (show Std binary64 from .inr rfl).u
  obtain ⟨d0, d1, d2, -⟩ := h.bounds (le_trans (zpow_le_zpow_right₀ (by norm_num) (by norm_num)) h1)
  have hx0 : 0 < x := lt_of_lt_of_le (pow_pos' _) h1
  have hd1 : 2 ^ (-126 : Int) ≤ d := by
    have e : (2 : Rat) ^ (-126 : Int) * 2 ≤ 2 ^ (-110 : Int) := by norm_num
    nlinarith
  have hd2 : d ≤ 2 ^ (127 : Int) := by
    have e : (2 : Rat) ^ (110 : Int) * 2 ≤ 2 ^ (127 : Int) := by norm_num
    nlinarith
  obtain ⟨n1, n2⟩ := near_bounds d0.le (hf.normal hd1)
  refine ⟨hf.round d0.le hd2, ?_, ?_, ?_⟩
  · have : 0 < d * (1 - f.u) := mul_pos d0 (by linarith)
    linarith
  · have a1 : x * (1 - f.u) ≤ d * (1 + binary64.u) * (1 - f.u) :=
      mul_le_mul_of_nonneg_right d2 (by linarith)
    have a2 : d * (1 + binary64.u) * (1 - f.u) ≤ d * (1 - f.u) * (1 + f.u) := by
      have : d * (1 - f.u) * (1 + binary64.u) ≤ d * (1 - f.u) * (1 + f.u) :=
        mul_le_mul_of_nonneg_left (by linarith) (mul_nonneg d0.le (by linarith))
      linarith
    have a3 : d * (1 - f.u) * (1 + f.u) ≤ f.near d * (1 + f.u) :=
      mul_le_mul_of_nonneg_right n1 (by linarith)
    linarith
  · have a1 : f.near d * (1 - f.u) ≤ d * (1 + f.u) * (1 - f.u) :=
      mul_le_mul_of_nonneg_right n2 (by linarith)
    have a2 : d * (1 - f.u) * (1 + f.u) ≤ d * (1 - binary64.u) * (1 + f.u) := by
      gcongr
    have a3 : d * (1 - binary64.u) * (1 + f.u) ≤ x * (1 + f.u) :=
      mul_le_mul_of_nonneg_right d1 (by linarith)
    linarith

/-! ## Views without offset -/

theorem Prints.zero {d : Rat} (h : Prints 0 d) : d = 0 := h.2 rfl

theorem round_zero {f : Fmt} (hf : Std f) : f.round 0 = .fin 0 := by
  rw [hf.round le_rfl (pow_pos' _).le, near_zero]

theorem rep_nat {f : Fmt} (hf : Std f) {k : Nat} (h : k < 2 ^ f.prec) : f.Rep k :=
  ⟨k, 0, by simp, by rw [abs_of_nonneg (by omega)]; exact_mod_cast h,
    by rcases hf with rfl | rfl <;> decide⟩

theorem round_nat {f : Fmt} (hf : Std f) {k : Nat} (h : k < 2 ^ f.prec) : f.round k = .fin k := by
  rw [hf.round (by positivity), near_rep (rep_nat hf h)]
  have h1 : (k : Rat) ≤ 2 ^ f.prec := by exact_mod_cast h.le
  refine le_trans h1 ?_
  rw [← zpow_natCast]
  exact zpow_le_zpow_right₀ (by norm_num) (by rcases hf with rfl | rfl <;> decide)

/-- What the getter computes. -/
theorem viewGet_eq {f : Fmt} (hf : Std f) {d : Rat} (hd : f.round d = .fin (f.near d))
    (h0 : 0 ≤ f.near d) {k : Nat} (h : k < 2 ^ f.prec) (hk : k * f.near d ≤ 2 ^ (127 : Int)) :
    viewGet f d 0 k = .fin (f.near (k * f.near d)) := by
  have hx0 : 0 ≤ (k : Rat) * f.near d := mul_nonneg (by positivity) h0
  have hn := near_le_pow f hf.prec (q := k * f.near d) (k := 127) (by
    rcases hf with rfl | rfl <;> decide) (by rwa [abs_of_nonneg hx0])
  unfold viewGet
  rw [round_nat hf h, hd, round_zero hf]
  simp only [Fmt.mul]
  rw [hf.round hx0 hk]
  simp only [Fmt.add]
  rw [add_zero, hf.round (near_nonneg f hx0) (le_trans (le_abs_self _) hn), near_idem f hf.prec]

/-- What the setter computes. -/
theorem viewSet_eq {f : Fmt} (hf : Std f) {d : Rat} (hd : f.round d = .fin (f.near d))
    (h0 : 0 ≤ f.near d) {v : Rat} (hv : 0 ≤ v) (hk : v * f.near d ≤ 2 ^ (127 : Int)) (bits : Nat) :
    viewSet f bits d 0 (.fin v) = satCast bits (f.near (v * f.near d)) := by
  have hx0 : 0 ≤ v * f.near d := mul_nonneg hv h0
  have hn := near_le_pow f hf.prec (q := v * f.near d) (k := 127) (by
    rcases hf with rfl | rfl <;> decide) (by rwa [abs_of_nonneg hx0])
  unfold viewSet
  rw [hd, round_zero hf]
  simp only [Fmt.mul]
  rw [hf.round hx0 hk]
  simp only [Fmt.add]
  rw [add_zero, hf.round (near_nonneg f hx0) (le_trans (le_abs_self _) hn), near_idem f hf.prec]
  rfl

/-- The constants of a view without offset: the step `a`, its literal and the literal of its inverse. -/
structure Consts (f : Fmt) (a dA dI : Rat) : Prop where
  range : 2 ^ (-100 : Int) ≤ a ∧ a ≤ 2 ^ (60 : Int)
  lit : f.round dA = .fin (f.near dA)
  inv : f.round dI = .fin (f.near dI)
  pos : 0 < f.near dA
  posI : 0 < f.near dI
  lo : a * (1 - f.u) ≤ f.near dA * (1 + f.u)
  hi : f.near dA * (1 - f.u) ≤ a * (1 + f.u)
  ilo : (1 - f.u) * (1 - f.u) ≤ a * f.near dI * (1 + f.u)
  ihi : a * f.near dI * (1 - f.u) ≤ (1 + f.u) * (1 + f.u)

theorem consts {f : Fmt} (hf : Std f) {a aInv dA dI : Rat} (h1 : 2 ^ (-100 : Int) ≤ a)
    (h2 : a ≤ 2 ^ (60 : Int)) (hi : binary64.div 1 a = .fin aInv) (hA : Prints a dA)
    (hI : Prints aInv dI) : Consts f a dA dI := by
  obtain ⟨u0, u1, u2⟩ := hf.u
  have h64 : Std binary64 := .inr rfl
  obtain ⟨v0, v1, -⟩ := h64.u
  have a0 : 0 < a := lt_of_lt_of_le (pow_pos' _) h1
  have i1 : 2 ^ (-60 : Int) ≤ 1 / a := by
    rw [le_div_iff₀ a0]
    calc _ ≤ (2 : Rat) ^ (-60 : Int) * 2 ^ (60 : Int) := mul_le_mul_of_nonneg_left h2 (pow_pos' _).le
      _ = 1 := by norm_num
  have i2 : 1 / a ≤ 2 ^ (100 : Int) := by
    rw [div_le_iff₀ a0]
    calc (1 : Rat) = 2 ^ (100 : Int) * 2 ^ (-100 : Int) := by norm_num
      _ ≤ _ := mul_le_mul_of_nonneg_left h1 (pow_pos' _).le
  have i0 : 0 < 1 / a := by positivity
  have e : binary64.near (1 / a) = aInv := by
    unfold Fmt.div at hi
    rw [if_neg a0.ne', h64.round i0.le (le_trans i2 (by norm_num))] at hi
    exact Fl.fin.inj hi
  obtain ⟨n1, n2⟩ := near_bounds i0.le (h64.normal (le_trans (by norm_num) i1))
  rw [e] at n1 n2
  have ai1 : 2 ^ (-110 : Int) ≤ aInv := by
    have e : (2 : Rat) ^ (-110 : Int) * 2 ≤ 2 ^ (-60 : Int) := by norm_num
    have : 1 / a * (1 / 2) ≤ 1 / a * (1 - binary64.u) :=
      mul_le_mul_of_nonneg_left (by linarith) i0.le
    have h3 : (2 : Rat) ^ (-110 : Int) * 2 ≤ aInv * 2 := by
      refine le_trans e (le_trans i1 ?_)
      generalize 1 / a = r at *
      linarith
    exact le_of_mul_le_mul_right h3 (by norm_num)
  have ai2 : aInv ≤ 2 ^ (110 : Int) := by
    have e : (2 : Rat) ^ (100 : Int) * 2 ≤ 2 ^ (110 : Int) := by norm_num
    nlinarith
  obtain ⟨l1, l2, l3, l4⟩ := literal hf hA (le_trans (by norm_num) h1) (le_trans h2 (by norm_num))
  obtain ⟨m1, m2, m3, m4⟩ := literal hf hI ai1 ai2
  refine ⟨⟨h1, h2⟩, l1, m1, l2, m2, l3, l4, ?_, ?_⟩
  · have b1 : (1 - f.u) ≤ a * aInv := by
      have : a * (1 / a * (1 - binary64.u)) ≤ a * aInv := mul_le_mul_of_nonneg_left n1 a0.le
      have e : a * (1 / a * (1 - binary64.u)) = 1 - binary64.u := by field_simp
      linarith
    calc (1 - f.u) * (1 - f.u) ≤ a * aInv * (1 - f.u) :=
          mul_le_mul_of_nonneg_right b1 (by linarith)
      _ = a * (aInv * (1 - f.u)) := by ring
      _ ≤ a * (f.near dI * (1 + f.u)) := mul_le_mul_of_nonneg_left m3 a0.le
      _ = _ := by ring
  · have b1 : a * aInv ≤ 1 + f.u := by
      have : a * aInv ≤ a * (1 / a * (1 + binary64.u)) := mul_le_mul_of_nonneg_left n2 a0.le
      have e : a * (1 / a * (1 + binary64.u)) = 1 + binary64.u := by field_simp
      linarith
    calc a * f.near dI * (1 - f.u) = a * (f.near dI * (1 - f.u)) := by ring
      _ ≤ a * (aInv * (1 + f.u)) := mul_le_mul_of_nonneg_left m4 a0.le
      _ = a * aInv * (1 + f.u) := by ring
      _ ≤ _ := mul_le_mul_of_nonneg_right b1 (by linarith)

theorem poly_hi {u : Rat} (h0 : 0 < u) (h1 : u ≤ 1 / 16777216) :
    (1 + u) ^ 5 ≤ (1 + 8 * u) * (1 - u) ^ 2 := by
  have e : (1 + 8 * u) * (1 - u) ^ 2 - (1 + u) ^ 5 =
      u * (1 - u * (25 + 2 * u + 5 * u ^ 2 + u ^ 3)) := by ring
  have h2 : u ^ 2 ≤ 1 := by nlinarith
  have h3 : u ^ 3 ≤ 1 := by
    have : u ^ 3 = u ^ 2 * u := by ring
    nlinarith
  have : 0 ≤ u * (1 - u * (25 + 2 * u + 5 * u ^ 2 + u ^ 3)) := by
    refine mul_nonneg h0.le ?_
    nlinarith
  linarith

theorem poly_lo {u : Rat} (h0 : 0 < u) (h1 : u ≤ 1 / 16777216) :
    (1 - 8 * u) * (1 + u) ^ 2 ≤ (1 - u) ^ 5 := by
  have e : (1 - u) ^ 5 - (1 - 8 * u) * (1 + u) ^ 2 =
      u * (1 + u * (25 - 2 * u + 5 * u ^ 2 - u ^ 3)) := by ring
  have h2 : u ^ 2 ≤ 1 := by nlinarith
  have h3 : u ^ 3 ≤ 1 := by
    have : u ^ 3 = u ^ 2 * u := by ring
    nlinarith
  have h4 : 0 ≤ u ^ 2 := by positivity
  have : 0 ≤ u * (1 + u * (25 - 2 * u + 5 * u ^ 2 - u ^ 3)) := by
    refine mul_nonneg h0.le ?_
    nlinarith
  linarith

/-- The literals are within a factor 2 of the constants. -/
theorem Consts.coarse {f : Fmt} (hf : Std f) {a dA dI : Rat} (c : Consts f a dA dI) :
    a ≤ 2 * f.near dA ∧ f.near dA ≤ 2 * a ∧ 1 ≤ 2 * (a * f.near dI) ∧ a * f.near dI ≤ 2 := by
  obtain ⟨u0, u1, -⟩ := hf.u
  have a0 : 0 < a := lt_of_lt_of_le (pow_pos' _) c.range.1
  have hA := c.pos
  have p0 : 0 < a * f.near dI := mul_pos a0 c.posI
  have h1 := c.lo; have h2 := c.hi; have h3 := c.ilo; have h4 := c.ihi
  refine ⟨?_, ?_, ?_, ?_⟩ <;> nlinarith

/-- Reading a raw value: the result is within three roundings of `k` steps. -/
theorem Consts.get {f : Fmt} (hf : Std f) {a dA dI : Rat} (c : Consts f a dA dI) {k : Nat}
    (hk : k < 2 ^ f.prec) (hn : k < 2 ^ 53) :
    viewGet f dA 0 k = .fin (f.near (k * f.near dA)) ∧
    k * f.near dA * (1 - f.u) ≤ f.near (k * f.near dA) ∧
    f.near (k * f.near dA) ≤ k * f.near dA * (1 + f.u) := by
  obtain ⟨c1, c2, -, -⟩ := c.coarse hf
  have hkq : (k : Rat) ≤ 2 ^ (53 : Int) := by exact_mod_cast hn.le
  have a0 : 0 < a := lt_of_lt_of_le (pow_pos' _) c.range.1
  have hA2 : f.near dA ≤ 2 ^ (61 : Int) := by
    have e : (2 : Rat) * 2 ^ (60 : Int) = 2 ^ (61 : Int) := by norm_num
    linarith [c.range.2]
  have hA1 : 2 ^ (-101 : Int) ≤ f.near dA := by
    have e : (2 : Rat) * 2 ^ (-101 : Int) = 2 ^ (-100 : Int) := by norm_num
    linarith [c.range.1]
  have hprod : k * f.near dA ≤ 2 ^ (127 : Int) := by
    calc k * f.near dA ≤ 2 ^ (53 : Int) * 2 ^ (61 : Int) :=
          mul_le_mul hkq hA2 c.pos.le (pow_pos' _).le
      _ ≤ _ := by norm_num
  refine ⟨viewGet_eq hf c.lit c.pos.le hk hprod, ?_⟩
  by_cases h0 : k = 0
  · subst h0; simp [near_zero]
  · refine near_bounds (mul_nonneg (by positivity) c.pos.le) (hf.normal ?_)
    have : (1 : Rat) ≤ k := by exact_mod_cast Nat.one_le_iff_ne_zero.mpr h0
    calc (2 : Rat) ^ (-126 : Int) ≤ 2 ^ (-101 : Int) := by norm_num
      _ ≤ f.near dA := hA1
      _ = 1 * f.near dA := (one_mul _).symm
      _ ≤ k * f.near dA := mul_le_mul_of_nonneg_right this c.pos.le

/-- `2 ^ n` raw values are told apart with three digits to spare. -/
theorem digits {f : Fmt} {n k : Nat} (hn : n + 3 ≤ f.prec) (hk : k < 2 ^ n) :
    (k : Rat) * (8 * f.u) < 1 ∧ (k : Rat) * (8 * f.u) + 8 * f.u ≤ 1 ∧ k < 2 ^ f.prec := by
  have h1 : (k : Rat) + 1 ≤ 2 ^ n := by exact_mod_cast hk
  have e : (2 : Rat) ^ n * (8 * f.u) ≤ 1 := by
    unfold Fmt.u
    have : (2 : Rat) ^ n * (8 * 2 ^ (-(f.prec : Int))) = 2 ^ ((n : Int) + 3 - f.prec) := by
      rw [sub_eq_add_neg, zpow_add₀ (by norm_num), zpow_add₀ (by norm_num), zpow_natCast]
      norm_num
      ring
    rw [this]
    exact zpow_le_one_of_nonpos₀ (by norm_num) (by omega)
  have hu : 0 < f.u := pow_pos' _
  refine ⟨?_, ?_, lt_of_lt_of_le hk (Nat.pow_le_pow_right (by omega) (by omega))⟩
  · nlinarith
  · nlinarith

/-- Reading and writing back keeps the raw value or lowers it by one. -/
theorem Consts.reread {f : Fmt} (hf : Std f) {a dA dI : Rat} (c : Consts f a dA dI) {n k bits : Nat}
    (hn : n + 3 ≤ f.prec) (hk : k < 2 ^ n) (hb : n ≤ bits) :
    ∃ x, viewGet f dA 0 k = .fin x ∧ 0 ≤ x ∧
      (viewSet f bits dI 0 (.fin x) = k ∨ viewSet f bits dI 0 (.fin x) + 1 = k) := by
  obtain ⟨u0, u1, -⟩ := hf.u
  obtain ⟨d1, -, d2⟩ := digits hn hk
  have hp53 : f.prec ≤ 53 := by rcases hf with rfl | rfl <;> decide
  obtain ⟨g1, g2, g3⟩ := c.get hf d2 (lt_of_lt_of_le d2 (Nat.pow_le_pow_right (by omega) hp53))
  have a0 : 0 < a := lt_of_lt_of_le (pow_pos' _) c.range.1
  have hk0 : (0 : Rat) ≤ k := by positivity
  have hA := c.pos; have hI := c.posI
  have hx0 : 0 ≤ f.near (k * f.near dA) := near_nonneg f (mul_nonneg hk0 hA.le)
  obtain ⟨c1, c2, c3, c4⟩ := c.coarse hf
  refine ⟨_, g1, hx0, ?_⟩
  generalize f.near (k * f.near dA) = x at g1 g2 g3 hx0
  -- the product of the two literals
  have pHi : f.near dA * f.near dI * (1 - f.u) ^ 2 ≤ (1 + f.u) ^ 3 := by
    have h1 : f.near dA * (1 - f.u) * (f.near dI * (1 - f.u)) ≤ a * (1 + f.u) * (f.near dI * (1 - f.u)) :=
      mul_le_mul_of_nonneg_right c.hi (mul_nonneg hI.le (by linarith))
    have h2 : a * f.near dI * (1 - f.u) * (1 + f.u) ≤ (1 + f.u) * (1 + f.u) * (1 + f.u) :=
      mul_le_mul_of_nonneg_right c.ihi (by linarith)
    nlinarith
  have pLo : (1 - f.u) ^ 3 ≤ f.near dA * f.near dI * (1 + f.u) ^ 2 := by
    have h1 : a * (1 - f.u) * (f.near dI * (1 + f.u)) ≤ f.near dA * (1 + f.u) * (f.near dI * (1 + f.u)) :=
      mul_le_mul_of_nonneg_right c.lo (mul_nonneg hI.le (by linarith))
    have h2 : (1 - f.u) * (1 - f.u) * (1 - f.u) ≤ a * f.near dI * (1 + f.u) * (1 - f.u) :=
      mul_le_mul_of_nonneg_right c.ilo (by linarith)
    nlinarith
  -- the product rounded by the setter
  have y1 : k * (f.near dA * f.near dI) * (1 - f.u) ≤ x * f.near dI := by
    have := mul_le_mul_of_nonneg_right g2 hI.le
    linarith
  have y2 : x * f.near dI ≤ k * (f.near dA * f.near dI) * (1 + f.u) := by
    have := mul_le_mul_of_nonneg_right g3 hI.le
    linarith
  have pC : f.near dA * f.near dI ≤ 4 := by
    calc f.near dA * f.near dI ≤ 2 * a * f.near dI := mul_le_mul_of_nonneg_right c2 hI.le
      _ = 2 * (a * f.near dI) := by ring
      _ ≤ 4 := by linarith
  have hkb : (k : Rat) ≤ 2 ^ 53 := by
    exact_mod_cast (lt_of_lt_of_le d2 (Nat.pow_le_pow_right (by omega) hp53)).le
  have hprod : x * f.near dI ≤ 2 ^ (127 : Int) := by
    have h1 : k * (f.near dA * f.near dI) ≤ 2 ^ 53 * 4 :=
      mul_le_mul hkb pC (mul_pos hA hI).le (by norm_num)
    have h2 : k * (f.near dA * f.near dI) * (1 + f.u) ≤ 2 ^ 53 * 4 * 2 :=
      mul_le_mul h1 (by linarith) (by linarith) (by norm_num)
    have : (2 : Rat) ^ 53 * 4 * 2 ≤ 2 ^ (127 : Int) := by norm_num
    linarith
  rw [viewSet_eq hf c.inv hI.le hx0 hprod]
  by_cases h0 : k = 0
  · subst h0
    have : x = 0 := by
      have h1 := g2; have h2 := g3
      push_cast at h1 h2
      linarith
    rw [this, zero_mul, near_zero]
    left
    unfold satCast
    have : Rat.floor 0 = 0 := rfl
    rw [this]
    simp
  · have hk1 : (1 : Rat) ≤ k := by exact_mod_cast Nat.one_le_iff_ne_zero.mpr h0
    have hnorm : f.Normal (x * f.near dI) := by
      refine hf.normal ?_
      have h1 : (1 : Rat) / 4 ≤ f.near dA * f.near dI := by
        have : (1 : Rat) ≤ 2 * (2 * f.near dA * f.near dI) := by
          calc (1 : Rat) ≤ 2 * (a * f.near dI) := c3
            _ ≤ 2 * (2 * f.near dA * f.near dI) := by
              have := mul_le_mul_of_nonneg_right c1 hI.le
              linarith
        linarith
      have h2 : (1 : Rat) / 4 ≤ k * (f.near dA * f.near dI) := by nlinarith
      have h3 : (1 : Rat) / 8 ≤ k * (f.near dA * f.near dI) * (1 - f.u) := by nlinarith
      calc (2 : Rat) ^ (-126 : Int) ≤ 1 / 8 := by norm_num
        _ ≤ _ := le_trans h3 y1
    obtain ⟨z1, z2⟩ := near_bounds (mul_nonneg hx0 hI.le) hnorm
    generalize f.near (x * f.near dI) = z at z1 z2
    have zHi : z * (1 - f.u) ^ 2 ≤ k * (1 + f.u) ^ 5 := by
      have h1 : z ≤ k * (f.near dA * f.near dI) * (1 + f.u) * (1 + f.u) :=
        le_trans z2 (mul_le_mul_of_nonneg_right y2 (by linarith))
      have h2 : z * (1 - f.u) ^ 2 ≤ k * (f.near dA * f.near dI) * (1 + f.u) * (1 + f.u) * (1 - f.u) ^ 2 :=
        mul_le_mul_of_nonneg_right h1 (by positivity)
      have h3 : k * (1 + f.u) ^ 2 * (f.near dA * f.near dI * (1 - f.u) ^ 2) ≤
          k * (1 + f.u) ^ 2 * (1 + f.u) ^ 3 := mul_le_mul_of_nonneg_left pHi (by positivity)
      nlinarith
    have zLo : k * (1 - f.u) ^ 5 ≤ z * (1 + f.u) ^ 2 := by
      have h1 : k * (f.near dA * f.near dI) * (1 - f.u) * (1 - f.u) ≤ z :=
        le_trans (mul_le_mul_of_nonneg_right y1 (by linarith)) z1
      have h2 : k * (f.near dA * f.near dI) * (1 - f.u) * (1 - f.u) * (1 + f.u) ^ 2 ≤ z * (1 + f.u) ^ 2 :=
        mul_le_mul_of_nonneg_right h1 (by positivity)
      have h3 : k * (1 - f.u) ^ 2 * (1 - f.u) ^ 3 ≤
          k * (1 - f.u) ^ 2 * (f.near dA * f.near dI * (1 + f.u) ^ 2) :=
        mul_le_mul_of_nonneg_left pLo (by positivity)
      nlinarith
    have w1 : z ≤ k * (1 + 8 * f.u) := by
      have h1 := mul_le_mul_of_nonneg_left (poly_hi u0 u1) hk0
      have h2 : z * (1 - f.u) ^ 2 ≤ k * (1 + 8 * f.u) * (1 - f.u) ^ 2 := by linarith
      exact le_of_mul_le_mul_right h2 (by have : 0 < 1 - f.u := by linarith
                                          positivity)
    have w2 : k * (1 - 8 * f.u) ≤ z := by
      have h1 := mul_le_mul_of_nonneg_left (poly_lo u0 u1) hk0
      have h2 : k * (1 - 8 * f.u) * (1 + f.u) ^ 2 ≤ z * (1 + f.u) ^ 2 := by linarith
      exact le_of_mul_le_mul_right h2 (by positivity)
    have f1 : ⌊z⌋ ≤ (k : Int) := by
      have : z < ((k + 1 : Int) : Rat) := by push_cast; linarith
      have := Int.floor_lt.mpr this
      omega
    have f2 : (k : Int) - 1 ≤ ⌊z⌋ := by
      rw [Int.le_floor]; push_cast; linarith
    have hp : (2 : Nat) ^ n ≤ 2 ^ bits := Nat.pow_le_pow_right (by omega) hb
    unfold satCast
    have : Rat.floor z = ⌊z⌋ := rfl
    rw [this]
    omega

/-- Writing and reading back: less than one step and the roundings lower, at most the roundings
higher. -/
theorem Consts.write_read {f : Fmt} (hf : Std f) {a dA dI : Rat} (c : Consts f a dA dI) {n bits : Nat}
    (hn : n + 3 ≤ f.prec) (hb : n ≤ bits) {v : Rat} (hv0 : 0 ≤ v) (hv1 : v ≤ a * (2 ^ n - 1 : Nat)) :
    viewSet f bits dI 0 (.fin v) < 2 ^ n ∧
    ∃ x, viewGet f dA 0 (viewSet f bits dI 0 (.fin v)) = .fin x ∧ x ≤ v + 8 * f.u * v ∧
      v - (a + f.u * a + 8 * f.u * v) ≤ x := by
  obtain ⟨u0, u1, -⟩ := hf.u
  have hp53 : f.prec ≤ 53 := by rcases hf with rfl | rfl <;> decide
  have a0 : 0 < a := lt_of_lt_of_le (pow_pos' _) c.range.1
  have hA := c.pos; have hI := c.posI
  obtain ⟨c1, c2, c3, c4⟩ := c.coarse hf
  have h2n := Nat.two_pow_pos n
  obtain ⟨-, d1, -⟩ := digits (k := 2 ^ n - 1) hn (by omega)
  have hN0 : (0 : Rat) ≤ ((2 ^ n - 1 : Nat) : Rat) := by positivity
  have hN53 : ((2 ^ n - 1 : Nat) : Rat) ≤ 2 ^ 53 := by
    have : 2 ^ n ≤ 2 ^ 53 := Nat.pow_le_pow_right (by omega) (by omega)
    have h : 2 ^ n - 1 ≤ 2 ^ 53 := by omega
    exact_mod_cast h
  have hvI : v * f.near dI ≤ ((2 ^ n - 1 : Nat) : Rat) * (a * f.near dI) := by
    have := mul_le_mul_of_nonneg_right hv1 hI.le
    linarith
  have hprod : v * f.near dI ≤ 2 ^ (127 : Int) := by
    have h1 : ((2 ^ n - 1 : Nat) : Rat) * (a * f.near dI) ≤ 2 ^ 53 * 2 :=
      mul_le_mul hN53 c4 (mul_pos a0 hI).le (by norm_num)
    have : (2 : Rat) ^ 53 * 2 ≤ 2 ^ (127 : Int) := by norm_num
    linarith
  have hset := viewSet_eq hf c.inv hI.le hv0 hprod bits
  have hmono : (2 : Nat) ^ n ≤ 2 ^ bits := Nat.pow_le_pow_right (by omega) hb
  have h2prec : (2 : Nat) ^ n ≤ 2 ^ f.prec := Nat.pow_le_pow_right (by omega) (by omega)
  have h253 : (2 : Nat) ^ f.prec ≤ 2 ^ 53 := Nat.pow_le_pow_right (by omega) hp53
  have hz0 : 0 ≤ f.near (v * f.near dI) := near_nonneg f (mul_nonneg hv0 hI.le)
  by_cases hsmall : v * f.near dI < 1 / 2
  · have hz : f.near (v * f.near dI) ≤ 1 / 2 := by
      have h1 := near_mono f hf.prec hsmall.le
      rw [near_rep (q := 1 / 2) ⟨1, -1, by norm_num, by
        have : (1 : Int) < 2 ^ f.prec := one_lt_pow₀ (by norm_num) (by have := hf.prec; omega)
        simpa using this, by rcases hf with rfl | rfl <;> decide⟩] at h1
      exact h1
    have hst : viewSet f bits dI 0 (.fin v) = 0 := by
      rw [hset]
      have : ⌊f.near (v * f.near dI)⌋ = 0 := by
        rw [Int.floor_eq_iff]; push_cast; constructor <;> linarith
      unfold satCast
      have e : Rat.floor (f.near (v * f.near dI)) = ⌊f.near (v * f.near dI)⌋ := rfl
      rw [e, this]; simp
    rw [hst]
    refine ⟨h2n, 0, ?_, ?_, ?_⟩
    · have := (c.get hf (k := 0) (by positivity) (by norm_num)).1
      rw [this]
      simp [near_zero]
    · have : 0 ≤ 8 * f.u * v := by positivity
      linarith
    · have : v ≤ a := by
        have h1 : v * f.near dI ≤ a * f.near dI := by linarith
        exact le_of_mul_le_mul_right h1 hI
      have h2 : 0 ≤ f.u * a := by positivity
      have h3 : 0 ≤ 8 * f.u * v := by positivity
      linarith
  · have hbig := not_lt.mp hsmall
    obtain ⟨z1, z2⟩ := near_bounds (mul_nonneg hv0 hI.le)
      (hf.normal (le_trans (by norm_num) hbig))
    rw [hset]
    generalize f.near (v * f.near dI) = z at z1 z2 hz0
    -- the stored value fits
    have zTop : z < ((2 ^ n : Nat) : Rat) := by
      have h1 : z * (1 - f.u) ≤ ((2 ^ n - 1 : Nat) : Rat) * (1 + f.u) ^ 3 := by
        have g1 : z ≤ ((2 ^ n - 1 : Nat) : Rat) * (a * f.near dI) * (1 + f.u) :=
          le_trans z2 (mul_le_mul_of_nonneg_right hvI (by linarith))
        have g2 := mul_le_mul_of_nonneg_right g1 (by linarith : 0 ≤ 1 - f.u)
        have g3 := mul_le_mul_of_nonneg_left c.ihi
          (mul_nonneg hN0 (by linarith : 0 ≤ 1 + f.u))
        calc z * (1 - f.u) ≤ ((2 ^ n - 1 : Nat) : Rat) * (a * f.near dI) * (1 + f.u) * (1 - f.u) := g2
          _ = ((2 ^ n - 1 : Nat) : Rat) * (1 + f.u) * (a * f.near dI * (1 - f.u)) := by ring
          _ ≤ _ := g3
          _ = _ := by ring
      have h2 : (1 + f.u) ^ 3 ≤ (1 + 8 * f.u) * (1 - f.u) := by
        have e : (1 + 8 * f.u) * (1 - f.u) - (1 + f.u) ^ 3 = f.u * (4 - f.u * (11 + f.u)) := by ring
        have : 0 ≤ f.u * (4 - f.u * (11 + f.u)) := mul_nonneg u0.le (by nlinarith)
        linarith
      have h3 : z * (1 - f.u) ≤ ((2 ^ n - 1 : Nat) : Rat) * (1 + 8 * f.u) * (1 - f.u) := by
        have := mul_le_mul_of_nonneg_left h2 hN0
        linarith
      have h4 := le_of_mul_le_mul_right h3 (by linarith)
      have h5 : ((2 ^ n - 1 : Nat) : Rat) + 1 = ((2 ^ n : Nat) : Rat) := by
        rw [Nat.cast_sub h2n]; push_cast; ring
      rw [← h5]
      linarith
    have hfl0 : 0 ≤ ⌊z⌋ := Int.floor_nonneg.mpr hz0
    have hflT : ⌊z⌋ < ((2 ^ n : Nat) : Int) := by rw [Int.floor_lt]; exact_mod_cast zTop
    have hst : satCast bits z = ⌊z⌋.toNat := by
      unfold satCast
      have e : Rat.floor z = ⌊z⌋ := rfl
      rw [e]
      omega
    rw [hst]
    have hlt : ⌊z⌋.toNat < 2 ^ n := by omega
    obtain ⟨g1, g2, g3⟩ := c.get hf (k := ⌊z⌋.toNat) (by omega) (by omega)
    refine ⟨hlt, _, g1, ?_⟩
    have hr : ((⌊z⌋.toNat : Nat) : Rat) = ((⌊z⌋ : Int) : Rat) := by
      exact_mod_cast Int.toNat_of_nonneg hfl0
    have r1 := Int.floor_le z
    have r2 := Int.lt_floor_add_one z
    rw [← hr] at r1 r2
    generalize f.near (⌊z⌋.toNat * f.near dA) = x at g1 g2 g3
    generalize ((⌊z⌋.toNat : Nat) : Rat) = r at *
    have pHi : f.near dA * f.near dI * (1 - f.u) ^ 2 ≤ (1 + f.u) ^ 3 := by
      have h1 : f.near dA * (1 - f.u) * (f.near dI * (1 - f.u)) ≤ a * (1 + f.u) * (f.near dI * (1 - f.u)) :=
        mul_le_mul_of_nonneg_right c.hi (mul_nonneg hI.le (by linarith))
      have h2 : a * f.near dI * (1 - f.u) * (1 + f.u) ≤ (1 + f.u) * (1 + f.u) * (1 + f.u) :=
        mul_le_mul_of_nonneg_right c.ihi (by linarith)
      nlinarith
    have pLo : (1 - f.u) ^ 3 ≤ f.near dA * f.near dI * (1 + f.u) ^ 2 := by
      have h1 : a * (1 - f.u) * (f.near dI * (1 + f.u)) ≤ f.near dA * (1 + f.u) * (f.near dI * (1 + f.u)) :=
        mul_le_mul_of_nonneg_right c.lo (mul_nonneg hI.le (by linarith))
      have h2 : (1 - f.u) * (1 - f.u) * (1 - f.u) ≤ a * f.near dI * (1 + f.u) * (1 - f.u) :=
        mul_le_mul_of_nonneg_right c.ilo (by linarith)
      nlinarith
    constructor
    · have h1 : x ≤ v * (f.near dA * f.near dI) * (1 + f.u) ^ 2 := by
        have k1 : r * f.near dA ≤ v * f.near dI * (1 + f.u) * f.near dA :=
          mul_le_mul_of_nonneg_right (le_trans r1 z2) hA.le
        have k2 := mul_le_mul_of_nonneg_right k1 (by linarith : 0 ≤ 1 + f.u)
        calc x ≤ r * f.near dA * (1 + f.u) := g3
          _ ≤ _ := k2
          _ = _ := by ring
      have h2 : x * (1 - f.u) ^ 2 ≤ v * (1 + 8 * f.u) * (1 - f.u) ^ 2 := by
        have k1 := mul_le_mul_of_nonneg_right h1 (by positivity : 0 ≤ (1 - f.u) ^ 2)
        have k2 := mul_le_mul_of_nonneg_left pHi (by positivity : 0 ≤ v * (1 + f.u) ^ 2)
        have k3 := mul_le_mul_of_nonneg_left (poly_hi u0 u1) hv0
        calc _ ≤ _ := k1
          _ = v * (1 + f.u) ^ 2 * (f.near dA * f.near dI * (1 - f.u) ^ 2) := by ring
          _ ≤ _ := k2
          _ = v * (1 + f.u) ^ 5 := by ring
          _ ≤ _ := k3
          _ = _ := by ring
      have h3 := le_of_mul_le_mul_right h2 (by have : 0 < 1 - f.u := by linarith
                                               positivity)
      linarith
    · have h1 : v * (f.near dA * f.near dI) * (1 - f.u) ^ 2 - f.near dA * (1 - f.u) ≤ x := by
        have k1 : (v * f.near dI * (1 - f.u) - 1) * f.near dA ≤ r * f.near dA :=
          mul_le_mul_of_nonneg_right (by linarith) hA.le
        have k2 := mul_le_mul_of_nonneg_right k1 (by linarith : 0 ≤ 1 - f.u)
        calc _ = (v * f.near dI * (1 - f.u) - 1) * f.near dA * (1 - f.u) := by ring
          _ ≤ _ := k2
          _ ≤ x := g2
      have h2 : v * (1 - 8 * f.u) * (1 + f.u) ^ 2 ≤
          v * (f.near dA * f.near dI) * (1 - f.u) ^ 2 * (1 + f.u) ^ 2 := by
        have k2 := mul_le_mul_of_nonneg_left pLo (by positivity : 0 ≤ v * (1 - f.u) ^ 2)
        have k3 := mul_le_mul_of_nonneg_left (poly_lo u0 u1) hv0
        calc _ = v * ((1 - 8 * f.u) * (1 + f.u) ^ 2) := by ring
          _ ≤ _ := k3
          _ = v * (1 - f.u) ^ 2 * (1 - f.u) ^ 3 := by ring
          _ ≤ _ := k2
          _ = _ := by ring
      have h3 := le_of_mul_le_mul_right h2 (by positivity)
      have h4 := c.hi
      linarith

/-! ## Powers of two -/

theorem rep_pow {f : Fmt} (hf : Std f) {k : Int} (hk : f.least ≤ k) : f.Rep (2 ^ k) :=
  ⟨1, k, by simp, by
    have : (1 : Int) < 2 ^ f.prec := one_lt_pow₀ (by norm_num) (by have := hf.prec; omega)
    simpa using this, hk⟩

/-- A literal that denotes a power of two. -/
theorem literal_pow {f : Fmt} (hf : Std f) {k : Int} (h1 : -110 ≤ k) (h2 : k ≤ 110) {d : Rat}
    (h : Prints (2 ^ k) d) : f.round d = .fin (2 ^ k) := by
  have hx1 : (2 : Rat) ^ (-110 : Int) ≤ 2 ^ k := zpow_le_zpow_right₀ (by norm_num) h1
  have hx2 : (2 : Rat) ^ k ≤ 2 ^ (110 : Int) := zpow_le_zpow_right₀ (by norm_num) h2
  obtain ⟨l1, -, -, -⟩ := literal hf h hx1 hx2
  obtain ⟨d0, b1, b2, e⟩ := h.bounds (le_trans (zpow_le_zpow_right₀ (by norm_num) (by norm_num)) hx1)
  rw [l1]
  rcases hf with rfl | rfl
  · congr 1
    have hk := pow_pos' k
    have hu : binary64.u = 1 / 9007199254740992 := by
      simp only [Fmt.u, binary64]; norm_num
    rw [hu] at b1 b2
    have hd1 : d ≤ 2 ^ k * (1 + 1 / 4503599627370496) := by nlinarith
    have hd2 : 2 ^ k * (1 - 1 / 4503599627370496) ≤ d := by nlinarith
    by_cases hlt : d < 2 ^ k
    · have hp : (2 : Rat) ^ k = 2 ^ (k - 24) * 16777216 := by
        rw [zpow_sub₀ (by norm_num)]; norm_num
      have hp' := pow_pos' (k - 24)
      rw [near_eq binary32 d 16777216 (k - 24)]
      · push_cast; rw [hp]; ring
      · rw [abs_of_pos d0]
        have : (2 : Rat) ^ (k - 24 + (binary32.prec : Int) - 1) = 2 ^ (k - 24) * 8388608 := by
          have e1 : k - 24 + (binary32.prec : Int) - 1 = k - 24 + 23 := by
            simp only [binary32]; push_cast; ring
          rw [e1, zpow_add₀ (by norm_num)]; norm_num
        rw [this]; nlinarith
      · rw [abs_of_pos d0]
        have : k - 24 + (binary32.prec : Int) = k := by simp only [binary32]; push_cast; ring
        rw [this]; exact hlt
      · simp only [binary32]; omega
      · have e1 : d / 2 ^ (k - 24) - ((16777216 : Int) : Rat) = (d - 2 ^ k) / 2 ^ (k - 24) := by
          rw [hp]; push_cast; field_simp
        rw [e1, abs_of_nonpos (div_nonpos_of_nonpos_of_nonneg (by linarith) hp'.le), neg_lt,
          lt_div_iff₀ hp']
        nlinarith
    · have hge := not_lt.mp hlt
      have hp : (2 : Rat) ^ k = 2 ^ (k - 23) * 8388608 := by
        rw [zpow_sub₀ (by norm_num)]; norm_num
      have hp' := pow_pos' (k - 23)
      rw [near_eq binary32 d 8388608 (k - 23)]
      · push_cast; rw [hp]; ring
      · rw [abs_of_pos d0]
        have : k - 23 + (binary32.prec : Int) - 1 = k := by simp only [binary32]; push_cast; ring
        rw [this]; exact hge
      · rw [abs_of_pos d0]
        have : (2 : Rat) ^ (k - 23 + (binary32.prec : Int)) = 2 ^ (k - 23) * 16777216 := by
          have e1 : k - 23 + (binary32.prec : Int) = k - 23 + 24 := by
            simp only [binary32]; push_cast; ring
          rw [e1, zpow_add₀ (by norm_num)]; norm_num
        rw [this]; nlinarith
      · simp only [binary32]; omega
      · have e1 : d / 2 ^ (k - 23) - ((8388608 : Int) : Rat) = (d - 2 ^ k) / 2 ^ (k - 23) := by
          rw [hp]; push_cast; field_simp
        rw [e1, abs_of_nonneg (div_nonneg (by linarith) hp'.le), div_lt_iff₀ hp']
        nlinarith
  · rw [e]

/-- With a step that is a power of two the getter is exact and undone by the setter. -/
theorem pow_view {f : Fmt} (hf : Std f) {k : Int} (h1 : -100 ≤ k) (h2 : k ≤ 60) {dA dI : Rat}
    (hA : Prints (2 ^ k) dA) (hI : Prints (2 ^ (-k)) dI) {raw bits : Nat} (hr : raw < 2 ^ f.prec)
    (hb : raw < 2 ^ bits) :
    viewGet f dA 0 raw = .fin (raw * 2 ^ k) ∧ viewSet f bits dI 0 (.fin (raw * 2 ^ k)) = raw := by
  have hp53 : f.prec ≤ 53 := by rcases hf with rfl | rfl <;> decide
  have lA := literal_pow hf (by omega) (by omega) hA
  have lI := literal_pow hf (by omega) (by omega) hI
  have hle : f.least ≤ -149 := by rcases hf with rfl | rfl <;> decide
  have hraw : (raw : Rat) ≤ 2 ^ (53 : Int) := by
    have : raw ≤ 2 ^ 53 := (lt_of_lt_of_le hr (Nat.pow_le_pow_right (by omega) hp53)).le
    exact_mod_cast this
  have rep1 : f.Rep (raw * 2 ^ k) := ⟨raw, k, by simp, by
    rw [abs_of_nonneg (by omega)]; exact_mod_cast hr, by omega⟩
  have hx0 : (0 : Rat) ≤ raw * 2 ^ k := mul_nonneg (by positivity) (pow_pos' k).le
  have hx1 : (raw : Rat) * 2 ^ k ≤ 2 ^ (127 : Int) := by
    calc (raw : Rat) * 2 ^ k ≤ 2 ^ (53 : Int) * 2 ^ (60 : Int) :=
          mul_le_mul hraw (zpow_le_zpow_right₀ (by norm_num) h2) (pow_pos' _).le (pow_pos' _).le
      _ ≤ _ := by norm_num
  have e : (raw : Rat) * 2 ^ k * 2 ^ (-k) = raw := by
    rw [mul_assoc, ← zpow_add₀ (by norm_num)]; simp
  constructor
  · unfold viewGet
    rw [round_nat hf hr, lA, round_zero hf]
    simp only [Fmt.mul]
    rw [hf.round hx0 hx1, near_rep rep1]
    simp only [Fmt.add]
    rw [add_zero, hf.round hx0 hx1, near_rep rep1]
  · unfold viewSet
    rw [lI, round_zero hf]
    simp only [Fmt.mul]
    rw [e, round_nat hf hr]
    simp only [Fmt.add]
    rw [add_zero, round_nat hf hr]
    unfold Fl.toUInt satCast
    have e : Rat.floor (raw : Rat) = raw := by
      have : Rat.floor (raw : Rat) = ⌊(raw : Rat)⌋ := rfl
      rw [this]; simp
    simp only [e]
    omega

end Proto.Ieee
